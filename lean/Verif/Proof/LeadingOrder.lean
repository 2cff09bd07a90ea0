import Verif.Spec.LeadingOrder
import Verif.Proof.AnalyticOrder
import Verif.Proof.Regions
import Verif.Proof.NumerFree
import Verif.Proof.SubForm
import Verif.Props.Polynomial
/-
The sectors of `leading_order`.
-/
set_option linter.unusedSectionVars false
namespace SecDec
namespace LeadingOrder
open Expansion Set Filter Topology
open Decomp (oc mem_oc)
open Subtraction (pev NonNeg pev_simplify pev_mul pev_add pev_zero real_cpow prod_zpow_cpow)
variable {N K : ℕ} {F : Type} [Field F] [DecidableEq F] {φ : F →+* ℂ}

theorem value_pev {n : ℕ} (p : Poly n F) (x : Fin n → ℂ) : polyValue φ p x = pev φ x p := rfl

/-- The parameters and the regulator. -/
abbrev pt (x : Fin N → ℂ) (z : ℂ) : Fin (N + 1) → ℂ := Fin.append x fun _ : Fin 1 => z

theorem mono_split (x : Fin N → ℂ) (z : ℂ) (w : Fin K → ℂ) (e : Expo (N + 1 + K)) :
    Poly.mono (point x z w) e = Poly.mono (pt x z) (drop e) * ∏ k, w k ^ e (Fin.natAdd (N + 1) k) := by
  unfold Poly.mono point
  rw [Fin.prod_univ_add]
  congr 1
  · refine Finset.prod_congr rfl fun i _ => ?_
    rw [Fin.append_left]; rfl
  · exact Finset.prod_congr rfl fun i _ => by rw [Fin.append_right]

theorem mono_pt (x : Fin N → ℂ) (z : ℂ) (e : Expo (N + 1)) :
    Poly.mono (pt x z) e = (∏ i, x i ^ e (Fin.castAdd 1 i)) * z ^ e (Fin.last N) := by
  unfold Poly.mono pt
  rw [Fin.prod_univ_add]
  congr 1
  · exact Finset.prod_congr rfl fun i _ => by rw [Fin.append_left]
  · rw [Fin.prod_univ_one, Fin.append_right]
    rfl

theorem monoValue_eq {e : Expo (N + 1 + K)} (he : OnlyParameters e) (x : Fin N → ℂ) :
    monoValue e x = ∏ i, x i ^ e (Fin.castAdd K (Fin.castAdd 1 i)) := by
  unfold monoValue
  rw [mono_split, mono_pt]
  simp [drop]

theorem drop_eq {e : Expo (N + 1 + K)} (he : OnlyParameters e) (x : Fin N → ℂ) (z : ℂ) :
    Poly.mono (pt x z) (drop e) = monoValue e x := by
  rw [monoValue_eq he, mono_pt]
  have : drop e (Fin.last N) = 0 := he _ (by simp)
  rw [this, zpow_zero, mul_one]
  rfl

/-- What is inserted for a name. -/
theorem replacement_value {f : Factor (N + 1) K 1 F} (hm : OnlyParameters f.mono ∧ ∀ i, 0 ≤ f.mono i)
    (hr : ∀ t ∈ f.rest.terms, OnlyParameters t.1 ∧ ∀ i, 0 ≤ t.1 i) (x : Fin N → ℂ) (z : ℂ) :
    NonNeg (replacement false f) ∧ pev φ (pt x z) (replacement false f) = monoValue f.mono x * restValue φ f x := by
  constructor
  · intro t ht i
    simp only [replacement, Bool.false_eq_true, if_false, List.mem_map] at ht
    obtain ⟨s, hs, rfl⟩ := ht
    exact add_nonneg ((hr s hs).2 _) (hm.2 _)
  · simp only [replacement, Bool.false_eq_true, if_false, pev, restValue, polyValue, List.map_map]
    rw [← List.sum_map_mul_left]
    congr 1
    refine List.map_congr_left fun t ht => ?_
    simp only [Function.comp]
    have h1 : OnlyParameters (t.1 + f.mono) := fun i hi => by
      rw [Pi.add_apply, (hr t ht).1 i hi, hm.1 i hi, add_zero]
    rw [drop_eq h1]
    have : monoValue (t.1 + f.mono) x = Poly.mono (point x 1 fun _ => 1) t.1 * monoValue f.mono x :=
      Subtraction.mono_add' _ (hr t ht).2 hm.2
    rw [this]; ring

theorem power_value {n : ℕ} {p : Poly n F} (hp : NonNeg p) (k : ℕ) (x : Fin n → ℂ) :
    NonNeg (power p k) ∧ pev φ x (power p k) = pev φ x p ^ k := by
  have h1 : NonNeg (⟨[((fun _ => 0), 1)]⟩ : Poly n F) := by
    intro t ht i
    simp only [List.mem_singleton] at ht
    subst ht; exact le_rfl
  obtain ⟨h2, h3⟩ := Regions.foldl_mul (φ := φ) (List.replicate k p) (fun q hq => (List.eq_of_mem_replicate hq) ▸ hp) _ h1 x
  refine ⟨h2, ?_⟩
  unfold power
  rw [h3]
  simp [pev, Poly.mono]

theorem zip_prod (reps : List (Poly (N + 1) F)) (h : reps.length = K) (g : Fin K × Poly (N + 1) F → ℂ) :
    (((List.finRange K).zip reps).map g).prod = ∏ k : Fin K, g (k, reps[k.val]'(by omega)) := by
  rw [← List.prod_ofFn]
  congr 1
  apply List.ext_getElem
  · simp [h]
  · intro k h1 h2
    simp

/-- One term of a numerator. -/
theorem insertTerm_value {reps : List (Poly (N + 1) F)} (hl : reps.length = K) (hn : ∀ p ∈ reps, NonNeg p) {t : Expo (N + 1 + K) × F}
    (ht : ∀ i, 0 ≤ t.1 i) {q : Poly (N + 1) F} (h : insertTerm reps t = some q) (x : Fin N → ℂ) (z : ℂ) :
    NonNeg q ∧ pev φ (pt x z) q = φ t.2 * Poly.mono (point x z fun k => pev φ (pt x z) (reps[k.val]'(by omega))) t.1 := by
  unfold insertTerm at h
  split at h
  · rw [Option.some.injEq] at h
    subst h
    have h1 : NonNeg (⟨[(drop t.1, t.2)]⟩ : Poly (N + 1) F) := by
      intro s hs i
      simp only [List.mem_singleton] at hs
      subst hs; exact ht _
    have h0 : ∀ x ∈ (List.finRange K).zip reps, NonNeg x.2 := fun x hx => hn _ (List.of_mem_zip hx).2
    obtain ⟨h2, h3⟩ := Regions.foldl_mul (φ := φ)
      (((List.finRange K).zip reps).map fun x => power x.2 (t.1 (Fin.natAdd (N + 1) x.1)).toNat)
      (by
        intro p hp
        obtain ⟨y, hy, rfl⟩ := List.mem_map.1 hp
        exact (power_value (φ := φ) (h0 y hy) _ (pt x z)).1) _ h1 (pt x z)
    refine ⟨h2, ?_⟩
    have hpw : (((List.finRange K).zip reps).map (pev φ (pt x z) ∘ fun x => power x.2 (t.1 (Fin.natAdd (N + 1) x.1)).toNat)) =
        ((List.finRange K).zip reps).map fun y => pev φ (pt x z) y.2 ^ (t.1 (Fin.natAdd (N + 1) y.1)).toNat :=
      List.map_congr_left fun y hy => (power_value (h0 y hy) _ _).2
    rw [h3, List.map_map, mono_split, hpw, zip_prod _ hl]
    have : pev φ (pt x z) (⟨[(drop t.1, t.2)]⟩ : Poly (N + 1) F) = φ t.2 * Poly.mono (pt x z) (drop t.1) := by simp [pev]
    rw [this, mul_assoc]
    congr 2
    refine Finset.prod_congr rfl fun k _ => ?_
    beta_reduce
    rw [← zpow_natCast, Int.toNat_of_nonneg (ht _)]
  · cases h

/-- A numerator with the names inserted. -/
theorem numerator_value {reps : List (Poly (N + 1) F)} (hl : reps.length = K) (hn : ∀ p ∈ reps, NonNeg p) {p : Poly (N + 1 + K) F}
    (hp : ∀ t ∈ p.terms, ∀ i, 0 ≤ t.1 i) {q : Poly (N + 1) F} (h : numerator reps p = some q) (x : Fin N → ℂ) (z : ℂ) :
    NonNeg q ∧ pev φ (pt x z) q = polyValue φ p (point x z fun k => pev φ (pt x z) (reps[k.val]'(by omega))) := by
  unfold numerator at h
  obtain ⟨l, h1, rfl⟩ := Option.map_eq_some_iff.1 h
  have hz : NonNeg (Poly.zeroPoly : Poly (N + 1) F) := by
    intro t ht i
    simp only [Poly.zeroPoly, List.mem_singleton] at ht
    subst ht; exact le_rfl
  have hl' : ∀ q ∈ l, NonNeg q := fun q hq => by
    obtain ⟨t, ht, e⟩ := Numer.mapM_mem h1 q hq
    exact (insertTerm_value (φ := φ) hl hn (hp t ht) e x z).1
  obtain ⟨h2, h3⟩ := Regions.foldl_add (φ := φ) l id hl' _ hz (pt x z)
  refine ⟨nonneg_simplify h2, ?_⟩
  rw [pev_simplify]
  refine h3.trans ?_
  rw [pev_zero, zero_add]
  unfold polyValue
  clear h h2 h3 hl' hz
  generalize p.terms = ts at h1 hp
  induction ts generalizing l with
  | nil => simp at h1; subst h1; simp
  | cons t ts ih =>
    rw [List.mapM_cons] at h1
    obtain ⟨q, hq, h1⟩ := Option.bind_eq_some_iff.1 h1
    obtain ⟨l', hl', h1⟩ := Option.bind_eq_some_iff.1 h1
    rw [Option.pure_def, Option.some.injEq] at h1
    subst h1
    rw [List.map_cons, List.sum_cons, List.map_cons, List.sum_cons, ih _ hl' fun s hs => hp s (by simp [hs])]
    congr 1
    exact (insertTerm_value hl hn (hp t (by simp)) hq x z).2

/-- The monomial which is factored out of a numerator. -/
theorem numeratorPowers_value {reps : List (Poly (N + 1) F)} (hl : reps.length = K) (hn : ∀ p ∈ reps, NonNeg p) {p : Poly (N + 1 + K) F}
    (hp : ∀ t ∈ p.terms, ∀ i, 0 ≤ t.1 i) {m : Expo (N + 1)} (h : numeratorPowers reps p = some m) :
    (∀ i, 0 ≤ m i) ∧ ∃ r : Poly (N + 1) F, NonNeg r ∧ ∀ (x : Fin N → ℂ) (z : ℂ),
      polyValue φ p (point x z fun k => pev φ (pt x z) (reps[k.val]'(by omega))) = Poly.mono (pt x z) m * pev φ (pt x z) r := by
  unfold numeratorPowers at h
  obtain ⟨q, hq, h⟩ := Option.bind_eq_some_iff.1 h
  obtain ⟨res, hres, h⟩ := Option.bind_eq_some_iff.1 h
  have hqn : NonNeg q := (numerator_value (φ := φ) hl hn hp hq (fun _ => 0) 0).1
  obtain ⟨-, h2, k, -, h4, h5⟩ := Poly.C05_refactorize _ _ _ hres
  have hsel : ∀ i, Poly.Selected ([] : List (Fin (N + 1))) i := fun i => by simp [Poly.Selected]
  have hm : m = k := by
    rw [h4] at h
    simp only [List.map_cons, List.map_nil, List.head?_cons, Option.map_some, Option.some.injEq] at h
    rw [← h]
    funext i; simp
  subst hm
  have hk : ∀ i, 0 ≤ m i := by
    intro i
    obtain ⟨⟨t, ht, h0⟩, -⟩ := h2 i (hsel i)
    rw [h5] at ht
    obtain ⟨s, hs, rfl⟩ := List.mem_map.1 ht
    have : s.1 i - m i = 0 := h0
    have := hqn s hs i
    omega
  have hrn : NonNeg res.2 := fun t ht i => (h2 i (hsel i)).2 t ht
  refine ⟨hk, res.2, hrn, fun x z => ?_⟩
  rw [← (numerator_value hl hn hp hq x z).2]
  unfold pev
  rw [h5, List.map_map, ← List.sum_map_mul_left]
  congr 1
  refine List.map_congr_left fun t ht => ?_
  have : t.1 = m + (t.1 - m) := by abel
  have ht2 : ∀ i, 0 ≤ (t.1 - m) i := fun i => hrn (t.1 - m, t.2) (by rw [h5]; exact List.mem_map.2 ⟨t, ht, rfl⟩) i
  have h6 : Poly.mono (pt x z) t.1 = Poly.mono (pt x z) m * Poly.mono (pt x z) (t.1 - m) := by
    rw [← Subtraction.mono_add' _ hk ht2, ← this]
  simp only [Function.comp]
  rw [h6]; ring

/-! ### The exponents -/

/-- The coefficient of the regulator. -/
def slope (p : Poly 1 ℚ) : ℚ := (p.terms.map fun t => if t.1 0 = 1 then t.2 else 0).sum

theorem exponentAt_eq {p : Poly 1 ℚ} (hp : Affine p) (z : ℂ) : exponentAt p z = (atZero p : ℂ) + (slope p : ℂ) * z := by
  unfold exponentAt polyValue atZero slope
  unfold Affine at hp
  generalize p.terms = l at hp
  induction l with
  | nil => simp
  | cons t l ih =>
    simp only [List.map_cons, List.sum_cons]
    rw [ih fun s hs => hp s (by simp [hs])]
    have hm : Poly.mono (fun _ : Fin 1 => z) t.1 = z ^ t.1 0 := by simp [Poly.mono]
    have h0 : t.1 = (fun _ => 0) ↔ t.1 0 = 0 := ⟨fun h => by rw [h], fun h => by funext i; rw [Subsingleton.elim i 0]; exact h⟩
    rcases hp t (by simp) with h | h
    · rw [if_pos (h0.2 h), if_neg (by omega), hm, h]
      simp; ring
    · rw [if_neg (fun h' => by have := h0.1 h'; omega), if_pos h, hm, h]
      simp; ring

/-- The power of a parameter: its value at zero. -/
theorem powerAt_eq {s : Sector (N + 1) K 1 F} (hs : ∀ f ∈ s.cast, Affine f.exponent) (i : Fin N) (z : ℂ) :
    powerAt s i z = ((powers s (Fin.castAdd K (Fin.castAdd 1 i)) : ℚ) : ℂ) +
      ((s.cast.map fun f => (f.mono (Fin.castAdd K (Fin.castAdd 1 i)) : ℚ) * slope f.exponent).sum : ℚ) * z := by
  have key : ∀ l : List (Factor (N + 1) K 1 F), (∀ f ∈ l, Affine f.exponent) →
      (l.map fun f => (f.mono (Fin.castAdd K (Fin.castAdd 1 i)) : ℂ) * exponentAt f.exponent z).sum =
        (((l.map fun f => (f.mono (Fin.castAdd K (Fin.castAdd 1 i)) : ℚ) * atZero f.exponent).sum : ℚ) : ℂ) +
        (((l.map fun f => (f.mono (Fin.castAdd K (Fin.castAdd 1 i)) : ℚ) * slope f.exponent).sum : ℚ) : ℂ) * z := by
    intro l hl
    induction l with
    | nil => simp
    | cons f l ih =>
      simp only [List.map_cons, List.sum_cons]
      rw [ih fun g hg => hl g (by simp [hg]), exponentAt_eq (hl f (by simp))]
      simp only [Rat.cast_add, Rat.cast_mul, Rat.cast_intCast]
      ring
  unfold powerAt powers
  rw [key _ hs, Rat.cast_add, Rat.cast_intCast, add_assoc]

end LeadingOrder
end SecDec
