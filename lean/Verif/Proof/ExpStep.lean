import Mathlib.Algebra.MonoidAlgebra.Support
import Verif.Proof.ExpPoly
/-
The lowest power of a variable, and the single-variable expansion `_expand_singular_step`.
-/
set_option linter.unusedSectionVars false
namespace SecDec
namespace Expansion
open Filter Topology Asymptotics Poly
open Subtraction (pev NonNeg pev_simplify pev_zero pev_mul)
variable {n : Nat} {F : Type} [Field F] [DecidableEq F] {φ : F →+* ℂ} {i : Fin n} {y : Fin n → ℂ}

/-- `RegularAt` with the power and the limit made explicit. -/
def Reg (φ : F →+* ℂ) (p : Poly n F) (i : Fin n) (y : Fin n → ℂ) (d : ℤ) (c : ℂ) : Prop :=
  (∀ e, p.coeffOf e ≠ 0 → d ≤ e i) ∧ c ≠ 0 ∧
    Tendsto (fun s => pev φ (Function.update y i s) p / s ^ d) (𝓝[≠] 0) (𝓝 c)

theorem regularAt_iff {p : Poly n F} : RegularAt φ p i y ↔ ∃ d c, Reg φ p i y d c :=
  ⟨fun ⟨d, h1, c, h2, h3⟩ => ⟨d, c, h1, h2, h3⟩, fun ⟨d, c, h1, h2, h3⟩ => ⟨d, h1, c, h2, h3⟩⟩

theorem coeffOf_eq_laurent (p : Poly n F) (e : Expo n) : p.coeffOf e = p.toLaurent.coeff e := by
  obtain ⟨l⟩ := p
  unfold coeffOf toLaurent
  simp only
  induction l with
  | nil => simp
  | cons t l ih =>
    rw [List.map_cons, List.sum_cons, List.filter_cons]
    rw [AddMonoidAlgebra.coeff_add, Finsupp.add_apply, ← ih]
    by_cases h : t.1 = e
    · simp [h]
    · simp [h]

theorem coeffOf_mul_ne {p q : Poly n F} {e : Expo n} (h : (p.mul q).coeffOf e ≠ 0) :
    ∃ a b, p.coeffOf a ≠ 0 ∧ q.coeffOf b ≠ 0 ∧ a + b = e := by
  classical
  rw [coeffOf_eq_laurent, toLaurent_mul] at h
  have h1 := AddMonoidAlgebra.support_coeff_mul_subset p.toLaurent q.toLaurent (by simpa using h)
  rw [Finset.mem_add] at h1
  obtain ⟨a, ha, b, hb, rfl⟩ := h1
  refine ⟨a, b, ?_, ?_, rfl⟩
  · rw [coeffOf_eq_laurent]; simpa using ha
  · rw [coeffOf_eq_laurent]; simpa using hb

theorem reg_one : Reg φ (onePoly : Poly n F) i y 0 1 := by
  refine ⟨?_, one_ne_zero, ?_⟩
  · intro e he
    by_contra hne
    apply he
    have : (fun _ => (0:ℤ)) ≠ e := by rintro rfl; simp at hne
    simp [coeffOf, onePoly, this]
  · simp [pev_one]

theorem reg_mul {p q : Poly n F} {d d' : ℤ} {c c' : ℂ} (hp : NonNeg p) (hq : NonNeg q) (h : Reg φ p i y d c)
    (h' : Reg φ q i y d' c') : Reg φ (p.mul q) i y (d + d') (c * c') := by
  refine ⟨?_, mul_ne_zero h.2.1 h'.2.1, ?_⟩
  · intro e he
    obtain ⟨a, b, ha, hb, rfl⟩ := coeffOf_mul_ne he
    exact add_le_add (h.1 a ha) (h'.1 b hb)
  · refine (h.2.2.mul h'.2.2).congr' ?_
    filter_upwards [self_mem_nhdsWithin] with s hs
    rw [pev_mul _ hp hq, zpow_add₀ hs, div_mul_div_comm]

/-- What `simplify` guarantees: at least one row, and no row with total coefficient zero unless the
polynomial is the zero polynomial. -/
def Tidy (p : Poly n F) : Prop := p.terms ≠ [] ∧ ((∀ t ∈ p.terms, p.coeffOf t.1 ≠ 0) ∨ p = zeroPoly)

theorem tidy_simplify (p : Poly n F) : Tidy p.simplify := by
  rw [Poly.simplify_nz]
  split
  · exact ⟨by simp [zeroPoly], Or.inr rfl⟩
  · rename_i h
    refine ⟨by intro h0; exact h (by simp [show p.nzTerms = [] from h0]), Or.inl ?_⟩
    intro t ht
    rw [coeffOf_eq]
    have := coeffOf_of_mem (Poly.nz_sorted p) (show t ∈ p.nzTerms from ht)
    rw [show lsum (coeffHom t.1) p.nzTerms = t.2 from this]
    exact Poly.nz_ne_zero p t ht

theorem tidy_one : Tidy (onePoly : Poly n F) :=
  ⟨by simp [onePoly], Or.inl (by intro t ht; simp [onePoly] at ht; subst ht; simp [coeffOf, onePoly])⟩

theorem minPower_spec {p : Poly n F} {b : ℤ} (h : p.minPower i = some b) :
    (∃ t ∈ p.terms, t.1 i = b) ∧ ∀ t ∈ p.terms, b ≤ t.1 i := by
  unfold minPower at h
  rw [List.min?_eq_some_iff] at h
  obtain ⟨h1, h2⟩ := h
  obtain ⟨t, ht, e⟩ := List.mem_map.1 h1
  exact ⟨⟨t, ht, e⟩, fun t ht => h2 _ (List.mem_map_of_mem ht)⟩

theorem exists_minPower {p : Poly n F} (h : p.terms ≠ []) (i : Fin n) : ∃ b, p.minPower i = some b := by
  unfold minPower
  cases hm : (p.terms.map (fun t => t.1 i)).min? with
  | some b => exact ⟨b, rfl⟩
  | none => rw [List.min?_eq_none_iff] at hm; simp at hm; exact absurd hm h

theorem tendsto_shift {p : Poly n F} (hp : NonNeg p) {b : ℤ} (hb : ∀ t ∈ p.terms, b ≤ t.1 i) :
    Tendsto (fun s => pev φ (Function.update y i s) (p.shiftPower i (-b))) (𝓝[≠] 0)
      (𝓝 (pev φ (Function.update y i 0) (p.shiftPower i (-b)))) :=
  ((pev_analytic y (nonneg_shift hp i hb) i 0).continuousAt.tendsto).mono_left nhdsWithin_le_nhds

theorem reg_min {p : Poly n F} (hp : NonNeg p) (ht : Tidy p) {b d : ℤ} {c : ℂ} (hb : p.minPower i = some b)
    (h : Reg φ p i y d c) : b = d ∧ pev φ (Function.update y i 0) (p.shiftPower i (-b)) = c := by
  obtain ⟨⟨t0, ht0, e0⟩, hmin⟩ := minPower_spec hb
  have hb0 : 0 ≤ b := e0 ▸ hp t0 ht0 i
  have hdb : d ≤ b := by
    rcases ht.2 with h1 | h1
    · rw [← e0]; exact h.1 _ (h1 t0 ht0)
    · exfalso
      apply h.2.1
      refine tendsto_nhds_unique h.2.2 ?_
      simp [h1, pev_zero]
  have key : Tendsto (fun s => s ^ (b - d) * pev φ (Function.update y i s) (p.shiftPower i (-b))) (𝓝[≠] 0) (𝓝 c) := by
    refine h.2.2.congr' ?_
    filter_upwards [self_mem_nhdsWithin] with s hs
    rw [pev_shift _ i hb0 hmin, zpow_sub₀ hs]
    simp only [Function.update_self]
    field_simp
  rcases hdb.lt_or_eq with hlt | heq
  · exfalso
    have h0 := (tendsto_zpow_zero (a := b - d) (by omega)).mul (tendsto_shift (φ := φ) (y := y) hp hmin)
    rw [zero_mul] at h0
    exact h.2.1 (tendsto_nhds_unique key h0)
  · refine ⟨heq.symm, ?_⟩
    have h0 := tendsto_shift (φ := φ) (y := y) hp hmin
    refine tendsto_nhds_unique h0 (key.congr fun s => ?_)
    simp [heq]

theorem coeffOf_lead {p : Poly n F} {b : ℤ} (hmin : ∀ t ∈ p.terms, b ≤ t.1 i) (e : Expo n) (he : e i = b) :
    ((p.shiftPower i (-b)).replace i 0).coeffOf (Function.update e i 0) = p.coeffOf e := by
  obtain ⟨l⟩ := p
  unfold coeffOf Poly.replace Poly.shiftPower
  simp only [List.map_map]
  clear hmin
  induction l with
  | nil => rfl
  | cons t l ih =>
    rw [List.map_cons, List.filter_cons, List.filter_cons]
    simp only [Function.comp, Function.update_idem, replaceCoeff, if_true, Function.update_self] at ih ⊢
    by_cases hte : t.1 = e
    · subst hte
      simp [he, ih]
    · by_cases hu : Function.update t.1 i 0 = Function.update e i 0
      · have hb : t.1 i + -b ≠ 0 := by
          intro h0
          apply hte
          funext j
          by_cases hj : j = i
          · subst hj; omega
          · have := congrFun hu j
            simpa [hj] using this
        simp [hte, hu, hb, ih]
      · simp [hte, hu, ih]

theorem generic_regular {p : Poly n F} (hp : NonNeg p) {e : Expo n} (h : p.coeffOf e ≠ 0) (i : Fin n) :
    ∀ᶠ y in generic n, RegularAt φ p i y := by
  have hs := nonneg_simplify hp
  have ht := tidy_simplify p
  obtain ⟨b, hb⟩ := exists_minPower ht.1 i
  obtain ⟨⟨t0, ht0, e0⟩, hmin⟩ := minPower_spec hb
  have hne : p.simplify.coeffOf t0.1 ≠ 0 := by
    rcases ht.2 with h1 | h1
    · exact h1 t0 ht0
    · exfalso
      apply h
      rw [← coeffOf_simplify, h1]
      simp [coeffOf, zeroPoly, List.filter_cons]
      split <;> simp
  have hG := generic_ne_zero (φ := φ) (nonneg_replace (nonneg_shift hs i hmin) i 0)
    (e := Function.update t0.1 i 0) (by rw [coeffOf_lead hmin _ e0]; exact hne)
  filter_upwards [hG] with y hy
  rw [pev_replace0 _ (nonneg_shift hs i hmin)] at hy
  refine regularAt_iff.2 ⟨b, _, ?_, hy, ?_⟩
  · intro e he
    rw [← coeffOf_simplify] at he
    obtain ⟨t, ht1, rfl⟩ : ∃ t ∈ p.simplify.terms, t.1 = e := by
      by_contra hcon
      push Not at hcon
      apply he
      rw [coeffOf_eq, lsum_coeff_of_not_mem hcon]
    exact hmin t ht1
  · refine (tendsto_shift (φ := φ) (y := y) hs hmin).congr' ?_
    filter_upwards [self_mem_nhdsWithin] with s hs0
    rw [← pev_simplify (φ := φ) (Function.update y i s) p, pev_shift _ i (e0 ▸ hs t0 ht0 i) hmin]
    have : (s ^ b : ℂ) ≠ 0 := zpow_ne_zero _ hs0
    simp only [Function.update_self]
    field_simp

/-! ### Numerator and denominator -/

/-- The contribution of the factors to numerator (`w = false`) or denominator (`w = true`). -/
noncomputable def partVal (φ : F →+* ℂ) (w : Bool) (l : List (Bool × Poly n F)) (x : Fin n → ℂ) : ℂ :=
  ((l.filter (fun f => f.1 = w)).map (fun f => pev φ x f.2)).prod

theorem numDen_aux (l : List (Bool × Poly n F)) (hl : ∀ f ∈ l, NonNeg f.2) :
    ∀ (N D : Poly n F), NonNeg N → NonNeg D → Tidy N → Tidy D →
    let r := l.foldl (fun acc f => if f.1 then (acc.1, acc.2.mul f.2) else (acc.1.mul f.2, acc.2)) (N, D)
    (NonNeg r.1 ∧ NonNeg r.2 ∧ Tidy r.1 ∧ Tidy r.2) ∧
    (∀ x, pev φ x r.1 = pev φ x N * partVal φ false l x) ∧
    (∀ x, pev φ x r.2 = pev φ x D * partVal φ true l x) ∧
    (∀ i y, (∃ d c, Reg φ N i y d c) → (∀ f ∈ l, f.1 = false → RegularAt φ f.2 i y) → ∃ d c, Reg φ r.1 i y d c) ∧
    (∀ i y, (∃ d c, Reg φ D i y d c) → (∀ f ∈ l, f.1 = true → RegularAt φ f.2 i y) → ∃ d c, Reg φ r.2 i y d c) := by
  induction l with
  | nil =>
    intro N D hN hD tN tD
    exact ⟨⟨hN, hD, tN, tD⟩, fun x => by simp [partVal], fun x => by simp [partVal], fun i y h _ => h, fun i y h _ => h⟩
  | cons f l ih =>
    intro N D hN hD tN tD
    obtain ⟨w, q⟩ := f
    have hq : NonNeg q := hl (w, q) (by simp)
    rw [List.foldl_cons]
    cases w with
    | true =>
      obtain ⟨h1, h2, h3, h4, h5⟩ := ih (fun f hf => hl f (by simp [hf])) N (D.mul q) hN (nonneg_mul hD hq) tN
        (tidy_simplify _)
      refine ⟨h1, ?_, ?_, ?_, ?_⟩
      · intro x; refine (h2 x).trans ?_; simp [partVal]
      · intro x
        refine (h3 x).trans ?_; rw [pev_mul x hD hq]; simp [partVal, mul_assoc]
      · intro i y hN' hr
        exact h4 i y hN' (fun f hf => hr f (by simp [hf]))
      · intro i y hD' hr
        refine h5 i y ?_ (fun f hf => hr f (by simp [hf]))
        obtain ⟨d, c, hd⟩ := hD'
        obtain ⟨d', c', hd'⟩ := regularAt_iff.1 (hr (true, q) (by simp) rfl)
        exact ⟨_, _, reg_mul hD hq hd hd'⟩
    | false =>
      obtain ⟨h1, h2, h3, h4, h5⟩ := ih (fun f hf => hl f (by simp [hf])) (N.mul q) D (nonneg_mul hN hq) hD
        (tidy_simplify _) tD
      refine ⟨h1, ?_, ?_, ?_, ?_⟩
      · intro x
        refine (h2 x).trans ?_; rw [pev_mul x hN hq]; simp [partVal, mul_assoc]
      · intro x; refine (h3 x).trans ?_; simp [partVal]
      · intro i y hN' hr
        refine h4 i y ?_ (fun f hf => hr f (by simp [hf]))
        obtain ⟨d, c, hd⟩ := hN'
        obtain ⟨d', c', hd'⟩ := regularAt_iff.1 (hr (false, q) (by simp) rfl)
        exact ⟨_, _, reg_mul hN hq hd hd'⟩
      · intro i y hD' hr
        exact h5 i y hD' (fun f hf => hr f (by simp [hf]))

theorem value_eq_partVal (P : RatProd n F) (x : Fin n → ℂ) :
    P.value φ x = partVal φ false P.factors x / partVal φ true P.factors x := by
  obtain ⟨l⟩ := P
  unfold RatProd.value
  simp only
  induction l with
  | nil => simp [partVal]
  | cons f l ih =>
    rw [List.map_cons, List.prod_cons, ih]
    obtain ⟨w, q⟩ := f
    cases w with
    | true => simp [partVal, polyValue_eq]; ring
    | false => simp [partVal, polyValue_eq]; ring

theorem numDen_ok (P : RatProd n F) (hP : ∀ f ∈ P.factors, NonNeg f.2) :
    (NonNeg (numDen P).1 ∧ NonNeg (numDen P).2 ∧ Tidy (numDen P).1 ∧ Tidy (numDen P).2) ∧
    (∀ x, P.value φ x = pev φ x (numDen P).1 / pev φ x (numDen P).2) ∧
    (∀ i y, (∀ f ∈ P.factors, f.1 = false → RegularAt φ f.2 i y) → ∃ d c, Reg φ (numDen P).1 i y d c) ∧
    (∀ i y, (∀ f ∈ P.factors, f.1 = true → RegularAt φ f.2 i y) → ∃ d c, Reg φ (numDen P).2 i y d c) := by
  obtain ⟨h1, h2, h3, h4, h5⟩ := numDen_aux (φ := φ) P.factors hP onePoly onePoly nonneg_one nonneg_one tidy_one tidy_one
  refine ⟨h1, ?_, fun i y => h4 i y ⟨0, 1, reg_one⟩, fun i y => h5 i y ⟨0, 1, reg_one⟩⟩
  intro x
  unfold numDen
  rw [show _ = _ from h2 x, show _ = _ from h3 x, value_eq_partVal, pev_one, one_mul, one_mul]

end Expansion
end SecDec
