import Mathlib.Analysis.SpecialFunctions.Pow.Deriv
import Mathlib.Analysis.Complex.CauchyIntegral
import Verif.Spec.LoopCommon
import Verif.Proof.RegionsExp
import Verif.Proof.PolyCanon
/-
Proofs about the numerator.
-/
set_option linter.unusedSectionVars false
namespace SecDec
namespace LoopCommon
open Filter Topology Poly Regions Expansion
open Subtraction (pev NonNeg pev_simplify pev_mul pev_add pev_mulScalar)
variable {K : Type} [Field K] [DecidableEq K] {φ : K →+* ℂ}

/-! ### tuples -/

theorem update_append {N : Nat} (y : Fin N → ℂ) (c : Fin 2 → ℂ) (i : Fin N) (s : ℂ) :
    Function.update (Fin.append y c) (i.castAdd 2) s = Fin.append (Function.update y i s) c := by
  funext j
  refine Fin.addCases (fun j => ?_) (fun j => ?_) j
  · by_cases h : j = i
    · subst h; simp
    · rw [Function.update_of_ne (fun h' => h (Fin.castAdd_injective N 2 h')), Fin.append_left, Fin.append_left, Function.update_of_ne h]
  · rw [Function.update_of_ne, Fin.append_right, Fin.append_right]
    intro h'
    have := congrArg Fin.val h'
    simp at this; omega

theorem insertNth_append {α : Type} {N : Nat} (y : Fin N → α) (c : Fin 2 → α) (i : Fin (N+1)) (v : α) :
    (Fin.insertNth (α := fun _ : Fin (N+2+1) => α) (i.castAdd 2 : Fin (N+1+2)) v (Fin.append y c)) =
      (Fin.append (i.insertNth (α := fun _ => α) v y) c : Fin (N+1+2) → α) := by
  rw [Fin.insertNth_eq_iff]
  constructor
  · rw [Fin.append_left]; simp
  · funext j
    refine Fin.addCases (fun j => ?_) (fun j => ?_) j
    · have : Fin.succAbove (n := N+2) (i.castAdd 2 : Fin (N+1+2)) (j.castAdd 2) = ((i.succAbove j).castAdd 2 : Fin (N+1+2)) := by
        ext; simp [Fin.succAbove, Fin.lt_def]; split <;> rfl
      simp only [Fin.removeNth, this]
      rw [Fin.append_left, Fin.append_left]; simp
    · have : Fin.succAbove (n := N+2) (i.castAdd 2 : Fin (N+1+2)) (Fin.natAdd N j) = (Fin.natAdd (N+1) j : Fin (N+1+2)) := by
        have := i.2
        ext; simp only [Fin.succAbove, Fin.lt_def, Fin.val_castSucc, Fin.val_natAdd, Fin.val_castAdd]
        rw [if_neg (by omega)]; simp; omega
      simp only [Fin.removeNth, this]
      rw [Fin.append_right, Fin.append_right]

theorem pev_remove2 {N : Nat} (i : Fin (N+1)) {p : Poly (N+1+2) K} (hp : NonNeg p) (y : Fin N → ℂ) (c : Fin 2 → ℂ) :
    pev φ (Fin.append y c) (remove2 i p) = pev φ (Fin.append (i.insertNth (α := fun _ => ℂ) 0 y) c) p := by
  show pev φ (Fin.append y c) (Poly.replaceRemove (n := N+2) p (i.castAdd 2) 0).simplify = _
  rw [pev_simplify, pev_replaceRemove _ hp, insertNth_append]

theorem nonneg_remove2 {N : Nat} (i : Fin N) {p : Poly (N+2) K} (hp : NonNeg p) : NonNeg (remove2 i p) := by
  cases N with
  | zero => exact i.elim0
  | succ N => exact nonneg_simplify (nonneg_replaceRemove (n := N+2) hp _)

/-! ### one derivative -/

/-- the function with numerator `q.1` and the exponents `q.2` -/
noncomputable def G (φ : K →+* ℂ) {N : Nat} (Ue Fe : Poly (N+2) K) (q : Poly (N+2) K × K × K) (y : Fin N → ℂ) : ℂ :=
  pev φ (Fin.append y 0) Ue ^ φ q.2.1 * pev φ (Fin.append y 0) Fe ^ (- φ q.2.2) *
    pev φ (Fin.append y ![pev φ (Fin.append y 0) Ue, pev φ (Fin.append y 0) Fe]) q.1

theorem nonneg_deriveOnce {N : Nat} {dU dF U F : Poly (N+2) K} (hdU : NonNeg dU) (hdF : NonNeg dF) (hU : NonNeg U) (hF : NonNeg F)
    (i : Fin N) {q : Poly (N+2) K × K × K} (hq : NonNeg q.1) : NonNeg (deriveOnce dU dF U F i q).1 := by
  have h1 := nonneg_mul (nonneg_mulScalar hdU q.2.1) hq
  have h2 := nonneg_mul (nonneg_mulScalar hdF (-q.2.2)) hq
  have h3 := nonneg_add' (nonneg_add' (nonneg_derive hq (i.castAdd 2)) (nonneg_mul (nonneg_derive hq (iF N)) hdF))
    (nonneg_mul (nonneg_derive hq (iU N)) hdU)
  unfold deriveOnce
  simp only
  split
  · exact nonneg_add' (nonneg_add' (nonneg_mul h1 hF) (nonneg_mul h2 hU)) (nonneg_mul (nonneg_mul h3 hU) hF)
  · exact nonneg_add' (nonneg_add' (nonneg_mul h1 hF) h2) (nonneg_mul h3 hF)

theorem deriveOnce_val {N : Nat} {Ue Fe U F : Poly (N+2) K} (hUe : NonNeg Ue) (hFe : NonNeg Fe) (hU : NonNeg U) (hF : NonNeg F)
    (iUe : ∀ y c, pev φ (Fin.append y c) Ue = pev φ (Fin.append y 0) Ue)
    (iFe : ∀ y c, pev φ (Fin.append y c) Fe = pev φ (Fin.append y 0) Fe)
    (sU : ∀ y c, pev φ (Fin.append y c) U = c 0) (sF : ∀ y c, pev φ (Fin.append y c) F = c 1)
    (i : Fin N) {q : Poly (N+2) K × K × K} (hq : NonNeg q.1) (y : Fin N → ℂ)
    (hu : pev φ (Fin.append y 0) Ue ∈ Complex.slitPlane) (hv : pev φ (Fin.append y 0) Fe ∈ Complex.slitPlane) :
    HasDerivAt (fun s => G φ Ue Fe q (Function.update y i s))
      (G φ Ue Fe (deriveOnce (Ue.derive (i.castAdd 2)) (Fe.derive (i.castAdd 2)) U F i q) y) (y i) := by
  obtain ⟨Nu, n, m⟩ := q
  simp only at hq
  set u := pev φ (Fin.append y 0) Ue with hudef
  set v := pev φ (Fin.append y 0) Fe with hvdef
  set c : Fin 2 → ℂ := ![u, v] with hc
  set u' := pev φ (Fin.append y c) (Ue.derive (i.castAdd 2)) with hu'
  set v' := pev φ (Fin.append y c) (Fe.derive (i.castAdd 2)) with hv'
  have du : HasDerivAt (fun s => pev φ (Fin.append (Function.update y i s) 0) Ue) u' (y i) := by
    have := pev_derive (φ := φ) (Fin.append y c) hUe (i.castAdd 2)
    rw [Fin.append_left] at this
    refine this.congr_of_eventuallyEq (Eventually.of_forall fun s => ?_)
    simp only
    rw [update_append, iUe _ c]
  have dv : HasDerivAt (fun s => pev φ (Fin.append (Function.update y i s) 0) Fe) v' (y i) := by
    have := pev_derive (φ := φ) (Fin.append y c) hFe (i.castAdd 2)
    rw [Fin.append_left] at this
    refine this.congr_of_eventuallyEq (Eventually.of_forall fun s => ?_)
    simp only
    rw [update_append, iFe _ c]
  have dN : HasDerivAt (fun s => pev φ (Fin.append (Function.update y i s)
        ![pev φ (Fin.append (Function.update y i s) 0) Ue, pev φ (Fin.append (Function.update y i s) 0) Fe]) Nu)
      (pev φ (Fin.append y c) (Nu.derive (i.castAdd 2)) + (u' * pev φ (Fin.append y c) (Nu.derive (iU N)) +
        v' * pev φ (Fin.append y c) (Nu.derive (iF N)))) (y i) := by
    have h := pev_chain (φ := φ) hq (s := y i) (γ := fun s => Fin.append (Function.update y i s)
        ![pev φ (Fin.append (Function.update y i s) 0) Ue, pev φ (Fin.append (Function.update y i s) 0) Fe])
        (γ' := Fin.append (Pi.single i 1) ![u', v']) (by
      intro k
      refine Fin.addCases (fun j => ?_) (fun j => ?_) k
      · simp only [Fin.append_left]
        exact hasDerivAt_pi.1 (hasDerivAt_update y i (y i)) j
      · simp only [Fin.append_right]
        fin_cases j
        · exact du
        · exact dv)
    refine h.congr_deriv ?_
    simp only [Function.update_eq_self]
    rw [Fin.sum_univ_add]
    simp only [Fin.append_left, Fin.append_right, Fin.sum_univ_two, Matrix.cons_val_zero, Matrix.cons_val_one]
    congr 1
    rw [Finset.sum_eq_single i]
    · simp [hc, hudef, hvdef]
    · intro j _ hj; simp [hj]
    · intro h; exact absurd (Finset.mem_univ i) h
  have hu0 : u ≠ 0 := Complex.slitPlane_ne_zero hu
  have hv0 : v ≠ 0 := Complex.slitPlane_ne_zero hv
  have d1 := du.cpow_const (c := φ n) (by simpa only [Function.update_eq_self] using hu)
  have d2 := dv.cpow_const (c := - φ m) (by simpa only [Function.update_eq_self] using hv)
  have d := (d1.mul d2).mul dN
  refine d.congr_deriv ?_
  simp only [Pi.mul_apply, Function.update_eq_self]
  have p1 : u ^ (φ n - 1) = u ^ (φ n) / u := by rw [Complex.cpow_sub _ _ hu0, Complex.cpow_one]
  have p2 : v ^ (- φ m - 1) = v ^ (- φ m) / v := by rw [Complex.cpow_sub _ _ hv0, Complex.cpow_one]
  have p3 : v ^ (- (φ m + 1)) = v ^ (- φ m) / v := by rw [← p2]; congr 1; ring
  have nnU := nonneg_derive hUe (i.castAdd 2)
  have nnF := nonneg_derive hFe (i.castAdd 2)
  have nn1 := nonneg_mul (nonneg_mulScalar nnU n) hq
  have nn2 := nonneg_mul (nonneg_mulScalar nnF (-m)) hq
  have nn3a := nonneg_mul (nonneg_derive hq (iF N)) nnF
  have nn3b := nonneg_mul (nonneg_derive hq (iU N)) nnU
  have nn3 := nonneg_add' (nonneg_add' (nonneg_derive hq (i.castAdd 2)) nn3a) nn3b
  have e1 : pev φ (Fin.append y c) (((Ue.derive (i.castAdd 2)).mulScalar n).mul Nu) = u' * φ n * pev φ (Fin.append y c) Nu := by
    rw [pev_mul _ (nonneg_mulScalar nnU n) hq, pev_mulScalar]
  have e2 : pev φ (Fin.append y c) (((Fe.derive (i.castAdd 2)).mulScalar (-m)).mul Nu) = v' * (- φ m) * pev φ (Fin.append y c) Nu := by
    rw [pev_mul _ (nonneg_mulScalar nnF (-m)) hq, pev_mulScalar, map_neg]
  have e3 : pev φ (Fin.append y c) (((Nu.derive (i.castAdd 2)).add ((Nu.derive (iF N)).mul (Fe.derive (i.castAdd 2)))).add
      ((Nu.derive (iU N)).mul (Ue.derive (i.castAdd 2)))) = pev φ (Fin.append y c) (Nu.derive (i.castAdd 2)) +
      pev φ (Fin.append y c) (Nu.derive (iF N)) * v' + pev φ (Fin.append y c) (Nu.derive (iU N)) * u' := by
    rw [pev_add, pev_add, pev_mul _ (nonneg_derive hq _) nnF, pev_mul _ (nonneg_derive hq _) nnU]
  have sU' : pev φ (Fin.append y c) U = u := by rw [sU]; rfl
  have sF' : pev φ (Fin.append y c) F = v := by rw [sF]; rfl
  unfold deriveOnce
  simp only
  split
  · simp only [G]
    rw [← hudef, ← hvdef, ← hc, pev_add, pev_add, pev_mul _ nn1 hF, pev_mul _ nn2 hU, pev_mul _ (nonneg_mul nn3 hU) hF,
      pev_mul _ nn3 hU, e1, e2, e3, sU', sF']
    rw [map_sub, map_add, map_one, p1, p2, p3]
    field_simp
    ring
  · rename_i hz
    have hz' : u' = 0 := by
      simp only [List.any_eq_true, decide_eq_true_eq, not_exists, not_and, not_not, coeffs, List.mem_map] at hz
      rw [hu']
      unfold pev
      refine List.sum_eq_zero fun r hr => ?_
      obtain ⟨t, ht, rfl⟩ := List.mem_map.1 hr
      rw [hz t.2 ⟨t, ht, rfl⟩]; simp
    simp only [G]
    rw [← hudef, ← hvdef, ← hc, pev_add, pev_add, pev_mul _ nn1 hF, pev_mul _ nn3 hF, e1, e2, e3, sF']
    rw [map_add, map_one, p1, p2, p3, hz']
    field_simp
    ring

/-! ### the exponents -/

theorem deriveOnce_exponents {N : Nat} (dU dF U F : Poly (N+2) K) (i : Fin N) (q : Poly (N+2) K × K × K) (k : Nat) :
    ((deriveOnce dU dF U F i)^[k] q).2 =
      (q.2.1 - (if dU.coeffs.any (fun c => decide (c ≠ 0)) then (k : K) else 0), q.2.2 + (k : K)) := by
  induction k with
  | zero => simp
  | succ k ih =>
    rw [Function.iterate_succ_apply']
    generalize (deriveOnce dU dF U F i)^[k] q = r at ih
    obtain ⟨r1, r2⟩ := r
    simp only at ih
    subst ih
    unfold deriveOnce
    simp only
    split <;> simp [add_assoc, sub_sub]

theorem nonneg_iterate {N : Nat} {dU dF U F : Poly (N+2) K} (hdU : NonNeg dU) (hdF : NonNeg dF) (hU : NonNeg U) (hF : NonNeg F)
    (i : Fin N) {q : Poly (N+2) K × K × K} (hq : NonNeg q.1) (k : Nat) : NonNeg ((deriveOnce dU dF U F i)^[k] q).1 := by
  induction k with
  | zero => exact hq
  | succ k ih => rw [Function.iterate_succ_apply']; exact nonneg_deriveOnce hdU hdF hU hF i ih

/-! ### which derivatives of U vanish -/

theorem coeffOf_ne_zero {N : Nat} {p : Poly N K} {e : Expo N} (h : p.coeffOf e ≠ 0) : ∃ t ∈ p.terms, t.1 = e ∧ t.2 ≠ 0 := by
  by_contra hc
  push Not at hc
  refine h ?_
  unfold coeffOf
  refine List.sum_eq_zero fun c hcm => ?_
  obtain ⟨t, ht, rfl⟩ := List.mem_map.1 hcm
  rw [List.mem_filter, decide_eq_true_eq] at ht
  exact hc t ht.1 ht.2

/-- the exponents of the rows are different -/
def Distinct {N : Nat} (p : Poly N K) : Prop := (p.terms.map (·.1)).Nodup

theorem coeffOf_distinct {N : Nat} {p : Poly N K} (hd : Distinct p) {t : Expo N × K} (ht : t ∈ p.terms) : p.coeffOf t.1 = t.2 := by
  unfold Distinct at hd
  unfold coeffOf
  generalize p.terms = l at hd ht
  induction l with
  | nil => simp at ht
  | cons a l ih =>
    rw [List.map_cons, List.nodup_cons] at hd
    rcases List.mem_cons.1 ht with rfl | h
    · rw [List.filter_cons_of_pos (by simp), List.filter_eq_nil_iff.2, List.map_cons]
      · simp
      · intro r hr
        simp only [decide_eq_true_eq]
        intro h'
        exact hd.1 (h' ▸ List.mem_map_of_mem hr)
    · rw [List.filter_cons_of_neg]
      · exact ih hd.2 h
      · simp only [decide_eq_true_eq]
        intro h'
        exact hd.1 (h' ▸ List.mem_map_of_mem h)

theorem distinct_simplify {N : Nat} (p : Poly N K) : Distinct p.simplify := by
  unfold Distinct
  rw [List.nodup_iff_pairwise_ne, List.pairwise_map]
  have h : p.simplify.terms.Pairwise (fun a b => KLt a.1 b.1) := by
    rw [simplify_nz]
    split
    · simp [zeroPoly]
    · exact nz_sorted p
  refine h.imp ?_
  intro a b h' heq
  rw [heq] at h'
  exact KLt_irrefl _ h'

theorem any_derive [CharZero K] {N : Nat} {p : Poly N K} (hd : Distinct p) (k : Fin N) :
    (p.derive k).coeffs.any (fun c => decide (c ≠ 0)) = true ↔ ∃ e, e k ≠ 0 ∧ p.coeffOf e ≠ 0 := by
  rw [List.any_eq_true]
  simp only [decide_eq_true_eq, coeffs, List.mem_map]
  unfold Poly.derive
  simp only
  constructor
  · rintro ⟨c, ⟨t, ht, rfl⟩, hc⟩
    split at ht
    · simp [zeroPoly] at ht; simp [ht] at hc
    · simp only [List.mem_map, List.mem_filter, decide_eq_true_eq] at ht
      obtain ⟨r, ⟨hr, hk⟩, rfl⟩ := ht
      refine ⟨r.1, hk, ?_⟩
      rw [coeffOf_distinct hd hr]
      exact left_ne_zero_of_mul hc
  · rintro ⟨e, he, hc⟩
    obtain ⟨t, ht, rfl, hne⟩ := coeffOf_ne_zero hc
    have hmem : (Function.update t.1 k (t.1 k - 1), t.2 * ((t.1 k : Int) : K)) ∈ (p.terms.filter (fun t => decide (t.1 k ≠ 0))).map
        (fun t => (Function.update t.1 k (t.1 k - 1), t.2 * ((t.1 k : Int) : K))) :=
      List.mem_map.2 ⟨t, List.mem_filter.2 ⟨ht, by simpa using he⟩, rfl⟩
    rw [if_neg (by intro h0; rw [List.length_eq_zero_iff] at h0; rw [h0] at hmem; simp at hmem)]
    exact ⟨_, ⟨_, hmem, rfl⟩, mul_ne_zero hne (by exact_mod_cast he)⟩

theorem coeffOf_replaceRemove {N : Nat} (p : Poly (N+1) K) (i : Fin (N+1)) (e : Expo N) :
    (p.replaceRemove i 0).coeffOf e = p.coeffOf (i.insertNth (α := fun _ => Int) 0 e) := by
  unfold coeffOf replaceRemove
  generalize p.terms = l
  induction l with
  | nil => simp
  | cons t l ih =>
    simp only [List.map_cons, List.filter_cons]
    have h1 : t.1 = i.insertNth (α := fun _ => Int) 0 e ↔ t.1 i = 0 ∧ (fun k => t.1 (i.succAbove k)) = e := by
      rw [eq_comm, Fin.insertNth_eq_iff, eq_comm, eq_comm (a := e)]; rfl
    by_cases h2 : (fun k => t.1 (i.succAbove k)) = e
    · by_cases h3 : t.1 i = 0
      · rw [if_pos (by simpa using h2), if_pos (by simpa using h1.2 ⟨h3, h2⟩)]
        simp only [List.map_cons, List.sum_cons, ih]
        simp [replaceCoeff, h3]
      · rw [if_pos (by simpa using h2), if_neg (by simpa using fun h => h3 (h1.1 h).1)]
        simp only [List.map_cons, List.sum_cons, ih]
        simp [replaceCoeff, h3]
    · rw [if_neg (by simpa using h2), if_neg (by simpa using fun h => h2 (h1.1 h).2)]
      exact ih

theorem coeffOf_remove2 {N : Nat} (p : Poly (N+1+2) K) (i : Fin (N+1)) (e : Expo N) (c : Fin 2 → Int) :
    (remove2 i p).coeffOf (Fin.append e c) = p.coeffOf (Fin.append (i.insertNth (α := fun _ => Int) 0 e) c) := by
  show (Poly.replaceRemove (n := N+2) p (i.castAdd 2) 0).simplify.coeffOf _ = _
  rw [coeffOf_simplify, coeffOf_replaceRemove, insertNth_append]

theorem distinct_remove2 {N : Nat} (i : Fin N) (p : Poly (N+2) K) : Distinct (remove2 i p) := by
  cases N with
  | zero => exact i.elim0
  | succ N => exact distinct_simplify _

/-! ### the loop -/

variable {P : Nat}

/-- the derivatives with respect to the parameters `≥ i` -/
noncomputable def mixedFrom (ks : Fin P → Nat) (f : (Fin P → ℂ) → ℂ) (i : Nat) : (Fin P → ℂ) → ℂ :=
  ((List.finRange P).drop i).foldr (fun i g => (partialDeriv i)^[ks i] g) f

theorem drop_finRange (i : Fin P) : (List.finRange P).drop i = i :: (List.finRange P).drop (i+1) := by
  rw [List.drop_eq_getElem_cons (by simp)]
  simp

theorem mixedFrom_step (ks : Fin P → Nat) (f : (Fin P → ℂ) → ℂ) (i : Fin P) :
    mixedFrom ks f i = (partialDeriv i)^[ks i] (mixedFrom ks f (i+1)) := by
  unfold mixedFrom
  rw [drop_finRange]; rfl

open Classical in
/-- number of derivatives that lower the exponent of `U` -/
noncomputable def lowered (U : Poly P K) (ks : Nat → Nat) (zeros : Nat → Bool) (i : Nat) : Nat :=
  (((List.finRange P).drop i).map (fun j => if Alive U zeros j then ks j else 0)).sum

open Classical in
theorem lowered_step (U : Poly P K) (ks : Nat → Nat) (zeros : Nat → Bool) (i : Fin P) :
    lowered U ks zeros i = (if Alive U zeros i then ks i else 0) + lowered U ks zeros (i+1) := by
  unfold lowered
  rw [drop_finRange, List.map_cons, List.sum_cons]

/-- number of derivatives -/
def total (ks : Nat → Nat) (i : Nat) : Nat := (((List.finRange P).drop i).map (fun j : Fin P => ks j)).sum

theorem total_step (ks : Nat → Nat) (i : Fin P) : total (P := P) ks i = ks i + total (P := P) ks (i+1) := by
  unfold total
  rw [drop_finRange, List.map_cons, List.sum_cons]

/-- the parameters without a number vanish -/
def Off {N : Nat} {α : Type} [Zero α] (σ : Fin N → Fin P) (x : Fin P → α) : Prop := ∀ j, j ∉ Set.range σ → x j = 0

structure Inv (φ : K →+* ℂ) (U F : Poly P K) (f : (Fin P → ℂ) → ℂ) (n m : K) (ks : Nat → Nat) (zeros : Nat → Bool)
    (i : Nat) (s : St K) (σ : Fin s.N → Fin P) : Prop where
  mono : StrictMono σ
  range : ∀ j : Fin P, j ∈ Set.range σ ↔ (j < i ∨ zeros j = false)
  low : ∀ j, j < i → ∃ h : j < s.N, (σ ⟨j, h⟩ : Nat) = j
  nnU : NonNeg s.Uexp
  nnF : NonNeg s.Fexp
  nnu : NonNeg s.U
  nnf : NonNeg s.F
  nnN : NonNeg s.Nu
  iU : ∀ y c, pev φ (Fin.append y c) s.Uexp = pev φ (Fin.append y 0) s.Uexp
  iF : ∀ y c, pev φ (Fin.append y c) s.Fexp = pev φ (Fin.append y 0) s.Fexp
  sU : ∀ y c, pev φ (Fin.append y c) s.U = c 0
  sF : ∀ y c, pev φ (Fin.append y c) s.F = c 1
  vU : ∀ x, Off σ x → pev φ (Fin.append (x ∘ σ) 0) s.Uexp = pev φ x U
  vF : ∀ x, Off σ x → pev φ (Fin.append (x ∘ σ) 0) s.Fexp = pev φ x F
  val : ∀ x, Off σ x → pev φ x U ∈ Complex.slitPlane → pev φ x F ∈ Complex.slitPlane →
    G φ s.Uexp s.Fexp (s.Nu, s.n, s.m) (x ∘ σ) = mixedFrom (fun j => ks j) f i x
  co : ∀ e : Expo P, Off σ e → s.Uexp.coeffOf (Fin.append (e ∘ σ) 0) = U.coeffOf e
  co' : ∀ e, s.Uexp.coeffOf e ≠ 0 → ∃ e', e = Fin.append e' 0
  dis : Distinct s.Uexp
  en : s.n + (lowered U ks zeros i : K) = n
  em : s.m = m + (total (P := P) ks i : K)

theorem append_eta {α : Type} {N : Nat} (e : Fin (N+2) → α) :
    e = Fin.append (fun k => e (k.castAdd 2)) (fun k => e (Fin.natAdd N k)) := by
  funext j
  refine Fin.addCases (fun j => ?_) (fun j => ?_) j
  · rw [Fin.append_left]
  · rw [Fin.append_right]

theorem off_comp_surj {N : Nat} {σ : Fin N → Fin P} (hσ : Function.Injective σ) {α : Type} [Zero α] (y : Fin N → α) :
    ∃ x : Fin P → α, Off σ x ∧ x ∘ σ = y := by
  classical
  refine ⟨fun j => if h : ∃ k, σ k = j then y h.choose else 0, ?_, ?_⟩
  · intro j hj
    exact dif_neg (fun ⟨k, hk⟩ => hj ⟨k, hk⟩)
  · funext k
    have h : ∃ k', σ k' = σ k := ⟨k, rfl⟩
    simp only [Function.comp_apply]
    rw [dif_pos h]
    exact congrArg y (hσ h.choose_spec)

theorem inv_iterate {U F : Poly P K} {f : (Fin P → ℂ) → ℂ} {n m : K} {ks : Nat → Nat} {zeros : Nat → Bool} {i : Fin P} {s : St K}
    {σ : Fin s.N → Fin P} (hinv : Inv φ U F f n m ks zeros (i+1) s σ) (hU : NonNeg U) (hF : NonNeg F) (h : i < s.N) (hi : σ ⟨i, h⟩ = i) (k : Nat) :
    ∀ x, Off σ x → pev φ x U ∈ Complex.slitPlane → pev φ x F ∈ Complex.slitPlane →
    G φ s.Uexp s.Fexp ((deriveOnce (s.Uexp.derive (Fin.castAdd 2 ⟨i, h⟩)) (s.Fexp.derive (Fin.castAdd 2 ⟨i, h⟩)) s.U s.F ⟨i, h⟩)^[k] (s.Nu, s.n, s.m)) (x ∘ σ) =
      (partialDeriv i)^[k] (mixedFrom (fun j => ks j) f (i+1)) x := by
  induction k with
  | zero => exact hinv.val
  | succ k ih =>
    intro x hx hxU hxF
    rw [Function.iterate_succ_apply', Function.iterate_succ_apply']
    have hnn := nonneg_iterate (nonneg_derive hinv.nnU (Fin.castAdd 2 ⟨i, h⟩)) (nonneg_derive hinv.nnF (Fin.castAdd 2 ⟨i, h⟩)) hinv.nnu hinv.nnf ⟨i, h⟩
      (q := (s.Nu, s.n, s.m)) hinv.nnN k
    generalize (deriveOnce (s.Uexp.derive (Fin.castAdd 2 ⟨i, h⟩)) (s.Fexp.derive (Fin.castAdd 2 ⟨i, h⟩)) s.U s.F ⟨i, h⟩)^[k] (s.Nu, s.n, s.m) = q at ih hnn
    have hd := deriveOnce_val (φ := φ) hinv.nnU hinv.nnF hinv.nnu hinv.nnf hinv.iU hinv.iF hinv.sU hinv.sF ⟨i, h⟩ hnn (x ∘ σ)
      (by rw [hinv.vU x hx]; exact hxU) (by rw [hinv.vF x hx]; exact hxF)
    have hxi : (x ∘ σ) ⟨i, h⟩ = x i := by simp [hi]
    rw [hxi] at hd
    show _ = deriv (fun s => (partialDeriv i)^[k] (mixedFrom (fun j => ks j) f (i+1)) (Function.update x i s)) (x i)
    rw [← hd.deriv]
    refine Filter.EventuallyEq.deriv_eq ?_
    have hc : Continuous (fun s => Function.update x i s) := continuous_const.update i continuous_id
    have hopen : ∀ {p : Poly P K}, NonNeg p → pev φ x p ∈ Complex.slitPlane →
        ∀ᶠ s in 𝓝 (x i), pev φ (Function.update x i s) p ∈ Complex.slitPlane := by
      intro p hp hxp
      have hcont : ContinuousAt (fun s => pev φ (Function.update x i s) p) (x i) := by
        refine ContinuousAt.comp (g := fun x => pev φ x p) ?_ hc.continuousAt
        exact (pev_differentiable hp _).continuousAt
      refine hcont.eventually_mem ?_
      simp only [Function.update_eq_self]
      exact Complex.isOpen_slitPlane.mem_nhds hxp
    filter_upwards [hopen hU hxU, hopen hF hxF] with t ht1 ht2
    rw [← ih (Function.update x i t) (by
      intro j hj
      have : j ≠ i := fun h' => hj ⟨⟨i, h⟩, by rw [hi, h']⟩
      rw [Function.update_of_ne this]; exact hx j hj) ht1 ht2]
    congr 1
    funext j
    by_cases hj : j = ⟨i, h⟩
    · subst hj; simp [hi]
    · have : σ j ≠ i := fun h' => hj (hinv.mono.injective (h'.trans hi.symm))
      simp [hj, this]

theorem inv_step [CharZero K] {U F : Poly P K} {f : (Fin P → ℂ) → ℂ} {n m : K} {ks : Nat → Nat} {zeros : Nat → Bool} {i : Fin P} {s : St K}
    {σ : Fin s.N → Fin P} (hinv : Inv φ U F f n m ks zeros (i+1) s σ) (hU : NonNeg U) (hF : NonNeg F) (h : i < s.N) :
    ∃ τ, Inv φ U F f n m ks zeros i (stepNum (ks i) (zeros i) s ⟨i, h⟩) τ := by
  obtain ⟨h', hi'⟩ := hinv.low i (Nat.lt_succ_self _)
  have hi : σ ⟨i, h⟩ = i := Fin.ext hi'
  have hval := inv_iterate hinv hU hF h hi (ks i)
  rw [← mixedFrom_step (fun j => ks j) f i] at hval
  have hexp := deriveOnce_exponents (s.Uexp.derive (Fin.castAdd 2 ⟨i, h⟩)) (s.Fexp.derive (Fin.castAdd 2 ⟨i, h⟩)) s.U s.F ⟨i, h⟩ (s.Nu, s.n, s.m) (ks i)
  have hnn := nonneg_iterate (nonneg_derive hinv.nnU (Fin.castAdd 2 ⟨i, h⟩)) (nonneg_derive hinv.nnF (Fin.castAdd 2 ⟨i, h⟩)) hinv.nnu hinv.nnf ⟨i, h⟩
      (q := (s.Nu, s.n, s.m)) hinv.nnN (ks i)
  -- which exponents
  have hany : (s.Uexp.derive (Fin.castAdd 2 ⟨i, h⟩)).coeffs.any (fun c => decide (c ≠ 0)) = true ↔ Alive U zeros i := by
    rw [any_derive hinv.dis]
    constructor
    · rintro ⟨e, he, hc⟩
      obtain ⟨e', rfl⟩ := hinv.co' e hc
      obtain ⟨x, hx, rfl⟩ := off_comp_surj hinv.mono.injective e'
      rw [hinv.co x hx] at hc
      refine ⟨x, ?_, hc, ?_⟩
      · rw [Fin.append_left] at he; simpa [hi] using he
      · intro l hl hz
        refine hx l fun hr => ?_
        rcases (hinv.range l).1 hr with h1 | h1
        · have : (i : Nat) < l := hl
          omega
        · rw [hz] at h1; exact absurd h1 (by simp)
    · rintro ⟨e, he, hc, hl⟩
      have hoff : Off σ e := by
        intro j hj
        have h1 := mt (hinv.range j).2 hj
        push Not at h1
        exact hl j (by have := h1.1; simp only [Fin.lt_def]; omega) (by simpa using h1.2)
      refine ⟨Fin.append (e ∘ σ) 0, ?_, ?_⟩
      · rw [Fin.append_left]; simpa [hi] using he
      · rw [hinv.co e hoff]; exact hc
  classical
  have hn' : ((deriveOnce (s.Uexp.derive (Fin.castAdd 2 ⟨i, h⟩)) (s.Fexp.derive (Fin.castAdd 2 ⟨i, h⟩)) s.U s.F ⟨i, h⟩)^[ks i] (s.Nu, s.n, s.m)).2.1 + (lowered U ks zeros i : K) = n := by
    rw [hexp, lowered_step]
    simp only
    rw [← hinv.en]
    by_cases ha : Alive U zeros i
    · rw [if_pos (hany.2 ha), if_pos ha]; push_cast; ring
    · rw [if_neg (fun h' => ha (hany.1 h')), if_neg ha]; push_cast; ring
  have hm' : ((deriveOnce (s.Uexp.derive (Fin.castAdd 2 ⟨i, h⟩)) (s.Fexp.derive (Fin.castAdd 2 ⟨i, h⟩)) s.U s.F ⟨i, h⟩)^[ks i] (s.Nu, s.n, s.m)).2.2 = m + (total (P := P) ks i : K) := by
    rw [hexp, total_step]
    simp only
    rw [hinv.em]; push_cast; ring
  unfold stepNum
  simp only
  generalize (deriveOnce (s.Uexp.derive (Fin.castAdd 2 ⟨i, h⟩)) (s.Fexp.derive (Fin.castAdd 2 ⟨i, h⟩)) s.U s.F ⟨i, h⟩)^[ks i] (s.Nu, s.n, s.m) = q at hval hnn hn' hm'
  by_cases hz : zeros i = true
  · rw [if_pos hz]
    obtain ⟨N, Ue, Fe, Us, Fs, Nu, n1, m1⟩ := s
    simp only at σ hinv h h' hi hi' hval hnn ⊢
    cases N with
    | zero => omega
    | succ N =>
      set k : Fin (N+1) := ⟨i, h⟩ with hk
      have hins : ∀ {α : Type} [Zero α] (x : Fin P → α), x i = 0 → k.insertNth (α := fun _ => α) 0 (x ∘ (σ ∘ k.succAbove)) = x ∘ σ := by
        intro α _ x hx
        rw [Fin.insertNth_eq_iff]
        exact ⟨by simp [hi, hx], rfl⟩
      have hrange : ∀ j : Fin P, j ∈ Set.range (σ ∘ k.succAbove) ↔ (j ∈ Set.range σ ∧ j ≠ i) := by
        intro j
        constructor
        · rintro ⟨l, rfl⟩
          refine ⟨⟨_, rfl⟩, fun h1 => ?_⟩
          exact Fin.succAbove_ne k l (hinv.mono.injective (h1.trans hi.symm))
        · rintro ⟨⟨l, rfl⟩, hne⟩
          have : l ≠ k := fun h1 => hne (by rw [h1, hi])
          obtain ⟨l', rfl⟩ := Fin.exists_succAbove_eq this
          exact ⟨l', rfl⟩
      have hoff : ∀ {α : Type} [Zero α] (x : Fin P → α), Off (σ ∘ k.succAbove) x → Off σ x ∧ x i = 0 := by
        intro α _ x hx
        refine ⟨fun j hj => hx j (fun h1 => hj ((hrange j).1 h1).1), hx i (fun h1 => ((hrange i).1 h1).2 rfl)⟩
      refine ⟨σ ∘ k.succAbove, ?_⟩
      constructor
      · exact hinv.mono.comp (Fin.strictMono_succAbove k)
      · intro j
        rw [hrange, hinv.range]
        constructor
        · rintro ⟨h1 | h1, h2⟩
          · left
            have : (j : Nat) ≠ i := fun h3 => h2 (Fin.ext h3)
            omega
          · exact Or.inr h1
        · rintro (h1 | h1)
          · exact ⟨Or.inl (by omega), fun h3 => by rw [h3] at h1; omega⟩
          · exact ⟨Or.inr h1, fun h3 => by rw [h3, hz] at h1; exact absurd h1 (by simp)⟩
      · intro j hj
        refine ⟨show j < N by omega, ?_⟩
        obtain ⟨h1, h2⟩ := hinv.low j (by omega)
        have : k.succAbove ⟨j, by omega⟩ = ⟨j, h1⟩ := by
          ext
          simp only [Fin.succAbove, Fin.lt_def, hk]
          simp [hj]
        simp only [Function.comp_apply]
        exact (congrArg (fun l => (σ l : Nat)) this).trans h2
      · exact nonneg_remove2 k hinv.nnU
      · exact nonneg_remove2 k hinv.nnF
      · exact nonneg_remove2 k hinv.nnu
      · exact nonneg_remove2 k hinv.nnf
      · exact nonneg_remove2 k hnn
      · intro y c
        exact (pev_remove2 k hinv.nnU y c).trans ((hinv.iU _ c).trans (pev_remove2 k hinv.nnU y 0).symm)
      · intro y c
        exact (pev_remove2 k hinv.nnF y c).trans ((hinv.iF _ c).trans (pev_remove2 k hinv.nnF y 0).symm)
      · intro y c
        exact (pev_remove2 k hinv.nnu y c).trans (hinv.sU _ c)
      · intro y c
        exact (pev_remove2 k hinv.nnf y c).trans (hinv.sF _ c)
      · intro x hx
        obtain ⟨hx1, hx2⟩ := hoff x hx
        refine (pev_remove2 k hinv.nnU _ 0).trans ?_
        rw [hins x hx2]; exact hinv.vU x hx1
      · intro x hx
        obtain ⟨hx1, hx2⟩ := hoff x hx
        refine (pev_remove2 k hinv.nnF _ 0).trans ?_
        rw [hins x hx2]; exact hinv.vF x hx1
      · intro x hx hxU hxF
        obtain ⟨hx1, hx2⟩ := hoff x hx
        rw [← hval x hx1 hxU hxF]
        have e1 := pev_remove2 (φ := φ) k hinv.nnU (x ∘ (σ ∘ k.succAbove)) 0
        have e2 := pev_remove2 (φ := φ) k hinv.nnF (x ∘ (σ ∘ k.succAbove)) 0
        rw [hins x hx2] at e1 e2
        unfold G
        simp only
        have e3 := pev_remove2 (φ := φ) k hnn (x ∘ (σ ∘ k.succAbove)) ![pev φ (Fin.append (x ∘ σ) 0) Ue, pev φ (Fin.append (x ∘ σ) 0) Fe]
        rw [hins x hx2] at e3
        rw [← e3]
        congr 1
        · congr 1
          · exact congrArg (· ^ φ q.2.1) e1
          · exact congrArg (· ^ (- φ q.2.2)) e2
        · rw [← e1, ← e2]
      · intro e he
        obtain ⟨hx1, hx2⟩ := hoff e he
        refine (coeffOf_remove2 Ue k (e ∘ (σ ∘ k.succAbove)) 0).trans ?_
        rw [hins e hx2]; exact hinv.co e hx1
      · intro e he
        have h1 := append_eta e
        have h2 : (remove2 k Ue).coeffOf (Fin.append (fun j : Fin N => e (j.castAdd 2)) (fun j => e (Fin.natAdd N j))) ≠ 0 := fun h3 => he (by rw [h1]; exact h3)
        rw [coeffOf_remove2] at h2
        obtain ⟨e', he'⟩ := hinv.co' _ h2
        refine ⟨fun j => e (j.castAdd 2), h1.trans ?_⟩
        congr 1
        funext j
        have := congrFun he' (Fin.natAdd (N+1) j)
        rw [Fin.append_right, Fin.append_right] at this
        exact this
      · exact distinct_remove2 k Ue
      · exact hn'
      · exact hm'
  · rw [if_neg hz]
    have hz' : zeros i = false := by simpa using hz
    refine ⟨σ, ?_⟩
    constructor
    · exact hinv.mono
    · intro j
      rw [hinv.range]
      constructor
      · rintro (h1 | h1)
        · by_cases h2 : (j : Nat) = i
          · exact Or.inr (by rw [h2]; exact hz')
          · exact Or.inl (by omega)
        · exact Or.inr h1
      · rintro (h1 | h1)
        · exact Or.inl (by omega)
        · exact Or.inr h1
    · intro j hj; exact hinv.low j (by omega)
    · exact hinv.nnU
    · exact hinv.nnF
    · exact hinv.nnu
    · exact hinv.nnf
    · exact hnn
    · exact hinv.iU
    · exact hinv.iF
    · exact hinv.sU
    · exact hinv.sF
    · exact hinv.vU
    · exact hinv.vF
    · exact hval
    · exact hinv.co
    · exact hinv.co'
    · exact hinv.dis
    · exact hn'
    · exact hm'

theorem inv_loop [CharZero K] {U F : Poly P K} {f : (Fin P → ℂ) → ℂ} {n m : K} {ks : Nat → Nat} {zeros : Nat → Bool} (hU : NonNeg U) (hF : NonNeg F) :
    ∀ (i : Nat) (_ : i ≤ P) (s : St K) (σ : Fin s.N → Fin P), Inv φ U F f n m ks zeros i s σ →
    ∃ s' σ', loopNum ks zeros i s = some s' ∧ Inv φ U F f n m ks zeros 0 s' σ' := by
  intro i
  induction i with
  | zero => intro _ s σ h; exact ⟨s, σ, rfl, h⟩
  | succ i ih =>
    intro hi s σ h
    obtain ⟨h1, -⟩ := h.low i (Nat.lt_succ_self i)
    obtain ⟨τ, hτ⟩ := inv_step (i := ⟨i, hi⟩) h hU hF h1
    obtain ⟨s', σ', e1, e2⟩ := ih (by omega) _ τ hτ
    refine ⟨s', σ', ?_, e2⟩
    rw [loopNum, dif_pos h1]
    exact e1

/-! ### the properties `U`, `F` -/

theorem restrict_loop {U : Poly P K} {zeros : Nat → Bool} :
    ∀ (i : Nat) (_ : i ≤ P) (s : Σ N, Poly N K) (σ : Fin s.1 → Fin P), StrictMono σ →
    (∀ j : Fin P, j ∈ Set.range σ ↔ (j < i ∨ zeros j = false)) → (∀ j, j < i → ∃ h : j < s.1, (σ ⟨j, h⟩ : Nat) = j) →
    NonNeg s.2 → (∀ x, Off σ x → pev φ (x ∘ σ) s.2 = pev φ x U) →
    ∃ s' σ', loopRestrict zeros i s = some s' ∧ Numbering zeros σ' ∧ NonNeg s'.2 ∧ ∀ x, Off σ' x → pev φ (x ∘ σ') s'.2 = pev φ x U := by
  intro i
  induction i with
  | zero =>
    intro _ s σ h1 h2 _ h4 h5
    exact ⟨s, σ, rfl, ⟨h1, fun j => by rw [h2]; simp⟩, h4, h5⟩
  | succ i ih =>
    intro hi s σ h1 h2 h3 h4 h5
    rw [loopRestrict]
    by_cases hz : zeros i = true
    · rw [if_pos hz]
      obtain ⟨N, p⟩ := s
      obtain ⟨h, hi'⟩ := h3 i (Nat.lt_succ_self i)
      simp only at σ h1 h2 h3 h4 h5 h hi' ⊢
      rw [dif_pos h]
      cases N with
      | zero => omega
      | succ N =>
        set k : Fin (N+1) := ⟨i, h⟩ with hk
        have hik : σ k = ⟨i, hi⟩ := Fin.ext hi'
        have hrange : ∀ j : Fin P, j ∈ Set.range (σ ∘ k.succAbove) ↔ (j ∈ Set.range σ ∧ j ≠ ⟨i, hi⟩) := by
          intro j
          constructor
          · rintro ⟨l, rfl⟩
            refine ⟨⟨_, rfl⟩, fun h1' => ?_⟩
            exact Fin.succAbove_ne k l (h1.injective (h1'.trans hik.symm))
          · rintro ⟨⟨l, rfl⟩, hne⟩
            have : l ≠ k := fun h1 => hne (by rw [h1, hik])
            obtain ⟨l', rfl⟩ := Fin.exists_succAbove_eq this
            exact ⟨l', rfl⟩
        refine ih (by omega) ⟨N, remove k p⟩ (σ ∘ k.succAbove) (h1.comp (Fin.strictMono_succAbove k)) ?_ ?_ ?_ ?_
        · intro j
          rw [hrange, h2]
          constructor
          · rintro ⟨h1 | h1, h2⟩
            · left
              have : (j : Nat) ≠ i := fun h3 => h2 (Fin.ext h3)
              omega
            · exact Or.inr h1
          · rintro (h1 | h1)
            · exact ⟨Or.inl (by omega), fun h3 => by rw [h3] at h1; simp at h1⟩
            · exact ⟨Or.inr h1, fun h3 => by rw [h3, hz] at h1; exact absurd h1 (by simp)⟩
        · intro j hj
          refine ⟨show j < N by omega, ?_⟩
          obtain ⟨h1, h2⟩ := h3 j (by omega)
          have : k.succAbove ⟨j, by omega⟩ = ⟨j, h1⟩ := by
            ext
            simp only [Fin.succAbove, Fin.lt_def, hk]
            simp [hj]
          simp only [Function.comp_apply]
          exact (congrArg (fun l => (σ l : Nat)) this).trans h2
        · exact nonneg_simplify (nonneg_replaceRemove h4 k)
        · intro x hx
          have hx1 : Off σ x := fun j hj => hx j (fun h1 => hj ((hrange j).1 h1).1)
          have hx2 : x ⟨i, hi⟩ = 0 := hx _ (fun h1 => ((hrange _).1 h1).2 rfl)
          show pev φ (x ∘ (σ ∘ k.succAbove)) (p.replaceRemove k 0).simplify = _
          rw [pev_simplify, pev_replaceRemove _ h4, ← h5 x hx1]
          congr 1
          rw [Fin.insertNth_eq_iff]
          exact ⟨by simp [hik, hx2], rfl⟩
    · rw [if_neg hz]
      refine ih (by omega) s σ h1 ?_ (fun j hj => h3 j (by omega)) h4 h5
      intro j
      rw [h2]
      constructor
      · rintro (h1 | h1)
        · by_cases h2 : (j : Nat) = i
          · exact Or.inr (by rw [h2]; simpa using hz)
          · exact Or.inl (by omega)
        · exact Or.inr h1
      · rintro (h1 | h1)
        · exact Or.inl (by omega)
        · exact Or.inr h1

end LoopCommon
end SecDec
