import Mathlib.Algebra.MvPolynomial.Funext
import Mathlib.Analysis.Analytic.Uniqueness
import Verif.Proof.SubExpr
import Verif.Proof.PolyCanon
import Verif.Proof.PolyArith
import Verif.Proof.ExpAnalysis
/-
Polynomials as functions: values of the operations used by `_expand_singular_step`.
-/
set_option linter.unusedSectionVars false
namespace SecDec
namespace Expansion
open Filter Topology Asymptotics Poly
open Subtraction (pev NonNeg pev_simplify pev_zero pev_mul)
variable {n : Nat} {F : Type} [Field F] [DecidableEq F] {φ : F →+* ℂ}

theorem polyValue_eq (p : Poly n F) (x : Fin n → ℂ) : polyValue φ p x = pev φ x p := rfl

theorem nonneg_simplify {p : Poly n F} (h : NonNeg p) : NonNeg p.simplify := by
  intro t ht i
  rcases simplify_expo_subset p t ht with ⟨s, hs, e⟩ | h0
  · exact e ▸ h s hs i
  · simp [h0]

theorem nonneg_mul {p q : Poly n F} (hp : NonNeg p) (hq : NonNeg q) : NonNeg (p.mul q) := by
  refine nonneg_simplify ?_
  intro t ht i
  simp only [List.mem_flatMap, List.mem_map] at ht
  obtain ⟨s, hs, u, hu, rfl⟩ := ht
  exact add_nonneg (hq u hu i) (hp s hs i)

theorem nonneg_sub {p q : Poly n F} (hp : NonNeg p) (hq : NonNeg q) : NonNeg (p.sub q) := by
  refine nonneg_simplify ?_
  intro t ht i
  simp only [List.mem_append, List.mem_map] at ht
  rcases ht with ht | ⟨s, hs, rfl⟩
  · exact hp t ht i
  · exact hq s hs i

theorem nonneg_zero : NonNeg (zeroPoly : Poly n F) := by
  intro t ht i; simp [zeroPoly] at ht; simp [ht]

theorem nonneg_one : NonNeg (onePoly : Poly n F) := by
  intro t ht i; simp [onePoly] at ht; simp [ht]

theorem nonneg_derive {p : Poly n F} (hp : NonNeg p) (i : Fin n) : NonNeg (p.derive i) := by
  unfold Poly.derive
  simp only
  split
  · exact nonneg_zero
  · intro t ht j
    simp only [List.mem_map, List.mem_filter, decide_eq_true_eq] at ht
    obtain ⟨s, ⟨hs, h0⟩, rfl⟩ := ht
    by_cases hj : j = i
    · subst hj
      have := hp s hs j
      simp only [Function.update_self]; omega
    · simp only [Function.update_of_ne hj]; exact hp s hs j

theorem nonneg_replace {p : Poly n F} (hp : NonNeg p) (i : Fin n) (v : F) : NonNeg (p.replace i v) := by
  intro t ht j
  simp only [Poly.replace, List.mem_map] at ht
  obtain ⟨s, hs, rfl⟩ := ht
  by_cases hj : j = i
  · subst hj; simp
  · simp only [Function.update_of_ne hj]; exact hp s hs j

theorem nonneg_shift {p : Poly n F} (hp : NonNeg p) (i : Fin n) {m : ℤ} (hm : ∀ t ∈ p.terms, m ≤ t.1 i) :
    NonNeg (p.shiftPower i (-m)) := by
  intro t ht j
  simp only [Poly.shiftPower, List.mem_map] at ht
  obtain ⟨s, hs, rfl⟩ := ht
  by_cases hj : j = i
  · subst hj; have := hm s hs; simp only [Function.update_self]; omega
  · simp only [Function.update_of_ne hj]; exact hp s hs j

theorem nonneg_scale {p : Poly n F} (hp : NonNeg p) (c : F) : NonNeg (scaleCoeffs p c) := by
  intro t ht j
  simp only [scaleCoeffs, List.mem_map] at ht
  obtain ⟨s, hs, rfl⟩ := ht
  exact hp s hs j

theorem pev_one (x : Fin n → ℂ) : pev φ x (onePoly : Poly n F) = 1 := by
  simp [pev, onePoly, Subtraction.mono_zero']

theorem pev_sub (x : Fin n → ℂ) (p q : Poly n F) : pev φ x (p.sub q) = pev φ x p - pev φ x q := by
  rw [Poly.sub, Poly.subOrAdd, pev_simplify]
  simp only [pev, List.map_append, List.sum_append, List.map_map, sub_eq_add_neg]
  congr 1
  induction q.terms with
  | nil => simp
  | cons t l ih =>
    rw [List.map_cons, List.sum_cons, ih, List.map_cons, List.sum_cons, neg_add]
    simp

theorem pev_scale (x : Fin n → ℂ) (p : Poly n F) (c : F) : pev φ x (scaleCoeffs p c) = pev φ x p * φ c := by
  simp only [pev, scaleCoeffs, List.map_map]
  rw [← List.sum_map_mul_right]
  congr 1
  refine List.map_congr_left fun t _ => ?_
  simp; ring

theorem pev_replace0 (x : Fin n → ℂ) {p : Poly n F} (hp : NonNeg p) (i : Fin n) :
    pev φ x (p.replace i 0) = pev φ (Function.update x i 0) p := by
  simp only [pev, Poly.replace, List.map_map]
  congr 1
  refine List.map_congr_left fun t ht => ?_
  simp only [Function.comp, replaceCoeff, if_true]
  rw [Poly.mono_update x i 0 t.1]
  by_cases h : t.1 i = 0
  · rw [Poly.mono_update_expo]; simp [h]
  · simp [h, zero_zpow]

theorem pev_shift (x : Fin n → ℂ) {p : Poly n F} (i : Fin n) {m : ℤ} (h0 : 0 ≤ m)
    (hm : ∀ t ∈ p.terms, m ≤ t.1 i) :
    pev φ x p = x i ^ m * pev φ x (p.shiftPower i (-m)) := by
  simp only [pev, Poly.shiftPower, List.map_map]
  rw [← List.sum_map_mul_left]
  congr 1
  refine List.map_congr_left fun t ht => ?_
  simp only [Function.comp]
  have e1 : Poly.mono x t.1 = x i ^ t.1 i * Poly.mono x (Function.update t.1 i 0) := by
    conv_lhs => rw [← Function.update_eq_self i t.1]
    rw [Poly.mono_update_expo, Poly.mono_update_expo]; simp
  rw [e1, Poly.mono_update_expo x i (t.1 i + -m)]
  obtain ⟨a, ha⟩ := Int.eq_ofNat_of_zero_le h0
  obtain ⟨b, hb⟩ := Int.eq_ofNat_of_zero_le (show 0 ≤ t.1 i + -m by have := hm t ht; omega)
  have hc : t.1 i = ((a + b : ℕ) : ℤ) := by push_cast; omega
  rw [hb, hc, ha, Poly.mono_update_expo]
  simp only [zpow_natCast, pow_add, pow_zero, zpow_zero]; ring

theorem pev_derive (x : Fin n → ℂ) {p : Poly n F} (hp : NonNeg p) (i : Fin n) :
    HasDerivAt (fun s => pev φ (Function.update x i s) p) (pev φ x (p.derive i)) (x i) := by
  let q : Poly n ℂ := ⟨p.terms.map (fun t => (t.1, φ t.2))⟩
  have h := Poly.hasDerivAt_derive q i x (by
    intro t ht j _
    simp only [q, List.mem_map] at ht
    obtain ⟨s, hs, rfl⟩ := ht
    exact hp s hs j)
  have e1 : ∀ y, q.eval y = pev φ y p := by
    intro y; simp [q, Poly.eval, pev, List.map_map, Function.comp_def]
  have e2 : (q.derive i).eval x = pev φ x (p.derive i) := by
    unfold Poly.derive
    simp only
    have e3 : (q.terms.filter (fun t => decide (t.1 i ≠ 0))).map
        (fun t => (Function.update t.1 i (t.1 i - 1), t.2 * ((t.1 i : Int) : ℂ))) =
        ((p.terms.filter (fun t => decide (t.1 i ≠ 0))).map
        (fun t => (Function.update t.1 i (t.1 i - 1), t.2 * ((t.1 i : Int) : F)))).map (fun t => (t.1, φ t.2)) := by
      simp only [q, List.filter_map, List.map_map]
      congr 1
      funext t
      simp
    rw [e3]
    simp only [List.length_map]
    split
    · simp [Poly.eval, zeroPoly, pev]
    · simp [Poly.eval, pev, List.map_map, Function.comp_def]
  rw [e2] at h
  simpa only [e1] using h

theorem pev_derive' (y : Fin n → ℂ) {p : Poly n F} (hp : NonNeg p) (i : Fin n) (s : ℂ) :
    HasDerivAt (fun s => pev φ (Function.update y i s) p) (pev φ (Function.update y i s) (p.derive i)) s := by
  have h := pev_derive (φ := φ) (Function.update y i s) hp i
  simpa using h

theorem pev_analytic (y : Fin n → ℂ) {p : Poly n F} (hp : NonNeg p) (i : Fin n) (s : ℂ) :
    AnalyticAt ℂ (fun s => pev φ (Function.update y i s) p) s :=
  Differentiable.analyticAt (fun s => (pev_derive' y hp i s).differentiableAt) s

theorem pev_continuous {p : Poly n F} (hp : NonNeg p) : AnalyticOnNhd ℂ (fun x => pev φ x p) Set.univ := by
  intro x _
  unfold pev
  refine Subtraction.analyticAt_list_sum p.terms (fun t x => φ t.2 * Poly.mono x t.1) ?_
  intro t ht
  exact analyticAt_const.mul (Subtraction.analyticAt_mono t.1 (fun i _ => hp t ht i))

/-! ### A nonzero polynomial is generically nonzero -/

/-- The corresponding Mathlib polynomial. -/
noncomputable def toMv (φ : F →+* ℂ) (p : Poly n F) : MvPolynomial (Fin n) ℂ :=
  (p.terms.map (fun t => MvPolynomial.monomial (Finsupp.equivFunOnFinite.symm (fun j => (t.1 j).toNat)) (φ t.2))).sum

theorem eval_toMv {p : Poly n F} (hp : NonNeg p) (x : Fin n → ℂ) : MvPolynomial.eval x (toMv φ p) = pev φ x p := by
  unfold toMv pev
  rw [map_list_sum, List.map_map]
  congr 1
  refine List.map_congr_left fun t ht => ?_
  simp only [Function.comp, MvPolynomial.eval_monomial]
  congr 1
  rw [Finsupp.prod_fintype _ _ (by simp)]
  refine Finset.prod_congr rfl fun j _ => ?_
  obtain ⟨k, hk⟩ := Int.eq_ofNat_of_zero_le (hp t ht j)
  simp [hk]

theorem coeff_toMv {p : Poly n F} (hp : NonNeg p) {e : Expo n} (he : ∀ j, 0 ≤ e j) :
    MvPolynomial.coeff (Finsupp.equivFunOnFinite.symm (fun j => (e j).toNat)) (toMv φ p) = φ (p.coeffOf e) := by
  unfold toMv coeffOf
  obtain ⟨l⟩ := p
  simp only
  induction l with
  | nil => simp
  | cons t l ih =>
    rw [List.map_cons, List.sum_cons, MvPolynomial.coeff_add, ih (fun u hu => hp u (by simp_all)), List.filter_cons,
      MvPolynomial.coeff_monomial]
    have hiff : (Finsupp.equivFunOnFinite.symm (fun j => (t.1 j).toNat) : Fin n →₀ ℕ) =
        Finsupp.equivFunOnFinite.symm (fun j => (e j).toNat) ↔ t.1 = e := by
      rw [Equiv.apply_eq_iff_eq]
      constructor
      · intro h
        funext j
        have h1 := congrFun h j
        have h2 := hp t (by simp) j
        have h3 := he j
        omega
      · rintro rfl; rfl
    by_cases h : t.1 = e
    · rw [if_pos (hiff.2 h)]; simp [h]
    · rw [if_neg (fun k => h (hiff.1 k))]; simp [h]

theorem exists_ne_zero {p : Poly n F} (hp : NonNeg p) {e : Expo n} (h : p.coeffOf e ≠ 0) :
    ∃ x, pev φ x p ≠ 0 := by
  by_contra hne
  push Not at hne
  have h0 : toMv φ p = 0 := by
    refine MvPolynomial.funext fun x => ?_
    rw [eval_toMv hp, hne]; simp
  have he : ∀ j, 0 ≤ e j := by
    unfold coeffOf at h
    by_contra hc
    apply h
    rw [List.filter_eq_nil_iff.2]
    · simp
    · intro t ht
      simp only [decide_eq_true_eq]
      rintro rfl
      exact hc (hp t ht)
  have := coeff_toMv (φ := φ) hp he
  rw [h0, MvPolynomial.coeff_zero] at this
  exact h ((map_eq_zero φ).1 this.symm)

theorem exists_coeff {p : Poly n F} {x : Fin n → ℂ} (h : pev φ x p ≠ 0) : ∃ e, p.coeffOf e ≠ 0 := by
  by_contra hne
  push Not at hne
  apply h
  have : p.simplify = (zeroPoly : Poly n F).simplify := by
    apply simplify_canonical
    intro e
    rw [hne]
    simp [coeffOf, zeroPoly, List.filter_cons]
    split <;> simp
  rw [← pev_simplify, this, pev_simplify, pev_zero]

theorem generic_ne_zero {p : Poly n F} (hp : NonNeg p) {e : Expo n} (h : p.coeffOf e ≠ 0) :
    ∀ᶠ y in generic n, pev φ y p ≠ 0 := by
  have hc : Continuous (fun x => pev φ x p) := by
    rw [← continuousOn_univ]; exact (pev_continuous hp).continuousOn
  refine ⟨{y | pev φ y p ≠ 0}, isOpen_ne_fun hc continuous_const, ?_, fun y hy => hy⟩
  intro z
  by_contra hz
  obtain ⟨x, hx⟩ := exists_ne_zero (φ := φ) hp h
  apply hx
  have h1 : (fun x => pev φ x p) =ᶠ[𝓝 z] (fun _ => 0) := by
    rw [mem_closure_iff_frequently, not_frequently] at hz
    filter_upwards [hz] with y hy
    by_contra hne
    exact hy hne
  exact congrFun ((pev_continuous hp).eq_of_eventuallyEq (fun x _ => analyticAt_const) h1) x

end Expansion
end SecDec
