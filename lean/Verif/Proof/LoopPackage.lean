import Verif.Spec.LoopPackage
import Verif.Props.Package
import Verif.Props.LoopMeasure
/-
Helper proofs for C58.
-/
namespace SecDec
namespace LoopPackage
open LoopCommon FromProps LoopMeasure Numer MeasureTheory Set Package LeadingOrder Decomp Squash Expansion
variable {n D e d : ℕ}

theorem exponentAt_affine (p : Power ℚ) (z : ℂ) : exponentAt (affinePoly p) z = valueAt p z := by
  unfold affinePoly valueAt exponentAt polyValue
  split_ifs with h1 h2
  · simp [h1, Poly.mono]
  · simp [h2, Poly.mono]
  · simp [Poly.mono]; ring

/-- The logarithm of the integrand, without and with the regulator. -/
noncomputable def logA (polys : List (SPoly n ℝ (Poly 1 ℚ))) (x : Fin n → ℝ) : ℝ :=
  (polys.map fun p => (atZero (exponentOf p) : ℝ) * Real.log (p.eval x)).sum
noncomputable def logB (polys : List (SPoly n ℝ (Poly 1 ℚ))) (x : Fin n → ℝ) : ℝ :=
  (polys.map fun p => (slope (exponentOf p) : ℝ) * Real.log (p.eval x)).sum

theorem eval_pos {p : SPoly n ℝ (Poly 1 ℚ)} (h0 : p.terms ≠ []) (h : ∀ t ∈ p.terms, 0 < t.2) {x : Fin n → ℝ} (hx : ∀ i, 0 < x i) : 0 < p.eval x := by
  unfold SPoly.eval
  refine List.sum_pos _ ?_ (by simpa using h0)
  intro y hy
  obtain ⟨t, ht, rfl⟩ := List.mem_map.1 hy
  exact mul_pos (h t ht) (Finset.prod_pos fun i _ => zpow_pos (hx i) _)

theorem integrandAt_exp {polys : List (SPoly n ℝ (Poly 1 ℚ))} (hE : Euclidean polys) (z : ℂ) {x : Fin n → ℝ} (hx : ∀ i, 0 < x i) :
    integrandAt polys z x = Complex.exp (logA polys x + z * logB polys x) := by
  unfold integrandAt logA logB
  induction polys with
  | nil => simp
  | cons p l ih =>
    have hp := hE p (by simp)
    have hpos : 0 < p.eval x := eval_pos hp.1 (fun t ht => (hp.2.1 t ht).1) hx
    simp only [List.map_cons, List.prod_cons, List.sum_cons]
    rw [ih fun q hq => hE q (by simp [hq]), Complex.cpow_def_of_ne_zero (by exact_mod_cast hpos.ne'), ← Complex.exp_add, exponentAt_eq hp.2.2,
      ← Complex.ofReal_log hpos.le]
    congr 1
    push_cast
    ring

theorem log_projective {polys : List (SPoly (n + 1) ℝ (Poly 1 ℚ))} (hE : Euclidean polys) {t : ℝ} (h : Projective (integrandAt polys (t : ℂ))) {c : ℝ}
    {x : Fin (n + 1) → ℝ} (hc : 0 < c) (hx : ∀ k, 0 < x k) :
    logA polys (fun k => c * x k) + t * logB polys (fun k => c * x k) = logA polys x + t * logB polys x - (n + 1) * Real.log c := by
  have h1 := h c x hc hx
  rw [integrandAt_exp hE _ (fun k => mul_pos hc (hx k)), integrandAt_exp hE _ hx] at h1
  have h2 : ∀ a b : ℝ, Complex.exp ((a : ℂ) + (t : ℂ) * (b : ℂ)) = (Real.exp (a + t * b) : ℝ) := fun a b => by push_cast; rfl
  rw [h2, h2, Complex.real_smul] at h1
  have h3 : Real.exp (logA polys (fun k => c * x k) + t * logB polys (fun k => c * x k)) = (c ^ (n + 1))⁻¹ * Real.exp (logA polys x + t * logB polys x) := by
    exact_mod_cast h1
  have h4 := congrArg Real.log h3
  rw [Real.log_exp, Real.log_mul (by positivity) (Real.exp_ne_zero _), Real.log_exp, Real.log_inv, Real.log_pow] at h4
  rw [h4]; push_cast; ring

theorem projective_all {polys : List (SPoly (n + 1) ℝ (Poly 1 ℚ))} (hE : Euclidean polys) {t t' : ℝ} (hne : t ≠ t') (h : Projective (integrandAt polys (t : ℂ)))
    (h' : Projective (integrandAt polys (t' : ℂ))) (z : ℂ) : Projective (integrandAt polys z) := by
  intro c x hc hx
  rw [integrandAt_exp hE _ (fun k => mul_pos hc (hx k)), integrandAt_exp hE _ hx]
  have h1 := log_projective hE h hc hx
  have h2 := log_projective hE h' hc hx
  have hB : logB polys (fun k => c * x k) = logB polys x := by
    have : (t - t') * (logB polys (fun k => c * x k) - logB polys x) = 0 := by linear_combination h1 - h2
    rcases mul_eq_zero.1 this with h | h
    · exact absurd (sub_eq_zero.1 h) hne
    · exact sub_eq_zero.1 h
  have hA : logA polys (fun k => c * x k) = logA polys x - (n + 1) * Real.log c := by rw [hB] at h1; linarith
  rw [hA, hB]
  have : ((logA polys x - (n + 1) * Real.log c : ℝ) : ℂ) + z * (logB polys x : ℂ) = ((-((n + 1) * Real.log c) : ℝ) : ℂ) + (logA polys x + z * logB polys x) := by
    push_cast; ring
  rw [this, Complex.exp_add, ← Complex.ofReal_exp, Complex.real_smul]
  congr 2
  rw [Real.exp_neg, ← Nat.cast_succ, Real.exp_nat_mul, Real.exp_log hc]

theorem measurable_log {polys : List (SPoly n ℝ (Poly 1 ℚ))} : Measurable (logA polys) ∧ Measurable (logB polys) := by
  have h : ∀ p : SPoly n ℝ (Poly 1 ℚ), Measurable p.eval := by
    intro p
    unfold SPoly.eval Poly.eval
    induction p.terms with
    | nil => simp
    | cons t l ih =>
      simp only [List.map_cons, List.sum_cons]
      refine Measurable.add (Measurable.const_mul ?_ _) ih
      exact Finset.measurable_prod _ fun i _ => (measurable_pi_apply i).pow_const _
  have : ∀ f : SPoly n ℝ (Poly 1 ℚ) → ℝ, Measurable fun x => (polys.map fun p => f p * Real.log (p.eval x)).sum := by
    intro f
    induction polys with
    | nil => simp
    | cons p l ih =>
      simp only [List.map_cons, List.sum_cons]
      exact ((Real.measurable_log.comp (h p)).const_mul _).add ih
  exact ⟨this _, this _⟩

theorem simplex_pos {w : Fin n → ℝ} (hw : w ∈ Simplex n) (i : Fin (n + 1)) : 0 < (Fin.snoc w (1 - ∑ k, w k) : Fin (n + 1) → ℝ) i := by
  refine Fin.lastCases ?_ (fun j => ?_) i
  · simpa using hw.2
  · simpa using hw.1 j

theorem measurable_snoc : Measurable fun w : Fin n → ℝ => (Fin.snoc w (1 - ∑ k, w k) : Fin (n + 1) → ℝ) := by
  rw [measurable_pi_iff]
  refine fun i => Fin.lastCases ?_ (fun j => ?_) i
  · simp only [Fin.snoc_last]
    fun_prop
  · simp only [Fin.snoc_castSucc]
    fun_prop

theorem simplex_measurable : MeasurableSet (Simplex n) := by
  unfold Simplex
  have h1 : MeasurableSet {w : Fin n → ℝ | ∀ k, 0 < w k} := by
    rw [ofPred_forall]
    exact MeasurableSet.iInter fun k => measurableSet_lt measurable_const (measurable_pi_apply k)
  have h2 : MeasurableSet {w : Fin n → ℝ | ∑ k, w k < 1} := measurableSet_lt (by fun_prop) measurable_const
  exact h1.inter h2

/-- Convergence only depends on the real part of the regulator. -/
theorem deltaIntegrable_re {polys : List (SPoly (n + 1) ℝ (Poly 1 ℚ))} (hE : Euclidean polys) (z : ℂ)
    (h : DeltaIntegrable (integrandAt polys (z.re : ℂ))) : DeltaIntegrable (integrandAt polys z) := by
  unfold DeltaIntegrable at h ⊢
  have e : ∀ z : ℂ, EqOn (fun w : Fin n → ℝ => integrandAt polys z (Fin.snoc w (1 - ∑ k, w k)))
      (fun w => Complex.exp (logA polys (Fin.snoc w (1 - ∑ k, w k)) + z * logB polys (Fin.snoc w (1 - ∑ k, w k)))) (Simplex n) :=
    fun z w hw => integrandAt_exp hE z fun i => simplex_pos hw i
  rw [integrableOn_congr_fun (e _) simplex_measurable] at h ⊢
  have hm : Measurable (fun w : Fin n → ℝ => Complex.exp ((logA polys (Fin.snoc w (1 - ∑ k, w k)) : ℂ) + z * (logB polys (Fin.snoc w (1 - ∑ k, w k)) : ℂ))) := by
    refine Complex.measurable_exp.comp ?_
    exact (Complex.measurable_ofReal.comp (measurable_log.1.comp measurable_snoc)).add
      ((Complex.measurable_ofReal.comp (measurable_log.2.comp measurable_snoc)).const_mul _)
  refine Integrable.mono (show Integrable _ (volume.restrict (Simplex n)) from h) hm.aestronglyMeasurable (Filter.Eventually.of_forall fun w => ?_)
  beta_reduce
  rw [Complex.norm_exp, Complex.norm_exp]
  simp

/-- The factors of the measure. -/
theorem measureFactors_value (powers : Fin (n + 1) → Power ℚ) (h0 : ∀ i, powers i ≠ ⟨0, 0⟩) (z : ℂ) (x : Fin (n + 1) → ℝ) :
    integrandAt (measureFactors powers) z x = ∏ i, (x i : ℂ) ^ (valueAt (powers i) z - 1) := by
  unfold integrandAt measureFactors
  rw [← List.prod_ofFn, List.ofFn_eq_map]
  induction List.finRange (n + 1) with
  | nil => rfl
  | cons i l ih =>
    by_cases h1 : powers i = ⟨1, 0⟩
    · rw [List.filterMap_cons_none (by rw [if_pos (Or.inr h1)]), ih, List.map_cons, List.prod_cons, h1]
      simp [valueAt]
    · rw [List.filterMap_cons_some (by rw [if_neg (by simp [h0 i, h1])]), List.map_cons, List.prod_cons, ih, List.map_cons, List.prod_cons]
      congr 1
      have h2 : exponentAt (exponentOf (⟨[(Pi.single i 1, 1)], some (affinePoly ⟨(powers i).const - 1, (powers i).reg⟩)⟩ : SPoly (n + 1) ℝ (Poly 1 ℚ))) z =
          valueAt (powers i) z - 1 := by
        show exponentAt (affinePoly _) z = _
        rw [exponentAt_affine]
        simp only [valueAt, Rat.cast_sub, Rat.cast_one]
        ring
      have h3 : (⟨[(Pi.single i 1, 1)], some (affinePoly ⟨(powers i).const - 1, (powers i).reg⟩)⟩ : SPoly (n + 1) ℝ (Poly 1 ℚ)).eval x = x i := by
        simp only [SPoly.eval, Poly.eval, List.map_cons, List.map_nil, List.sum_cons, List.sum_nil, add_zero, one_mul, Poly.mono]
        rw [Finset.prod_eq_single i]
        · simp
        · intro j _ hj; simp [Pi.single_apply, hj]
        · simp
      rw [h2, h3]

theorem valueAt_real (p : Power ℚ) (t : ℝ) : valueAt p (t : ℂ) = (((p.const : ℝ) + (p.reg : ℝ) * t : ℝ) : ℂ) := by
  unfold valueAt; push_cast; rfl

theorem nnu_real (powers : Fin (n + 1) → Power ℚ) (t : ℝ) : valueAt (nnu powers) (t : ℂ) = ((∑ i, powersAt powers t i : ℝ) : ℂ) := by
  rw [valueAt_real]
  unfold nnu powersAt
  rw [Finset.sum_add_distrib, ← Finset.sum_mul]
  push_cast
  rfl

variable {R : Type} [CommRing R] [DecidableEq R] [Invertible (2 : R)] [Algebra ℝ R]

/-- The integrand handed to `make_package` is the integrand of the Feynman parametrisation. -/
theorem integrand_eq (num : R → Option Int) (rules : R →ₗ[ℝ] ℝ) (input : Props (n + 1) D R) (m : Momentum (n + 1) D e ℝ) (p : Fin e → Fin d → ℝ)
    (powers : Fin (n + 1) → Power ℚ) (t : ℝ) (hν : ∀ i, 0 < powersAt powers t i) (τ : ℕ → Fin d) (out : (Fin (n+1) → ℝ) → List (Numer.Summand e ℕ))
    {x : Fin (n + 1) → ℝ} (hx : ∀ i, 0 < x i) (hout : out x = [⟨1, [], []⟩]) :
    integrandAt (polynomials num rules input ⟨d, 0⟩ powers) (t : ℂ) x =
      feynmanIntegrand (dataAt num rules input m d (powersAt powers t)) p (powersAt powers t) 0 τ out x := by
  have h0 : ∀ i, powers i ≠ ⟨0, 0⟩ := fun i h => by
    have := hν i
    simp [powersAt, h] at this
  have e1 : integrandAt (polynomials num rules input ⟨d, 0⟩ powers) (t : ℂ) x =
      ((((applyRules rules (preliminaryU num input)).eval x : ℝ) : ℂ) ^ valueAt (exponentU D ⟨d, 0⟩ powers) t) *
      ((((preliminaryF num rules input).eval x : ℝ) : ℂ) ^ valueAt (exponentF D ⟨d, 0⟩ powers) t) * integrandAt (measureFactors powers) (t : ℂ) x := by
    unfold integrandAt polynomials
    simp only [List.cons_append, List.nil_append, List.map_cons, List.prod_cons]
    rw [mul_assoc, ← exponentAt_affine, ← exponentAt_affine]
    rfl
  have e2 : valueAt (exponentU D ⟨d, 0⟩ powers) (t : ℂ) = Numer.exponentU (dataAt num rules input m d (powersAt powers t) x) 0 := by
    have := nnu_real powers t
    unfold valueAt at this
    unfold Numer.exponentU dataAt exponentU valueAt
    simp only [Rat.cast_sub, Rat.cast_mul, Rat.cast_div, Rat.cast_add, Rat.cast_natCast, Rat.cast_one, Rat.cast_zero, Rat.cast_ofNat]
    rw [← this]
    push_cast
    ring
  have e3 : valueAt (exponentF D ⟨d, 0⟩ powers) (t : ℂ) = Numer.exponentF (dataAt num rules input m d (powersAt powers t) x) := by
    have := nnu_real powers t
    unfold valueAt at this
    unfold Numer.exponentF dataAt exponentF valueAt
    simp only [Rat.cast_sub, Rat.cast_mul, Rat.cast_div, Rat.cast_add, Rat.cast_natCast, Rat.cast_one, Rat.cast_zero, Rat.cast_ofNat]
    rw [← this]
    push_cast
    ring
  have e4 : ((out x).map fun S => S.value eMetric (fun l μ => ((p l μ : ℝ) : ℂ)) τ).sum = 1 := by
    rw [hout]
    simp [Numer.Summand.value, Numer.Summand.idx, einstein, repeated, contract]
  rw [e1, e2, e3, measureFactors_value powers h0]
  unfold feynmanIntegrand
  rw [e4, measure_eq _ x (fun i => by exact_mod_cast (hν i).ne') hx]
  have e5 : ∀ i, valueAt (powers i) (t : ℂ) = ((powersAt powers t i : ℝ) : ℂ) := fun i => valueAt_real _ _
  simp only [e5]
  have e6 : (dataAt num rules input m d (powersAt powers t) x).U = ((applyRules rules (preliminaryU num input)).eval x : ℝ) := rfl
  have e7 : (dataAt num rules input m d (powersAt powers t) x).F = ((preliminaryF num rules input).eval x : ℝ) := rfl
  rw [e6, e7]
  ring

end LoopPackage
end SecDec
