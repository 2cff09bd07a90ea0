import Verif.Proof.ContourSign
import Verif.Props.Deform
/-
C45: the contour deformation.
-/
namespace SecDec
namespace Contour
open MeasureTheory Set Decomp Filter

variable {n : ℕ}

theorem jacobian_det (F : (Fin (n+1) → ℂ) → ℂ) (lam x : Fin (n+1) → ℝ) :
    jacobian F lam x = (Matrix.of fun k c => ((deformed lam k).derive c).eval F x).det := by
  unfold jacobian
  have : Misc.det (List.ofFn fun k => List.ofFn fun c => ((deformed lam k).derive c).eval F x) = some _ :=
    Misc.C10_det n (Matrix.of fun k c => ((deformed lam k).derive c).eval F x)
  rw [this]; rfl

theorem Z_cons (F : (Fin n → ℂ) → ℂ) (lam : Fin n → ℝ) (y : Fin (n+1) → ℝ) (hy : y ∈ Icc (0 : Fin (n+1) → ℝ) 1) :
    ∃ t ∈ Icc (0 : ℝ) 1, ∃ x ∈ Icc (0 : Fin n → ℝ) 1, Z F lam y = z F (fun k => t * lam k) x :=
  ⟨y 0, ⟨hy.1 0, hy.2 0⟩, Fin.tail y, ⟨fun k => hy.1 k.succ, fun k => hy.2 k.succ⟩, rfl⟩

/-- C45: the factor which is multiplied to the integrand is the determinant of the Jacobian matrix of the deformation. -/
theorem C45_jacobian {F : (Fin (n+1) → ℂ) → ℂ} (hF : AnalyticOnNhd ℂ F univ) (lam x : Fin (n+1) → ℝ) :
    jacobian F lam x = (Matrix.of fun k c => deriv (fun s => z F lam (Function.update x c s) k) (x c)).det := by
  rw [jacobian_det]
  congr 1
  ext k c
  exact (Dx.derive_ok hF (deformed lam k) c x).deriv.symm

/-- C45: the contour deformation does not change the integral.  Let `F` be the polynomial for the contour deformation, `lam` real deformation parameters of any
size and sign, `mons` the factored out monomials, such that the integral of the monomials converges, and `g` the other factors of the integrand,
holomorphic on an open set which contains the contours for all deformation parameters `t*lam` between 0 and `lam`.  Then the integral
of the generated integrand is the integral of the product of the monomials and of `g` over the real unit cube. -/
theorem C45_integral {F : (Fin (n+1) → ℂ) → ℂ} (hF : AnalyticOnNhd ℂ F univ) (lam : Fin (n+1) → ℝ) (mons : List (Mono (n+1)))
    (hp : ∀ k, -1 < (powers mons k).re) (U : Set (Fin (n+1) → ℂ)) (hU : IsOpen U) (g : (Fin (n+1) → ℂ) → ℂ) (hg : DifferentiableOn ℂ g U)
    (hUz : ∀ t ∈ Icc (0 : ℝ) 1, ∀ x ∈ Icc (0 : Fin (n+1) → ℝ) 1, z F (fun k => t * lam k) x ∈ U) :
    ∫ x in Icc (0 : Fin (n+1) → ℝ) 1, integrand F lam mons g x = ∫ x in Icc (0 : Fin (n+1) → ℝ) 1, monomials mons x * g fun k => (x k : ℂ) := by
  have h := homotopy_conv hF lam (powers mons) hp U hU g hg fun y hy => by
    obtain ⟨t, ht, x, hx, e⟩ := Z_cons F lam y hy
    rw [e]; exact hUz t ht x hx
  rw [← setIntegral_congr_set oc_ae, ← setIntegral_congr_set oc_ae]
  have h1 : ∀ x ∈ oc (n+1), monomials mons x = ∏ k, (x k : ℂ) ^ powers mons k := fun x hx => monomials_pos mons x fun k => (mem_oc.1 hx k).1
  have h2 : ∫ x in oc (n+1), (monomials mons x * g fun k => (x k : ℂ)) = ∫ x in oc (n+1), (∏ k, (x k : ℂ) ^ powers mons k) * g fun k => (x k : ℂ) :=
    setIntegral_congr_fun measurableSet_oc fun x hx => by simp only [h1 x hx]
  rw [h2, ← h]
  refine setIntegral_congr_fun measurableSet_oc fun x hx => ?_
  simp only [integrand, h1 x hx, jacobian_det, additionalFactor]
  ring

/-- C45: the prescription for the singularities on the real contour.  If the imaginary part of `F` is nowhere positive on the contours for `t*lam`,
`t` between 0 and 1, and `F` has no zero on the deformed contour, then the integral of the generated integrand with the power `F^s` is the limit
of the integrals over the real unit cube with the power `(F - iδ)^s`, for positive `δ` tending to zero, also if `F` vanishes inside the unit cube.  `pow`
is the function of the generated code. -/
theorem C45_prescription {F : (Fin (n+1) → ℂ) → ℂ} (hF : AnalyticOnNhd ℂ F univ) (lam : Fin (n+1) → ℝ) (mons : List (Mono (n+1)))
    (hp : ∀ k, -1 < (powers mons k).re) (U : Set (Fin (n+1) → ℂ)) (hU : IsOpen U) (h : (Fin (n+1) → ℂ) → ℂ) (hh : DifferentiableOn ℂ h U)
    (hUz : ∀ t ∈ Icc (0 : ℝ) 1, ∀ x ∈ Icc (0 : Fin (n+1) → ℝ) 1, z F (fun k => t * lam k) x ∈ U ∧ (F (z F (fun k => t * lam k) x)).im ≤ 0)
    (hne : ∀ x ∈ Icc (0 : Fin (n+1) → ℝ) 1, F (z F lam x) ≠ 0) (s : ℂ) :
    Tendsto (fun δ : ℝ => ∫ x in Icc (0 : Fin (n+1) → ℝ) 1, monomials mons x * (h (fun k => (x k : ℂ)) * (F (fun k => (x k : ℂ)) - Complex.I * δ) ^ s))
      (nhdsWithin 0 (Ioi 0)) (nhds (∫ x in Icc (0 : Fin (n+1) → ℝ) 1, integrand F lam mons (fun ζ => h ζ * pow (F ζ) s) x)) := by
  have hFc : Continuous F := continuous_iff_continuousAt.2 fun x => (hF x (mem_univ _)).continuousAt
  have hFd : Differentiable ℂ F := fun x => (hF x (mem_univ _)).differentiableAt
  have hone : ∀ x ∈ Icc (0 : Fin (n+1) → ℝ) 1, z F lam x ∈ U ∧ (F (z F lam x)).im ≤ 0 := by
    intro x hx
    have := hUz 1 ⟨zero_le_one, le_rfl⟩ x hx
    simpa using this
  have hzc : Continuous (z F lam) := continuous_pi fun k => (Dx.contDiff hF (deformed lam k)).continuous
  -- the integrals for positive `δ`
  have hpos : ∀ δ : ℝ, 0 < δ → ∫ x in Icc (0 : Fin (n+1) → ℝ) 1, monomials mons x * (h (fun k => (x k : ℂ)) * (F (fun k => (x k : ℂ)) - Complex.I * δ) ^ s) =
      ∫ x in Icc (0 : Fin (n+1) → ℝ) 1, integrand F lam mons (fun ζ => h ζ * (F ζ - Complex.I * δ) ^ s) x := by
    intro δ hδ
    refine (C45_integral hF lam mons hp (U ∩ {ζ | (F ζ).im < δ}) (hU.inter (isOpen_lt (Complex.continuous_im.comp hFc) continuous_const))
      (fun ζ => h ζ * (F ζ - Complex.I * δ) ^ s) ?_ fun t ht x hx => ⟨(hUz t ht x hx).1, (hUz t ht x hx).2.trans_lt hδ⟩).symm
    intro ζ hζ
    have hs : F ζ - Complex.I * δ ∈ Complex.slitPlane := by
      right
      have : (F ζ).im < δ := hζ.2
      simp only [Complex.sub_im, Complex.mul_im, Complex.I_re, Complex.I_im, Complex.ofReal_re, Complex.ofReal_im]
      intro h0; linarith
    exact ((hh ζ hζ.1).mono inter_subset_left).mul
      (((hFd ζ).sub_const _).cpow (differentiableAt_const _) hs).differentiableWithinAt
  refine Tendsto.congr' (eventually_nhdsWithin_of_forall fun δ (hδ : δ ∈ Ioi (0:ℝ)) => (hpos δ hδ).symm) ?_
  simp only [← setIntegral_congr_set (oc_ae (n := n+1))]
  -- the power as a continuous function
  let G : ℝ × (Fin (n+1) → ℝ) → ℂ := fun q =>
    Complex.exp (s * (Complex.log (Complex.I * (F (z F lam q.2) - Complex.I * q.1)) - Complex.I * (Real.pi / 2)))
  have hslit : ∀ q ∈ Icc (0 : ℝ) 1 ×ˢ Icc (0 : Fin (n+1) → ℝ) 1, F (z F lam q.2) - Complex.I * q.1 ≠ 0 ∧ (F (z F lam q.2) - Complex.I * q.1).im ≤ 0 := by
    intro q hq
    have h1 := (hone q.2 hq.2).2
    have h2 : 0 ≤ q.1 := hq.1.1
    have e : (F (z F lam q.2) - Complex.I * q.1).im = (F (z F lam q.2)).im - q.1 := by simp
    refine ⟨fun h0 => ?_, by rw [e]; linarith⟩
    rw [h0, Complex.zero_im] at e
    have h3 : q.1 = 0 := by linarith
    rw [h3] at h0
    exact hne q.2 hq.2 (by simpa using h0)
  have hG : ContinuousOn G (Icc (0 : ℝ) 1 ×ˢ Icc (0 : Fin (n+1) → ℝ) 1) := by
    refine ContinuousOn.cexp (continuousOn_const.mul (ContinuousOn.sub (ContinuousOn.clog ?_ fun q hq => lower_slit (hslit q hq).1 (hslit q hq).2) continuousOn_const))
    refine Continuous.continuousOn ?_
    exact continuous_const.mul ((hFc.comp (hzc.comp continuous_snd)).sub (continuous_const.mul (Complex.continuous_ofReal.comp continuous_fst)))
  have hval : ∀ δ ∈ Ioc (0 : ℝ) 1, ∀ x ∈ Icc (0 : Fin (n+1) → ℝ) 1, (F (z F lam x) - Complex.I * δ) ^ s = G (δ, x) := by
    intro δ hδ x hx
    refine cpow_lower ?_ s
    have := (hone x hx).2
    simp only [Complex.sub_im, Complex.mul_im, Complex.I_re, Complex.I_im, Complex.ofReal_re, Complex.ofReal_im]
    linarith [hδ.1]
  have hval0 : ∀ x ∈ Icc (0 : Fin (n+1) → ℝ) 1, pow (F (z F lam x)) s = G (0, x) := by
    intro x hx
    rw [pow_lower (hne x hx) (hone x hx).2]
    simp [G]
  -- the other factors
  let A : (Fin (n+1) → ℝ) → ℂ := fun x => jacobian F lam x * additionalFactor F lam mons x * h (z F lam x)
  have hA : ContinuousOn A (Icc 0 1) := by
    refine ContinuousOn.mul (Continuous.continuousOn (Continuous.mul ?_ ?_)) (hh.continuousOn.comp hzc.continuousOn fun x hx => (hone x hx).1)
    · have e : jacobian F lam = fun x => (Matrix.of fun k c => ((deformed lam k).derive c).eval F x).det := funext (jacobian_det F lam)
      rw [e]
      exact Continuous.matrix_det (continuous_matrix fun k c => (Dx.contDiff hF _).continuous)
    · exact continuous_finsetProd _ fun k _ => (Dx.contDiff hF (factor lam k)).continuous.cpow continuous_const fun x => factor_slit F lam k x
  obtain ⟨C, hC⟩ := ((isCompact_Icc (a := (0:ℝ)) (b := 1)).prod (isCompact_Icc (a := (0 : Fin (n+1) → ℝ)) (b := 1))).exists_bound_of_continuousOn
    ((hA.comp continuousOn_snd fun q hq => hq.2).mul hG : ContinuousOn (fun q : ℝ × (Fin (n+1) → ℝ) => A q.2 * G q) _)
  have hmono : ∀ x ∈ oc (n+1), ‖monomials mons x‖ = ∏ k, x k ^ (powers mons k).re := by
    intro x hx
    rw [monomials_pos mons x fun k => (mem_oc.1 hx k).1, norm_prod]
    exact Finset.prod_congr rfl fun k _ => Complex.norm_cpow_eq_rpow_re_of_pos (mem_oc.1 hx k).1 _
  have hmm : AEStronglyMeasurable (fun x => monomials mons x) (volume.restrict (oc (n+1))) := by
    have : AEStronglyMeasurable (fun x : Fin (n+1) → ℝ => ∏ k, (x k : ℂ) ^ powers mons k) (volume.restrict (oc (n+1))) :=
      (Finset.measurable_fun_prod _ fun i _ => (Complex.measurable_ofReal.comp (measurable_pi_apply i)).pow_const _).aestronglyMeasurable
    refine this.congr ?_
    refine (ae_restrict_iff' measurableSet_oc).2 (Eventually.of_forall fun x hx => ?_)
    exact (monomials_pos mons x fun k => (mem_oc.1 hx k).1).symm
  have hev : ∀ᶠ δ in nhdsWithin (0 : ℝ) (Ioi 0), δ ∈ Ioc (0 : ℝ) 1 := Ioc_mem_nhdsGT one_pos
  have hint : ∀ δ ∈ Ioc (0 : ℝ) 1, ∀ x ∈ oc (n+1), integrand F lam mons (fun ζ => h ζ * (F ζ - Complex.I * δ) ^ s) x = monomials mons x * (A x * G (δ, x)) := by
    intro δ hδ x hx
    simp only [integrand, hval δ hδ x (oc_sub hx), A]
    ring
  refine tendsto_integral_filter_of_dominated_convergence (fun x => (∏ k, x k ^ (powers mons k).re) * C) ?_ ?_ ((Subtraction.integrable_prod_rpow _ hp).mul_const C) ?_
  · filter_upwards [hev] with δ hδ
    have : AEStronglyMeasurable (fun x => monomials mons x * (A x * G (δ, x))) (volume.restrict (oc (n+1))) := by
      refine hmm.mul (ContinuousOn.aestronglyMeasurable ?_ measurableSet_oc)
      refine (hA.mul (hG.comp (Continuous.continuousOn (by fun_prop : Continuous fun x : Fin (n+1) → ℝ => (δ, x))) fun x hx => ⟨⟨hδ.1.le, hδ.2⟩, hx⟩)).mono oc_sub
    refine this.congr ((ae_restrict_iff' measurableSet_oc).2 (Eventually.of_forall fun x hx => (hint δ hδ x hx).symm))
  · filter_upwards [hev] with δ hδ
    refine (ae_restrict_iff' measurableSet_oc).2 (Eventually.of_forall fun x hx => ?_)
    rw [hint δ hδ x hx, norm_mul, hmono x hx]
    refine mul_le_mul_of_nonneg_left (hC (δ, x) ⟨⟨hδ.1.le, hδ.2⟩, oc_sub hx⟩) ?_
    exact Finset.prod_nonneg fun k _ => (Real.rpow_pos_of_pos (mem_oc.1 hx k).1 _).le
  · refine (ae_restrict_iff' measurableSet_oc).2 (Eventually.of_forall fun x hx => ?_)
    have h0 : integrand F lam mons (fun ζ => h ζ * pow (F ζ) s) x = monomials mons x * (A x * G (0, x)) := by
      simp only [integrand, hval0 x (oc_sub hx), A]
      ring
    rw [h0]
    have hc : Tendsto (fun δ : ℝ => G (δ, x)) (nhdsWithin 0 (Ioi 0)) (nhds (G (0, x))) := by
      have h1 : ContinuousWithinAt (fun δ : ℝ => G (δ, x)) (Icc 0 1) 0 :=
        ContinuousWithinAt.comp (f := fun δ : ℝ => (δ, x)) (x := (0:ℝ)) (hG (0, x) ⟨⟨le_rfl, zero_le_one⟩, oc_sub hx⟩) (Continuous.continuousWithinAt (by fun_prop : Continuous fun δ : ℝ => (δ, x))) fun δ hδ => ⟨hδ, oc_sub hx⟩
      have h2 : nhdsWithin (0 : ℝ) (Ioi 0) ≤ nhdsWithin 0 (Icc 0 1) := by
        rw [← nhdsWithin_Ioc_eq_nhdsGT (one_pos : (0:ℝ) < 1)]
        exact nhdsWithin_mono _ Ioc_subset_Icc_self
      exact h1.mono_left h2
    refine Tendsto.congr' ?_ ((hc.const_mul (A x)).const_mul (monomials mons x))
    filter_upwards [hev] with δ hδ
    exact (hint δ hδ x hx).symm

/-- C45: the endpoints are fixed: the boundary of the unit cube is not moved away from its hyperplanes. -/
theorem C45_endpoints (F : (Fin n → ℂ) → ℂ) (lam x : Fin n → ℝ) (k : Fin n) (h : x k = 0 ∨ x k = 1) : z F lam x k = x k := by
  simp only [z, deformed_eval, factor_eval]
  rcases h with h | h <;> simp [h]

/-- C45: the calls of the deformed variables and of their derivatives which are replaced by zero or by the undeformed variable have this value,
whatever the order `js` in which the derivatives are taken. -/
theorem C45_vanishing_calls {F : (Fin n → ℂ) → ℂ} (hF : AnalyticOnNhd ℂ F univ) (lam : Fin n → ℝ) (i : Fin n) (js : List (Fin n)) (x : Fin n → ℝ) (v : ℂ)
    (h : vanishingCall i (fun j => js.count j) x = some v) :
    (js.foldl (fun e j => e.derive j) (deformed lam i)).eval F x = v := by
  classical
  unfold vanishingCall at h
  split_ifs at h with h1 h2 h3
  · -- a derivative
    obtain rfl := Option.some.inj h
    have hni : i ∉ js := fun hm => by
      have := List.count_pos_iff.2 hm
      have h1' : js.count i = 0 := h1
      omega
    have hne : js ≠ [] := by rintro rfl; obtain ⟨j, hj⟩ := h3; simp at hj
    -- more generally, for expressions which are constant on the hyperplane
    have key : ∀ (js : List (Fin n)) (e : Dx n) (c : ℂ), i ∉ js → (∀ y : Fin n → ℝ, y i = x i → e.eval F y = c) →
        ∀ y : Fin n → ℝ, y i = x i → (js.foldl (fun e j => e.derive j) e).eval F y = if js = [] then c else 0 := by
      intro js
      induction js with
      | nil => intro e c _ he y hy; simpa using he y hy
      | cons j js ih =>
        intro e c hij he y hy
        have hj : i ≠ j := fun h => hij (by simp [h])
        have hd : ∀ y : Fin n → ℝ, y i = x i → (e.derive j).eval F y = 0 := by
          intro y hy
          refine (Dx.derive_ok hF e j y).unique ?_
          have : (fun s => e.eval F (Function.update y j s)) = fun _ => c := by
            funext s
            exact he _ (by rw [Function.update_of_ne hj]; exact hy)
          rw [this]; exact hasDerivAt_const _ _
        rw [List.foldl_cons, ih (e.derive j) 0 (fun h => hij (List.mem_cons_of_mem _ h)) hd y hy]
        simp
    have := key js (deformed lam i) (x i) hni (fun y hy => by
      have := C45_endpoints F lam y i (by rw [hy]; exact h2)
      rw [hy] at this; exact this) x rfl
    rw [this, if_neg hne]
  · obtain rfl := Option.some.inj h
    have hnil : js = [] := by
      cases js with
      | nil => rfl
      | cons j js => exact absurd ⟨j, by simp⟩ h3
    subst hnil
    exact C45_endpoints F lam x i h2

/-- C45: deformations with small positive parameters have the right sign: at every point of the unit cube the imaginary part of `F` is not raised. -/
theorem C45_sign_small {F : (Fin n → ℂ) → ℂ} (hF : AnalyticOnNhd ℂ F univ) (x : Fin n → ℝ) (hx : x ∈ Icc (0 : Fin n → ℝ) 1) :
    ∃ ε > 0, ∀ lam : Fin n → ℝ, (∀ k, 0 ≤ lam k ∧ lam k < ε) → (F (z F lam x)).im ≤ (F fun k => (x k : ℂ)).im := sign_small hF x hx

/-- C45: hence the search for the deformation parameters (C41) always ends: for every set of samples in the unit cube there are
parameters for which the sign check passes. -/
theorem C45_search_terminates {F : (Fin n → ℂ) → ℂ} (hF : AnalyticOnNhd ℂ F univ) {mn mx factor : ℝ} (hm : mn ≤ mx) (hmn : 0 ≤ mn)
    (hf0 : 0 ≤ factor) (hf1 : factor < 1) (allowed : (Fin n → ℝ) → Fin n → ℝ) (samples : List (Fin n → ℝ)) (hs : ∀ x ∈ samples, x ∈ Icc (0 : Fin n → ℝ) 1) :
    ∃ fuel opt, Deform.optimize mn mx factor allowed (Deform.passesSignCheck fun x lam => F (z F lam x)) samples fuel = some opt := by
  refine Deform.C41_optimize_terminates hm hmn hf0 hf1 allowed _ samples fun x hx => ?_
  obtain ⟨ε, hε, h⟩ := sign_small hF x (hs x hx)
  refine ⟨ε, hε, fun o ho => ?_⟩
  have h0 : z F 0 x = fun k => (x k : ℂ) := by
    funext k
    simp only [z, deformed_eval, factor_eval]; simp
  have := h o ho
  rw [← h0] at this
  simpa [Deform.passesSignCheck] using this

/-- C45: `log` of the generated code is the continuation from below: for every nonzero argument it is the limit of the logarithm of `a - iδ`. -/
theorem C45_log (a : ℂ) (ha : a ≠ 0) :
    Tendsto (fun δ : ℝ => Complex.log (a - Complex.I * δ)) (nhdsWithin 0 (Ioi 0)) (nhds (log a)) := by
  have hlim : Tendsto (fun δ : ℝ => a - Complex.I * δ) (nhdsWithin 0 (Ioi 0)) (nhds a) := by
    have : Continuous fun δ : ℝ => a - Complex.I * δ := by fun_prop
    have h := (this.tendsto 0).mono_left (nhdsWithin_le_nhds (s := Ioi 0))
    simpa using h
  rcases le_or_gt a.im 0 with him | him
  · rw [log_lower ha him]
    have h1 : Tendsto (fun δ : ℝ => Complex.log (Complex.I * (a - Complex.I * δ)) - Complex.I * (Real.pi / 2)) (nhdsWithin 0 (Ioi 0))
        (nhds (Complex.log (Complex.I * a) - Complex.I * (Real.pi / 2))) := by
      refine Tendsto.sub_const ?_ _
      exact ((continuousAt_clog (lower_slit ha him)).tendsto).comp (hlim.const_mul Complex.I)
    refine h1.congr' ?_
    refine eventually_nhdsWithin_of_forall fun δ hδ => ?_
    have hδ' : 0 < δ := hδ
    have him' : (a - Complex.I * δ).im < 0 := by simp; linarith
    exact (clog_lower (by intro h0; rw [h0] at him'; simp at him') (Or.inl him')).symm
  · have : log a = Complex.log a := by
      unfold log
      rw [if_neg him.ne']
    rw [this]
    exact ((continuousAt_clog (Or.inr him.ne')).tendsto).comp hlim

/-- C45: `pow` of the generated code is the continuation from below of the power. -/
theorem C45_pow (a s : ℂ) (ha : a ≠ 0) :
    Tendsto (fun δ : ℝ => (a - Complex.I * δ) ^ s) (nhdsWithin 0 (Ioi 0)) (nhds (pow a s)) := by
  have h := (Complex.continuous_exp.tendsto _).comp ((C45_log a ha).const_mul s)
  refine h.congr' ?_
  have : ∀ᶠ δ : ℝ in nhdsWithin 0 (Ioi 0), a - Complex.I * δ ≠ 0 := by
    have hc : Continuous fun δ : ℝ => a - Complex.I * δ := by fun_prop
    exact ((hc.continuousAt (x := 0)).mono_left nhdsWithin_le_nhds).eventually_ne (by simpa using ha)
  filter_upwards [this] with δ hδ
  simp [Complex.cpow_def_of_ne_zero hδ, mul_comm]

/-- C45: for integer exponents it is the power, as `pow` with an integer argument. -/
theorem C45_pow_integer (a : ℂ) (ha : a ≠ 0) (e : ℤ) : pow a e = a ^ e := by
  have h1 := C45_pow a e ha
  refine tendsto_nhds_unique h1 ?_
  simp only [Complex.cpow_intCast]
  have hc : ContinuousAt (fun δ : ℝ => (a - Complex.I * δ) ^ e) 0 := by
    refine ContinuousAt.zpow₀ (by fun_prop) e (Or.inl (by simpa using ha))
  have := hc.tendsto.mono_left (nhdsWithin_le_nhds (s := Ioi (0:ℝ)))
  simpa using this

theorem ite_eq_of {α : Type} {P : Prop} [Decidable P] {a b c : α} (h1 : P → a = c) (h2 : ¬ P → b = c) : (if P then a else b) = c := by
  by_cases h : P
  · rw [if_pos h]; exact h1 h
  · rw [if_neg h]; exact h2 h

/-- C45: the power with an integer exponent: the result is the power, for all exponents; there are at most thirteen recursive calls. -/
theorem C45_int_pow {K : Type} [Field K] (b : K) (e : ℤ) (fuel : ℕ) (hf : 13 ≤ fuel) : intPow fuel b e = some (b ^ e) := by
  have main : ∀ (d fuel : ℕ), d < fuel → ∀ e : ℤ, 0 ≤ e → e < 2 ^ (d + 1) → intPow fuel b e = some (b ^ e) := by
    intro d
    induction d with
    | zero =>
      intro fuel hd e h0 h1
      obtain ⟨fuel, rfl⟩ : ∃ k, fuel = k + 1 := ⟨fuel - 1, by omega⟩
      have : e = 0 ∨ e = 1 := by omega
      rcases this with rfl | rfl
      · unfold intPow; rw [if_neg (by omega), if_neg (by omega), if_pos rfl, zpow_zero]
      · unfold intPow; rw [if_neg (by omega), if_neg (by omega), if_neg (by omega), if_pos rfl, zpow_one]
    | succ d ih =>
      intro fuel hd e h0 h1
      obtain ⟨fuel, rfl⟩ : ∃ k, fuel = k + 1 := ⟨fuel - 1, by omega⟩
      unfold intPow
      have hsmall : ∀ (m : ℕ), b ^ (m : ℤ) = b ^ m := fun m => zpow_natCast b m
      refine ite_eq_of (fun c => rfl) fun c1 => ite_eq_of (fun c => absurd c (by omega)) fun c2 => ite_eq_of ?_ fun c3 => ite_eq_of ?_ fun c4 =>
        ite_eq_of ?_ fun c5 => ite_eq_of ?_ fun c6 => ite_eq_of ?_ fun c7 => ite_eq_of ?_ fun c8 => ite_eq_of ?_ fun c9 => ite_eq_of ?_ fun c10 =>
        ite_eq_of ?_ fun c11 => ite_eq_of ?_ fun c12 => ?_
      · rintro rfl; rw [zpow_zero]
      · rintro rfl; rw [zpow_one]
      · rintro rfl; rw [show (2:ℤ) = ((2:ℕ):ℤ) from rfl, hsmall]; congr 1; ring
      · rintro rfl; rw [show (3:ℤ) = ((3:ℕ):ℤ) from rfl, hsmall]; congr 1; ring
      · rintro rfl; rw [show (4:ℤ) = ((4:ℕ):ℤ) from rfl, hsmall]; dsimp only; congr 1; ring
      · rintro rfl; rw [show (5:ℤ) = ((5:ℕ):ℤ) from rfl, hsmall]; dsimp only; congr 1; ring
      · rintro rfl; rw [show (6:ℤ) = ((6:ℕ):ℤ) from rfl, hsmall]; dsimp only; congr 1; ring
      · rintro rfl; rw [show (7:ℤ) = ((7:ℕ):ℤ) from rfl, hsmall]; dsimp only; congr 1; ring
      · rintro rfl; rw [show (8:ℤ) = ((8:ℕ):ℤ) from rfl, hsmall]; dsimp only; congr 1; ring
      · rintro rfl; rw [show (16:ℤ) = ((16:ℕ):ℤ) from rfl, hsmall]; dsimp only; congr 1; ring
      · have hh : e / 2 < 2 ^ (d + 1) := by
          rw [pow_succ] at h1
          omega
        rw [ih fuel (by omega) (e / 2) (by omega) hh]
        obtain ⟨m, hm⟩ : ∃ m : ℕ, e / 2 = m := ⟨(e / 2).toNat, by omega⟩
        rw [Option.map_some]
        dsimp only
        rw [hm, hsmall]
        congr 1
        refine ite_eq_of (fun c13 => ?_) fun c13 => ?_
        · rw [show e = ((2 * m : ℕ) : ℤ) by push_cast; omega, hsmall]; ring
        · rw [show e = ((2 * m + 1 : ℕ) : ℤ) by push_cast; omega, hsmall]; ring
  by_cases hbig : e > 1024 ∨ e < -1024
  · obtain ⟨k, rfl⟩ : ∃ k, fuel = k + 1 := ⟨fuel - 1, by omega⟩
    unfold intPow
    rw [if_pos hbig]
  · by_cases hneg : e < 0
    · obtain ⟨k, rfl⟩ : ∃ k, fuel = k + 1 := ⟨fuel - 1, by omega⟩
      unfold intPow
      rw [if_neg hbig, if_pos hneg, main 10 k (by omega) (-e) (by omega) (by norm_num; omega)]
      simp
    · exact main 10 fuel (by omega) e (by omega) (by norm_num; omega)

/-! The hypotheses are met: the polynomial `x - 1/2`, which vanishes inside the interval, with the power `s` (for example `-1-ε`), the
deformation parameter one, and the monomial `x^(1/2)`. -/

theorem example_analytic : AnalyticOnNhd ℂ (fun ζ : Fin 1 → ℂ => ζ 0 - 1 / 2) univ := fun ζ _ =>
  ((ContinuousLinearMap.proj (R := ℂ) (φ := fun _ : Fin 1 => ℂ) 0).analyticAt ζ).sub analyticAt_const

theorem example_z (lam x : Fin 1 → ℝ) :
    z (fun ζ : Fin 1 → ℂ => ζ 0 - 1 / 2) lam x 0 = x 0 - Complex.I * (lam 0 * (x 0 * (1 - x 0))) := by
  have h1 := Func.mixed_update isOpen_univ example_analytic (fun _ => 0) 0 (mem_univ fun k => (x k : ℂ))
  rw [Func.mixed_zero] at h1
  have hR : R (fun ζ : Fin 1 → ℂ => ζ 0 - 1 / 2) 0 x = 1 := by
    unfold R
    rw [h1]
    simp [LoopCommon.partialDeriv]
  simp only [z, deformed_eval, factor_eval, hR]
  push_cast
  ring

example (s : ℂ) :
    Tendsto (fun δ : ℝ => ∫ x in Icc (0 : Fin 1 → ℝ) 1, monomials [(fun _ => 1, 1 / 2)] x * (1 * ((x 0 : ℂ) - 1 / 2 - Complex.I * δ) ^ s))
      (nhdsWithin 0 (Ioi 0))
      (nhds (∫ x in Icc (0 : Fin 1 → ℝ) 1, integrand (fun ζ => ζ 0 - 1 / 2) (fun _ => 1) [(fun _ => 1, 1 / 2)] (fun ζ => 1 * pow (ζ 0 - 1 / 2) s) x)) := by
  refine C45_prescription example_analytic (fun _ => 1) [(fun _ => 1, 1 / 2)] ?_ univ isOpen_univ (fun _ => 1) (differentiableOn_const _) ?_ ?_ s
  · intro k; norm_num [powers]
  · intro t ht x hx
    refine ⟨mem_univ _, ?_⟩
    rw [example_z]
    have h1 := hx.1 0
    have h2 := hx.2 0
    simp only [Pi.zero_apply, Pi.one_apply] at h1 h2
    simp
    exact mul_nonneg ht.1 (mul_nonneg h1 (by linarith))
  · intro x hx h0
    rw [example_z] at h0
    have h1 := congrArg Complex.re h0
    have h2 := congrArg Complex.im h0
    simp at h1 h2
    have h3 : x 0 = 1 / 2 := by norm_num at h1 ⊢; linarith
    rw [h3] at h2
    norm_num at h2

example : intPow (K := ℚ) 13 2 (-37) = some (1 / 2 ^ 37) := by
  rw [C45_int_pow 2 (-37) 13 le_rfl]; norm_num

end Contour
end SecDec
