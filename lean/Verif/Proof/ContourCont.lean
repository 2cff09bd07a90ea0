import Verif.Proof.Contour
import Verif.Proof.SubIntegral
import Mathlib.Analysis.Calculus.ParametricIntegral
import Mathlib.Analysis.Complex.Liouville
import Mathlib.Analysis.Analytic.Uniqueness
import Mathlib.Analysis.Complex.CauchyIntegral
/-
Continuation in the powers of the monomials: the deformation does not change any convergent integral.
-/
namespace SecDec
namespace Contour
open MeasureTheory Set Decomp

variable {n : ℕ}

/-- The integrand with all powers shifted by `s`. -/
noncomputable def shifted (p : Fin n → ℂ) (w : Fin n → (Fin n → ℝ) → ℂ) (B : (Fin n → ℝ) → ℂ) (s : ℂ) (x : Fin n → ℝ) : ℂ :=
  (∏ k, (x k : ℂ) ^ (p k + s)) * ((∏ k, w k x ^ (p k + s)) * B x)

theorem cpow_hasDerivAt (c b s : ℂ) (hb : b ≠ 0) : HasDerivAt (fun s => b ^ (c + s)) (b ^ (c + s) * Complex.log b) s := by
  have h := (((hasDerivAt_id s).const_add c).const_cpow (c := b) (Or.inl hb))
  simpa using h

theorem prod_cpow_hasDerivAt (p b : Fin n → ℂ) (s : ℂ) (hb : ∀ k, b k ≠ 0) :
    HasDerivAt (fun s => ∏ k, b k ^ (p k + s)) ((∏ k, b k ^ (p k + s)) * ∑ k, Complex.log (b k)) s := by
  have h1 : (fun s => ∏ k, b k ^ (p k + s)) = fun s => Complex.exp (∑ k, Complex.log (b k) * (p k + s)) := by
    funext s
    rw [Complex.exp_sum]
    exact Finset.prod_congr rfl fun k _ => Complex.cpow_def_of_ne_zero (hb k) _
  have h2 : ∏ k, b k ^ (p k + s) = Complex.exp (∑ k, Complex.log (b k) * (p k + s)) := congrFun h1 s
  rw [h1, h2]
  refine HasDerivAt.cexp ?_
  refine (HasDerivAt.fun_sum (fun k _ => ((hasDerivAt_id s).const_add (p k)).const_mul (Complex.log (b k)))).congr_deriv ?_
  simp

theorem oc_sub : oc n ⊆ Icc (0 : Fin n → ℝ) 1 := fun t ht => ⟨fun i => (mem_oc.1 ht i).1.le, fun i => (mem_oc.1 ht i).2.le⟩

theorem shifted_measurable (p : Fin n → ℂ) (w : Fin n → (Fin n → ℝ) → ℂ) (hw : ∀ k, Continuous (w k)) (hs : ∀ k x, w k x ∈ Complex.slitPlane)
    (B : (Fin n → ℝ) → ℂ) (hB : ContinuousOn B (Icc 0 1)) (s : ℂ) :
    AEStronglyMeasurable (shifted p w B s) (volume.restrict (oc n)) := by
  refine AEStronglyMeasurable.mul ?_ (AEStronglyMeasurable.mul ?_ ((hB.mono oc_sub).aestronglyMeasurable measurableSet_oc))
  · refine Measurable.aestronglyMeasurable ?_
    exact Finset.measurable_fun_prod _ fun i _ => (Complex.measurable_ofReal.comp (measurable_pi_apply i)).pow_const _
  · refine Continuous.aestronglyMeasurable ?_
    exact continuous_finsetProd _ fun k _ => (hw k).cpow continuous_const fun x => hs k x

theorem shifted_diff (p : Fin n → ℂ) (w : Fin n → (Fin n → ℝ) → ℂ) (hw : ∀ k, Continuous (w k)) (hs : ∀ k x, w k x ∈ Complex.slitPlane)
    (B : (Fin n → ℝ) → ℂ) (hB : ContinuousOn B (Icc 0 1)) (s0 : ℂ) (hp : ∀ k, -1 < (p k).re + s0.re) :
    Integrable (shifted p w B s0) (volume.restrict (oc n)) ∧
    DifferentiableAt ℂ (fun s => ∫ x in oc n, shifted p w B s x) s0 := by
  obtain ⟨r, hr, hrp⟩ : ∃ r > 0, ∀ k, -1 < (p k).re + s0.re - 2 * r := by
    have : ∀ᶠ r in nhds (0 : ℝ), ∀ k, -1 < (p k).re + s0.re - 2 * r := by
      rw [Filter.eventually_all]
      intro k
      have hc : ContinuousAt (fun r : ℝ => (p k).re + s0.re - 2 * r) 0 := by fun_prop
      exact hc.eventually (lt_mem_nhds (by simpa using hp k))
    obtain ⟨ε, hε, h⟩ := Metric.eventually_nhds_iff.1 this
    exact ⟨ε / 2, by positivity, fun k => h (by rw [Real.dist_eq, sub_zero, abs_of_pos (by positivity)]; linarith) k⟩
  -- the bounded factor
  obtain ⟨C, hC⟩ : ∃ C, ∀ s ∈ Metric.closedBall s0 (2 * r), ∀ x ∈ Icc (0 : Fin n → ℝ) 1, ‖(∏ k, w k x ^ (p k + s)) * B x‖ ≤ C := by
    have hcomp : IsCompact (Metric.closedBall s0 (2 * r) ×ˢ Icc (0 : Fin n → ℝ) 1) := (isCompact_closedBall _ _).prod isCompact_Icc
    have hcont : ContinuousOn (fun q : ℂ × (Fin n → ℝ) => (∏ k, w k q.2 ^ (p k + q.1)) * B q.2) (Metric.closedBall s0 (2 * r) ×ˢ Icc (0 : Fin n → ℝ) 1) := by
      refine ContinuousOn.mul (Continuous.continuousOn ?_) (hB.comp continuousOn_snd fun q hq => hq.2)
      exact continuous_finsetProd _ fun k _ => ((hw k).comp continuous_snd).cpow (continuous_const.add continuous_fst) fun q => hs k q.2
    obtain ⟨C, hC⟩ := hcomp.exists_bound_of_continuousOn hcont
    exact ⟨C, fun s hs x hx => hC (s, x) ⟨hs, hx⟩⟩
  set b : (Fin n → ℝ) → ℝ := fun x => (∏ k, x k ^ ((p k).re + s0.re - 2 * r)) * C with hbdef
  have hbint : Integrable b (volume.restrict (oc n)) := (Subtraction.integrable_prod_rpow _ hrp).mul_const C
  have hbound : ∀ x ∈ oc n, ∀ s ∈ Metric.closedBall s0 (2 * r), ‖shifted p w B s x‖ ≤ b x := by
    intro x hx s hs'
    have hpos : ∀ i, 0 < x i ∧ x i < 1 := mem_oc.1 hx
    have hre : s0.re - 2 * r ≤ s.re := by
      have h1 : |(s - s0).re| ≤ 2 * r := (Complex.abs_re_le_norm _).trans (by simpa [dist_eq_norm] using hs')
      rw [Complex.sub_re, abs_le] at h1
      linarith [h1.1]
    unfold shifted
    rw [norm_mul, norm_prod]
    refine mul_le_mul ?_ (hC s hs' x (oc_sub hx)) (norm_nonneg _) (Finset.prod_nonneg fun k _ => (Real.rpow_pos_of_pos (hpos k).1 _).le)
    refine Finset.prod_le_prod (fun k _ => norm_nonneg _) fun k _ => ?_
    rw [Complex.norm_cpow_eq_rpow_re_of_pos (hpos k).1]
    refine Real.rpow_le_rpow_of_exponent_ge (hpos k).1 (hpos k).2.le ?_
    rw [Complex.add_re]; linarith
  let F' : ℂ → (Fin n → ℝ) → ℂ := fun s x => shifted p w B s x * ((∑ k, Complex.log (x k)) + ∑ k, Complex.log (w k x))
  have hderiv : ∀ x ∈ oc n, ∀ s, HasDerivAt (fun s => shifted p w B s x) (F' s x) s := by
    intro x hx s
    have h1 := prod_cpow_hasDerivAt p (fun k => (x k : ℂ)) s fun k => by exact_mod_cast (mem_oc.1 hx k).1.ne'
    have h2 := prod_cpow_hasDerivAt p (fun k => w k x) s fun k => Complex.slitPlane_ne_zero (hs k x)
    refine (h1.mul (h2.mul_const (B x))).congr_deriv ?_
    simp only [F', shifted]; ring
  have hnorm : ∀ x ∈ oc n, ∀ s ∈ Metric.ball s0 r, ‖F' s x‖ ≤ b x / r := by
    intro x hx s hs'
    rw [← (hderiv x hx s).deriv]
    refine Complex.norm_deriv_le_of_forall_mem_sphere_norm_le hr ?_ ?_
    · exact Differentiable.diffContOnCl fun s => (hderiv x hx s).differentiableAt
    · intro s' hs''
      refine hbound x hx s' ?_
      rw [Metric.mem_closedBall]
      have := dist_triangle s' s s0
      rw [Metric.mem_sphere] at hs''
      rw [Metric.mem_ball] at hs'
      linarith
  have hae : ∀ {P : (Fin n → ℝ) → Prop}, (∀ x ∈ oc n, P x) → ∀ᵐ x ∂(volume.restrict (oc n)), P x := fun h =>
    (ae_restrict_iff' measurableSet_oc).2 (Filter.Eventually.of_forall h)
  have hmeas := shifted_measurable p w hw hs B hB
  have hint : Integrable (shifted p w B s0) (volume.restrict (oc n)) :=
    Integrable.mono' hbint (hmeas s0) (hae fun x hx => hbound x hx s0 (Metric.mem_closedBall_self (by positivity)))
  refine ⟨hint, (hasDerivAt_integral_of_dominated_loc_of_deriv_le (F' := F') (bound := fun x => b x / r) (Metric.ball_mem_nhds s0 hr)
    (Filter.Eventually.of_forall hmeas) hint ?_ (hae hnorm) (hbint.div_const r) (hae fun x hx s _ => hderiv x hx s)).2.differentiableAt⟩
  refine (hmeas s0).mul (AEStronglyMeasurable.add ?_ ?_)
  · refine Measurable.aestronglyMeasurable ?_
    exact Finset.measurable_fun_sum _ fun k _ => Complex.measurable_log.comp (Complex.measurable_ofReal.comp (measurable_pi_apply k))
  · refine Continuous.aestronglyMeasurable ?_
    exact continuous_finsetSum _ fun k _ => (hw k).clog fun x => hs k x

/-- Two integrals which agree when all powers are large agree whenever they converge. -/
theorem shifted_eq (p : Fin n → ℂ) (w v : Fin n → (Fin n → ℝ) → ℂ) (hw : ∀ k, Continuous (w k)) (hws : ∀ k x, w k x ∈ Complex.slitPlane)
    (hv : ∀ k, Continuous (v k)) (hvs : ∀ k x, v k x ∈ Complex.slitPlane)
    (A B : (Fin n → ℝ) → ℂ) (hA : ContinuousOn A (Icc 0 1)) (hB : ContinuousOn B (Icc 0 1)) (hp : ∀ k, -1 < (p k).re)
    (h : ∀ s : ℂ, (∀ k, 0 < (p k + s).re) → ∫ x in oc n, shifted p w A s x = ∫ x in oc n, shifted p v B s x) :
    ∫ x in oc n, shifted p w A 0 x = ∫ x in oc n, shifted p v B 0 x := by
  let S : Set ℂ := {s | ∀ k, -1 < (p k).re + s.re}
  have hS : IsOpen S := by
    have : S = ⋂ k, {s : ℂ | -1 < (p k).re + s.re} := by ext; simp [S]
    rw [this]
    exact isOpen_iInter_of_finite fun k => isOpen_lt continuous_const (continuous_const.add Complex.continuous_re)
  have hconv : Convex ℝ S := by
    intro a ha b hb u v hu hv huv k
    have h1 := ha k
    have h2 := hb k
    simp only [Complex.add_re, Complex.real_smul, Complex.mul_re, Complex.ofReal_re, Complex.ofReal_im, zero_mul, sub_zero]
    have : (p k).re + (u * a.re + v * b.re) = u * ((p k).re + a.re) + v * ((p k).re + b.re) := by
      have : (p k).re = (u + v) * (p k).re := by rw [huv, one_mul]
      linear_combination this
    rw [this]
    rcases hu.eq_or_lt with h0 | h0
    · subst h0
      have : v = 1 := by linarith
      subst this; linarith
    · nlinarith
  have hf : AnalyticOnNhd ℂ (fun s => ∫ x in oc n, shifted p w A s x) S :=
    DifferentiableOn.analyticOnNhd (fun s hs => (shifted_diff p w hw hws A hA s hs).2.differentiableWithinAt) hS
  have hg : AnalyticOnNhd ℂ (fun s => ∫ x in oc n, shifted p v B s x) S :=
    DifferentiableOn.analyticOnNhd (fun s hs => (shifted_diff p v hv hvs B hB s hs).2.differentiableWithinAt) hS
  have h1 : (1 : ℂ) ∈ S := fun k => by simp only [Complex.one_re]; linarith [hp k]
  refine hf.eqOn_of_preconnected_of_eventuallyEq hg hconv.isPreconnected h1 ?_ (show (0 : ℂ) ∈ S from fun k => by simpa using hp k)
  have : ∀ᶠ s in nhds (1 : ℂ), ∀ k, 0 < (p k + s).re := by
    rw [Filter.eventually_all]
    intro k
    have hc : ContinuousAt (fun s : ℂ => (p k + s).re) 1 := by fun_prop
    exact hc.eventually (lt_mem_nhds (by simp only [Complex.add_re, Complex.one_re]; linarith [hp k]))
  filter_upwards [this] with s hs using h s hs

/-- The integral does not depend on the deformation, for all powers for which it converges. -/
theorem homotopy_conv {F : (Fin n → ℂ) → ℂ} (hF : AnalyticOnNhd ℂ F univ) (lam : Fin n → ℝ) (p : Fin n → ℂ)
    (hp : ∀ k, -1 < (p k).re) (U : Set (Fin n → ℂ)) (hU : IsOpen U) (g : (Fin n → ℂ) → ℂ) (hg : DifferentiableOn ℂ g U)
    (hUz : ∀ y ∈ Icc (0 : Fin (n+1) → ℝ) 1, Z F lam y ∈ U) :
    ∫ x in oc n, (∏ k, (x k : ℂ) ^ p k) * ((∏ k, (factor lam k).eval F x ^ p k) *
        (g (z F lam x) * (Matrix.of fun k c => ((deformed lam k).derive c).eval F x).det)) =
      ∫ x in oc n, (∏ k, (x k : ℂ) ^ p k) * g fun k => (x k : ℂ) := by
  have hcons : ∀ t ∈ Icc (0:ℝ) 1, ∀ x ∈ Icc (0 : Fin n → ℝ) 1, (Fin.cons t x : Fin (n+1) → ℝ) ∈ Icc (0 : Fin (n+1) → ℝ) 1 := by
    intro t ht x hx
    constructor
    · intro c; refine Fin.cases ?_ (fun c => ?_) c
      · exact ht.1
      · exact hx.1 c
    · intro c; refine Fin.cases ?_ (fun c => ?_) c
      · exact ht.2
      · exact hx.2 c
  have hZ1 : ∀ x : Fin n → ℝ, Z F lam (Fin.cons 1 x) = z F lam x := by
    intro x; simp [Z]
  have hZ0 : ∀ x : Fin n → ℝ, Z F lam (Fin.cons 0 x) = fun k => (x k : ℂ) := by
    intro x; funext k
    simp only [Z, z, deformed_eval, factor_eval, Fin.cons_zero, Fin.tail_cons]
    simp
  have hzc : Continuous (z F lam) := continuous_pi fun k => (Dx.contDiff hF (deformed lam k)).continuous
  have hA : ContinuousOn (fun x => g (z F lam x) * (Matrix.of fun k c => ((deformed lam k).derive c).eval F x).det) (Icc 0 1) := by
    refine ContinuousOn.mul (hg.continuousOn.comp hzc.continuousOn fun x hx => ?_) (Continuous.continuousOn ?_)
    · rw [← hZ1]; exact hUz _ (hcons 1 ⟨zero_le_one, le_rfl⟩ x hx)
    · refine Continuous.matrix_det (continuous_matrix fun k c => ?_)
      exact (Dx.contDiff hF _).continuous
  have hB : ContinuousOn (fun x : Fin n → ℝ => g fun k => (x k : ℂ)) (Icc 0 1) := by
    refine hg.continuousOn.comp (Continuous.continuousOn ?_) fun x hx => ?_
    · exact continuous_pi fun k => Complex.continuous_ofReal.comp (continuous_apply k)
    · rw [← hZ0]; exact hUz _ (hcons 0 ⟨le_rfl, zero_le_one⟩ x hx)
  have := shifted_eq p (fun k x => (factor lam k).eval F x) (fun _ _ => 1) (fun k => (Dx.contDiff hF _).continuous) (fun k x => factor_slit F lam k x)
    (fun _ => continuous_const) (fun _ _ => Complex.one_mem_slitPlane) _ _ hA hB hp ?_
  · simpa only [shifted, add_zero, Complex.one_cpow, Finset.prod_const_one, one_mul] using this
  · intro s hs
    have h := homotopy hF lam (fun k => p k + s) (fun k => Or.inl (hs k)) U hU g hg hUz
    rw [setIntegral_congr_set oc_ae, setIntegral_congr_set oc_ae]
    simp only [shifted, Complex.one_cpow, Finset.prod_const_one, one_mul]
    rw [← h]
    refine setIntegral_congr_fun measurableSet_Icc fun x _ => ?_
    simp only [phi, hZ1, Fin.cons_zero, Fin.cons_succ, Fin.tail_cons, one_mul, Finset.prod_mul_distrib]
    ring

end Contour
end SecDec
