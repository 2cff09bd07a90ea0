import Mathlib.Analysis.Complex.TaylorSeries
import Mathlib.Analysis.Analytic.OfScalars
import Mathlib.Analysis.Complex.Liouville
import Mathlib.MeasureTheory.Integral.DominatedConvergence
/-
Integrals which depend analytically on a parameter.
-/
namespace SecDec.SectorExp
open MeasureTheory Set Filter Metric
open scoped Nat

variable {α : Type} [MeasurableSpace α] {μ : Measure α} {f : ℂ → α → ℂ} {z₀ : ℂ} {r : ℝ} {B : α → ℝ}

theorem coeff_bound (hr : 0 < r) (t : α) (hd : DifferentiableOn ℂ (fun z => f z t) (ball z₀ r))
    (hb : ∀ z ∈ ball z₀ r, ‖f z t‖ ≤ B t) (k : ℕ) :
    ‖iteratedDeriv k (fun z => f z t) z₀‖ ≤ k ! * B t / (r / 2) ^ k := by
  refine Complex.norm_iteratedDeriv_le_of_forall_mem_sphere_norm_le k (half_pos hr) ?_ fun z hz => hb z ?_
  · refine DifferentiableOn.diffContOnCl ?_
    rw [closure_ball _ (half_pos hr).ne']
    exact hd.mono (closedBall_subset_ball (by linarith))
  · exact sphere_subset_closedBall.trans (closedBall_subset_ball (by linarith)) hz

/-- Integrals of functions which are holomorphic in a parameter and dominated: the Taylor coefficients are the integrals of the Taylor
coefficients. -/
theorem param_integral (hr : 0 < r) (hB : Integrable B μ)
    (hd : ∀ᵐ t ∂μ, DifferentiableOn ℂ (fun z => f z t) (ball z₀ r)) (hb : ∀ᵐ t ∂μ, ∀ z ∈ ball z₀ r, ‖f z t‖ ≤ B t)
    (hm : ∀ k, AEStronglyMeasurable (fun t => iteratedDeriv k (fun z => f z t) z₀) μ) :
    AnalyticAt ℂ (fun z => ∫ t, f z t ∂μ) z₀ ∧
    ∀ k, Integrable (fun t => iteratedDeriv k (fun z => f z t) z₀) μ ∧
      iteratedDeriv k (fun z => ∫ t, f z t ∂μ) z₀ = ∫ t, iteratedDeriv k (fun z => f z t) z₀ ∂μ := by
  have hr2 := half_pos hr
  set c : ℕ → α → ℂ := fun k t => iteratedDeriv k (fun z => f z t) z₀ with hc
  have hcb : ∀ k, ∀ᵐ t ∂μ, ‖c k t‖ ≤ k ! / (r / 2) ^ k * B t := by
    intro k
    filter_upwards [hd, hb] with t h1 h2
    refine (coeff_bound hr t h1 h2 k).trans (le_of_eq ?_)
    ring
  have hci : ∀ k, Integrable (c k) μ := fun k => (hB.const_mul _).mono' (hm k) (hcb k)
  have hB0 : 0 ≤ ∫ t, B t ∂μ := by
    refine integral_nonneg_of_ae ?_
    filter_upwards [hb] with t h
    exact (norm_nonneg _).trans (h z₀ (mem_ball_self hr))
  have hcn : ∀ k, ∫ t, ‖c k t‖ ∂μ ≤ k ! / (r / 2) ^ k * ∫ t, B t ∂μ := by
    intro k
    rw [← integral_const_mul]
    exact integral_mono_ae (hci k).norm (hB.const_mul _) (hcb k)
  set a : ℕ → ℂ := fun k => (∫ t, c k t ∂μ) / k ! with ha
  have han : ∀ k, ‖a k‖ * (r / 2) ^ k ≤ ∫ t, B t ∂μ := by
    intro k
    have h1 : ‖∫ t, c k t ∂μ‖ ≤ k ! / (r / 2) ^ k * ∫ t, B t ∂μ := (norm_integral_le_integral_norm _).trans (hcn k)
    have h2 : (0:ℝ) < (r / 2) ^ k := pow_pos hr2 k
    have h3 : (0:ℝ) < k ! := by exact_mod_cast Nat.factorial_pos k
    rw [ha, norm_div, Complex.norm_natCast, div_mul_eq_mul_div, div_le_iff₀ h3]
    calc _ ≤ (k ! / (r / 2) ^ k * ∫ t, B t ∂μ) * (r / 2) ^ k := mul_le_mul_of_nonneg_right h1 h2.le
      _ = _ := by field_simp
  -- the sum
  have hsum : ∀ z ∈ ball z₀ (r / 2), HasSum (fun k => (z - z₀) ^ k * a k) (∫ t, f z t ∂μ) := by
    intro z hz
    have hz' : ‖z - z₀‖ < r / 2 := by rwa [mem_ball, dist_eq_norm] at hz
    have h1 : ∀ k, Integrable (fun t => ((k ! : ℂ)⁻¹ * (z - z₀) ^ k) * c k t) μ := fun k => (hci k).const_mul _
    have h2 : Summable fun k => ∫ t, ‖((k ! : ℂ)⁻¹ * (z - z₀) ^ k) * c k t‖ ∂μ := by
      refine Summable.of_nonneg_of_le (fun k => integral_nonneg fun t => norm_nonneg _) (fun k => ?_)
        ((summable_geometric_of_lt_one (r := ‖z - z₀‖ / (r / 2)) (by positivity) ((div_lt_one hr2).2 hz')).mul_right (∫ t, B t ∂μ))
      simp only [norm_mul]
      rw [integral_const_mul]
      have h3 : (0:ℝ) < k ! := by exact_mod_cast Nat.factorial_pos k
      calc _ ≤ ‖(k ! : ℂ)⁻¹‖ * ‖(z - z₀) ^ k‖ * (k ! / (r / 2) ^ k * ∫ t, B t ∂μ) :=
            mul_le_mul_of_nonneg_left (hcn k) (by positivity)
        _ = _ := by
            rw [norm_inv, Complex.norm_natCast, norm_pow, div_pow ‖z - z₀‖ (r / 2)]
            have h4 : ((k ! : ℝ))⁻¹ * k ! = 1 := inv_mul_cancel₀ h3.ne'
            have key : ∀ x q b g : ℝ, g⁻¹ * g = 1 → g⁻¹ * x * (g / q * b) = x / q * b := by
              intro x q b g h
              linear_combination (x / q * b) * h
            exact key _ _ _ _ h4
    have h3 := hasSum_integral_of_summable_integral_norm h1 h2
    have h4 : ∫ t, (∑' k, ((k ! : ℂ)⁻¹ * (z - z₀) ^ k) * c k t) ∂μ = ∫ t, f z t ∂μ := by
      refine integral_congr_ae ?_
      filter_upwards [hd] with t ht
      have := Complex.hasSum_taylorSeries_on_ball ht (ball_subset_ball (by linarith) hz : z ∈ ball z₀ r)
      rw [← this.tsum_eq]
      refine tsum_congr fun k => ?_
      simp only [smul_eq_mul, hc]; ring
    rw [h4] at h3
    refine h3.congr_fun fun k => ?_
    rw [integral_const_mul, ha]
    field_simp
  -- the power series
  have hps : HasFPowerSeriesOnBall (fun z => ∫ t, f z t ∂μ) (FormalMultilinearSeries.ofScalars ℂ a) z₀ (ENNReal.ofReal (r / 2)) := by
    refine ⟨?_, by simpa using hr2, ?_⟩
    · have := FormalMultilinearSeries.le_radius_of_bound (FormalMultilinearSeries.ofScalars ℂ a) (r := (r/2).toNNReal) (∫ t, B t ∂μ) fun k => by
        rw [FormalMultilinearSeries.ofScalars_norm, Real.coe_toNNReal _ hr2.le]
        exact han k
      exact this
    · intro y hy
      have hy' : z₀ + y ∈ ball z₀ (r / 2) := by
        rw [mem_ball, dist_eq_norm, add_sub_cancel_left]
        rw [Metric.mem_eball, edist_eq_enorm_sub, sub_zero, ← ofReal_norm, ENNReal.ofReal_lt_ofReal_iff hr2] at hy
        exact hy
      have := hsum _ hy'
      simp only [add_sub_cancel_left] at this
      simpa [FormalMultilinearSeries.ofScalars_apply_eq, mul_comm] using this
  have han : AnalyticAt ℂ (fun z => ∫ t, f z t ∂μ) z₀ := hps.analyticAt
  refine ⟨han, fun k => ⟨hci k, ?_⟩⟩
  have h1 := hps.hasFPowerSeriesAt.eq_formalMultilinearSeries han.hasFPowerSeriesAt
  have h2 := congrArg (fun p => FormalMultilinearSeries.coeff p k) h1
  simp only [FormalMultilinearSeries.coeff_ofScalars] at h2
  have h3 : (k ! : ℂ) ≠ 0 := by exact_mod_cast Nat.factorial_ne_zero k
  rw [ha] at h2
  exact ((div_left_inj' h3).1 h2).symm

end SecDec.SectorExp
