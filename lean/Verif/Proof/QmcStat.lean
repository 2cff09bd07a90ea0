import Mathlib.Probability.Moments.Variance
import Verif.Proof.QmcShift
/-
The mean and the variance over independent shifts.
-/
namespace SecDec
namespace Qmc
open MeasureTheory ProbabilityTheory

variable {Ω : Type*} [MeasurableSpace Ω] {μ : Measure Ω} [IsProbabilityMeasure μ]

/-- The mean of `m` independent copies. -/
theorem integral_mean {m : ℕ} (hm : 0 < m) (X : Ω → ℂ) (hX : Integrable X μ) :
    ∫ ω, (∑ k, X (ω k)) / m ∂(Measure.pi fun _ : Fin m => μ) = ∫ ω, X ω ∂μ := by
  have hi : ∀ k : Fin m, Integrable (fun ω : Fin m → Ω => X (ω k)) (Measure.pi fun _ => μ) := fun k =>
    integrable_comp_eval hX
  rw [integral_div, integral_finsetSum _ fun k _ => hi k]
  have h1 : ∀ k : Fin m, ∫ ω, X (ω k) ∂(Measure.pi fun _ : Fin m => μ) = ∫ ω, X ω ∂μ := fun k =>
    integral_comp_eval hX.aestronglyMeasurable
  simp only [h1, Finset.sum_const, Finset.card_univ, Fintype.card_fin, nsmul_eq_mul]
  exact mul_div_cancel_left₀ _ (by exact_mod_cast hm.ne')

theorem npVar_eq {m : ℕ} (hm : 0 < m) (x : Fin m → ℝ) : npVar x = (∑ k, x k^2) / m - ((∑ k, x k) / m)^2 := by
  have hm' : (m:ℝ) ≠ 0 := by positivity
  unfold npVar
  set a := (∑ l, x l) / m with ha
  have : ∑ k, (x k - a)^2 = ∑ k, x k^2 - 2 * a * ∑ k, x k + m * a^2 := by
    simp only [sub_sq, Finset.sum_add_distrib, Finset.sum_sub_distrib, Finset.sum_const, Finset.card_univ, Fintype.card_fin,
      nsmul_eq_mul, Finset.mul_sum]
    congr 2
    apply Finset.sum_congr rfl; intros; ring
  rw [this]
  have hs : ∑ k, x k = m * a := by rw [ha]; field_simp
  rw [hs]; field_simp; ring

/-- The variance of the mean of `m` independent copies. -/
theorem variance_mean {m : ℕ} (X : Ω → ℝ) (hX : MemLp X 2 μ) :
    Var[fun ω => (∑ k, X (ω k)) / m; Measure.pi fun _ : Fin m => μ] = Var[X; μ] / m := by
  have h := variance_sum_pi (ι := Fin m) (μ := fun _ => μ) (X := fun _ => X) fun _ => hX
  have e : (fun ω : Fin m → Ω => (∑ k, X (ω k)) / (m:ℝ)) = fun ω => (1/(m:ℝ)) * (∑ k, fun ω : Fin m → Ω => X (ω k)) ω := by
    funext ω; rw [Finset.sum_apply]; ring
  rw [e, variance_const_mul, h]
  simp only [Finset.sum_const, Finset.card_univ, Fintype.card_fin, nsmul_eq_mul]
  rcases Nat.eq_zero_or_pos m with h0 | h0
  · subst h0; simp
  · field_simp

/-- The expectation of `np.var`. -/
theorem integral_npVar {m : ℕ} (hm : 0 < m) (X : Ω → ℝ) (hX : MemLp X 2 μ) :
    ∫ ω, npVar (fun k => X (ω k)) ∂(Measure.pi fun _ : Fin m => μ) = (1 - 1/m) * Var[X; μ] := by
  have hm' : (m:ℝ) ≠ 0 := by positivity
  set P := Measure.pi fun _ : Fin m => μ with hP
  have hL : ∀ k : Fin m, MemLp (fun ω : Fin m → Ω => X (ω k)) 2 P := fun k =>
    hX.comp_measurePreserving (measurePreserving_eval _ k)
  have hsq : ∀ k : Fin m, Integrable (fun ω : Fin m → Ω => X (ω k)^2) P := fun k => (hL k).integrable_sq
  have hmean : MemLp (fun ω : Fin m → Ω => (∑ k, X (ω k)) / (m:ℝ)) 2 P := by
    have := (memLp_finsetSum Finset.univ fun k _ => hL k).const_mul (1/(m:ℝ))
    refine this.congr_norm ?_ ?_ |>.mono_exponent le_rfl
    · exact ((memLp_finsetSum Finset.univ fun k _ => hL k).const_mul (1/(m:ℝ))).aestronglyMeasurable.congr (by
        filter_upwards with ω; ring)
    · filter_upwards with ω; congr 1; ring
  simp only [npVar_eq hm]
  rw [integral_sub ((integrable_finsetSum _ fun k _ => hsq k).div_const _) hmean.integrable_sq, integral_div,
    integral_finsetSum _ fun k _ => hsq k]
  have h1 : ∀ k : Fin m, ∫ ω, X (ω k)^2 ∂P = ∫ ω, X ω^2 ∂μ := fun k =>
    integral_comp_eval (μ := fun _ : Fin m => μ) (f := fun y => X y^2) (i := k) (hX.integrable_sq.aestronglyMeasurable)
  have hv := variance_mean (m := m) X hX
  rw [← hP, variance_eq_sub hmean] at hv
  have hE : ∫ ω, (∑ k, X (ω k)) / (m:ℝ) ∂P = ∫ ω, X ω ∂μ := by
    rw [integral_div, integral_finsetSum _ fun k _ => (hL k).integrable (by norm_num)]
    have h2 : ∀ k : Fin m, ∫ ω, X (ω k) ∂P = ∫ ω, X ω ∂μ := fun k =>
      integral_comp_eval (i := k) hX.aestronglyMeasurable
    simp only [h2, Finset.sum_const, Finset.card_univ, Fintype.card_fin, nsmul_eq_mul]
    field_simp
  rw [hE] at hv
  have hvX := variance_eq_sub hX
  simp only [Pi.pow_apply] at hv hvX
  simp only [h1, Finset.sum_const, Finset.card_univ, Fintype.card_fin, nsmul_eq_mul]
  have h3 : ∫ ω, ((∑ k, X (ω k)) / (m:ℝ))^2 ∂P = Var[X; μ] / m + (∫ ω, X ω ∂μ)^2 := by linarith
  rw [h3]
  have h4 : ∫ ω, X ω^2 ∂μ = Var[X; μ] + (∫ ω, X ω ∂μ)^2 := by linarith
  rw [h4]
  field_simp
  ring

end Qmc
end SecDec
