import Verif.Proof.ContourCont
/-
The logarithm below the branch cut; the sign of the imaginary part for small deformations.
-/
namespace SecDec
namespace Contour
open LoopCommon (mixed partialDeriv)
open MeasureTheory Set

variable {n : ℕ}

theorem lower_slit {a : ℂ} (ha : a ≠ 0) (him : a.im ≤ 0) : Complex.I * a ∈ Complex.slitPlane := by
  rcases him.lt_or_eq with h | h
  · left; simpa using h
  · right
    intro h'
    refine ha (Complex.ext ?_ h)
    simpa using h'

theorem clog_lower {a : ℂ} (ha : a ≠ 0) (him : a.im < 0 ∨ a.im = 0 ∧ 0 ≤ a.re) :
    Complex.log a = Complex.log (Complex.I * a) - Complex.I * (Real.pi / 2) := by
  have h1 : Complex.log (Complex.I * a) = Complex.log Complex.I + Complex.log a := by
    rw [Complex.log_mul_eq_add_log_iff Complex.I_ne_zero ha, Complex.arg_I]
    have hpi := Real.pi_pos
    rcases him with h | ⟨h, h'⟩
    · have h2 : a.arg < 0 := Complex.arg_neg_iff.2 h
      have h3 := Complex.neg_pi_lt_arg a
      constructor <;> linarith
    · have : a.arg = 0 := Complex.arg_eq_zero_iff.2 ⟨h', h⟩
      rw [this]
      constructor <;> linarith
  rw [h1, Complex.log_I]; ring

theorem log_lower {a : ℂ} (ha : a ≠ 0) (him : a.im ≤ 0) : log a = Complex.log (Complex.I * a) - Complex.I * (Real.pi / 2) := by
  unfold log
  split_ifs with h1 h2
  · have e : a = ((-|a.re| : ℝ) : ℂ) := by
      refine Complex.ext ?_ (by simpa using h1)
      rw [Complex.ofReal_re, abs_of_neg h2, neg_neg]
    have hpos : 0 < |a.re| := abs_pos.2 h2.ne
    have e2 : Complex.I * a = ((|a.re| : ℝ) : ℂ) * (-Complex.I) := by
      rw [e]; push_cast; simp [mul_comm]
    rw [e2, Complex.log_ofReal_mul hpos (by simp), Complex.log_neg_I]
    refine Complex.ext ?_ ?_
    · simp
    · simp; ring
  · exact clog_lower ha (Or.inr ⟨h1, not_lt.1 h2⟩)
  · exact clog_lower ha (Or.inl (lt_of_le_of_ne him h1))

theorem pow_lower {a : ℂ} (ha : a ≠ 0) (him : a.im ≤ 0) (s : ℂ) :
    pow a s = Complex.exp (s * (Complex.log (Complex.I * a) - Complex.I * (Real.pi / 2))) := by
  rw [pow, log_lower ha him]

theorem cpow_lower {a : ℂ} (him : a.im < 0) (s : ℂ) :
    a ^ s = Complex.exp (s * (Complex.log (Complex.I * a) - Complex.I * (Real.pi / 2))) := by
  have ha : a ≠ 0 := by rintro rfl; simp at him
  rw [Complex.cpow_def_of_ne_zero ha, clog_lower ha (Or.inl him), mul_comm]

/-- A small deformation lowers the imaginary part. -/
theorem sign_small {F : (Fin n → ℂ) → ℂ} (hF : AnalyticOnNhd ℂ F univ) (x : Fin n → ℝ) (hx : x ∈ Icc (0 : Fin n → ℝ) 1) :
    ∃ ε > 0, ∀ lam : Fin n → ℝ, (∀ k, 0 ≤ lam k ∧ lam k < ε) → (F (z F lam x)).im ≤ (F fun k => (x k : ℂ)).im := by
  obtain ⟨p, hp⟩ := hF (fun k => (x k : ℂ)) (mem_univ _)
  have hO := hp.isBigO_sub_partialSum_pow 2
  obtain ⟨C, hC0, hC⟩ := hO.exists_pos
  obtain ⟨ρ, hρ, hball⟩ := Metric.eventually_nhds_iff.1 hC.bound
  have hR : ∀ k, R F k x = (fderiv ℂ F (fun k => (x k : ℂ)) (Pi.single k 1)).re := by
    intro k
    have hd : DifferentiableAt ℂ (mixed (fun _ => 0) F) fun k => (x k : ℂ) := (Func.mixed_analytic isOpen_univ hF _ _ (mem_univ _)).differentiableAt
    have h1 := Func.mixed_update isOpen_univ hF (fun _ => 0) k (mem_univ fun k => (x k : ℂ))
    rw [Func.partialDeriv_eq k hd, Func.mixed_zero] at h1
    unfold R
    rw [← h1]
  obtain ⟨K, hK0, hK⟩ : ∃ K > 0, ∀ k, |R F k x| ≤ K := by
    refine ⟨1 + ∑ k, |R F k x|, ?_, fun k => ?_⟩
    · have : 0 ≤ ∑ k, |R F k x| := Finset.sum_nonneg fun k _ => abs_nonneg _
      linarith
    · have := Finset.single_le_sum (f := fun k => |R F k x|) (fun k _ => abs_nonneg _) (Finset.mem_univ k)
      linarith
  refine ⟨min (1 / C) (ρ / K), lt_min (by positivity) (by positivity), fun lam hlam => ?_⟩
  set c : Fin n → ℝ := fun k => x k * (1 - x k) with hc
  have hc01 : ∀ k, 0 ≤ c k ∧ c k ≤ 1 := by
    intro k
    have h0 : 0 ≤ x k := hx.1 k
    have h1 : x k ≤ 1 := hx.2 k
    constructor
    · exact mul_nonneg h0 (by linarith)
    · simp only [hc]; nlinarith
  set d : Fin n → ℝ := fun k => lam k * c k * R F k x with hd
  set y : Fin n → ℂ := fun k => -Complex.I * (d k : ℂ) with hy
  have hz : z F lam x = (fun k => (x k : ℂ)) + y := by
    funext k
    simp only [z, deformed_eval, factor_eval, Pi.add_apply, hy, hd, hc]
    push_cast; ring
  have hyn : ∀ k, ‖y k‖ = |d k| := by
    intro k; simp [hy]
  have hylt : ‖y‖ < ρ := by
    rw [pi_norm_lt_iff hρ]
    intro k
    rw [hyn, hd]
    simp only [abs_mul]
    rw [abs_of_nonneg (hlam k).1, abs_of_nonneg (hc01 k).1]
    have h1 : lam k < ρ / K := (hlam k).2.trans_le (min_le_right _ _)
    calc lam k * c k * |R F k x| ≤ lam k * 1 * K := by
          refine mul_le_mul (mul_le_mul_of_nonneg_left (hc01 k).2 (hlam k).1) (hK k) (abs_nonneg _) ?_
          linarith [(hlam k).1]
      _ < ρ / K * K := by rw [mul_one]; exact mul_lt_mul_of_pos_right h1 hK0
      _ = ρ := div_mul_cancel₀ _ hK0.ne'
  have hb := hball (by simpa [dist_eq_norm] using hylt : dist y 0 < ρ)
  rw [← hz] at hb
  have hps : p.partialSum 2 y = F (fun k => (x k : ℂ)) + fderiv ℂ F (fun k => (x k : ℂ)) y := by
    unfold FormalMultilinearSeries.partialSum
    rw [Finset.sum_range_succ, Finset.sum_range_one, hp.coeff_zero, hp.fderiv_eq]
    rfl
  have hfd : (fderiv ℂ F (fun k => (x k : ℂ)) y).im = - ∑ k, lam k * c k * R F k x ^ 2 := by
    conv_lhs => rw [pi_eq_sum_univ y]
    rw [map_sum, Complex.im_sum, ← Finset.sum_neg_distrib]
    refine Finset.sum_congr rfl fun k _ => ?_
    have e : (fun j => if k = j then (1 : ℂ) else 0) = Pi.single k 1 := by
      funext j
      by_cases h : k = j
      · subst h; simp
      · simp [h]
    rw [map_smul, smul_eq_mul, e]
    simp only [hy, neg_mul, Complex.neg_im, Complex.mul_im, Complex.mul_re, Complex.I_re, Complex.I_im, Complex.ofReal_re, Complex.ofReal_im, ← hR, hd]
    ring
  have hn2 : ‖y‖ ^ 2 ≤ ∑ k, d k ^ 2 := by
    have h0 : 0 ≤ ∑ k, d k ^ 2 := Finset.sum_nonneg fun k _ => sq_nonneg _
    have h1 : ‖y‖ ≤ √(∑ k, d k ^ 2) := by
      rw [pi_norm_le_iff_of_nonneg (Real.sqrt_nonneg _)]
      intro k
      rw [hyn]
      refine Real.abs_le_sqrt ?_
      exact Finset.single_le_sum (f := fun k => d k ^ 2) (fun k _ => sq_nonneg _) (Finset.mem_univ k)
    calc ‖y‖ ^ 2 ≤ √(∑ k, d k ^ 2) ^ 2 := pow_le_pow_left₀ (norm_nonneg _) h1 2
      _ = _ := Real.sq_sqrt h0
  have hterm : C * ∑ k, d k ^ 2 ≤ ∑ k, lam k * c k * R F k x ^ 2 := by
    rw [Finset.mul_sum]
    refine Finset.sum_le_sum fun k _ => ?_
    have h1 : C * lam k ≤ 1 := by
      have := ((hlam k).2.trans_le (min_le_left _ _)).le
      rw [le_div_iff₀ hC0] at this
      linarith [mul_comm C (lam k)]
    have h2 : C * lam k * c k ≤ 1 := by
      have h3 : 0 ≤ C * lam k := mul_nonneg hC0.le (hlam k).1
      nlinarith [(hc01 k).1, (hc01 k).2]
    have h4 : 0 ≤ lam k * c k * R F k x ^ 2 := mul_nonneg (mul_nonneg (hlam k).1 (hc01 k).1) (sq_nonneg _)
    calc C * d k ^ 2 = (C * lam k * c k) * (lam k * c k * R F k x ^ 2) := by simp only [hd]; ring
      _ ≤ 1 * (lam k * c k * R F k x ^ 2) := mul_le_mul_of_nonneg_right h2 h4
      _ = _ := one_mul _
  have him : |(F (z F lam x) - p.partialSum 2 y).im| ≤ C * ‖y‖ ^ 2 := by
    refine (Complex.abs_im_le_norm _).trans (hb.trans_eq ?_)
    rw [norm_pow, norm_norm]
  rw [hps, Complex.sub_im, Complex.add_im, hfd] at him
  have h5 := (abs_le.1 him).2
  have h6 : C * ‖y‖ ^ 2 ≤ C * ∑ k, d k ^ 2 := mul_le_mul_of_nonneg_left hn2 hC0.le
  linarith

end Contour
end SecDec
