import Verif.Model.Uncertainties
import Verif.Spec.Uncertainties
import Mathlib.Probability.Independence.Integration
import Mathlib.Probability.Moments.Covariance
namespace SecDec
namespace Unc
open MeasureTheory ProbabilityTheory
variable {Ω : Type*} [MeasurableSpace Ω] {μ : Measure Ω} [IsProbabilityMeasure μ]
variable {X Y : Ω → ℝ} {a b : Dev}

theorem int_of (h : HasMeanStd μ X a.value a.uncertainty) : Integrable X μ := h.finite.integrable (by norm_num)

theorem std_neg (h : HasMeanStd μ X a.value a.uncertainty) :
    HasMeanStd μ (fun ω => -X ω) a.neg.value a.neg.uncertainty :=
  ⟨h.finite.neg, by rw [integral_neg, h.mean]; rfl, h.nonneg, by
    exact variance_neg.trans h.var⟩

theorem std_addNum (h : HasMeanStd μ X a.value a.uncertainty) (x : ℝ) :
    HasMeanStd μ (fun ω => X ω + x) (a.addNum x).value (a.addNum x).uncertainty :=
  ⟨h.finite.add (memLp_const x), by rw [integral_add (int_of h) (integrable_const x), h.mean]; simp [Dev.addNum], h.nonneg, by
    rw [variance_add_const h.finite.aestronglyMeasurable, h.var]; rfl⟩

theorem std_subNum (h : HasMeanStd μ X a.value a.uncertainty) (x : ℝ) :
    HasMeanStd μ (fun ω => X ω - x) (a.subNum x).value (a.subNum x).uncertainty := by
  simpa [sub_eq_add_neg, Dev.addNum, Dev.subNum] using std_addNum h (-x)

theorem std_add (hX : HasMeanStd μ X a.value a.uncertainty) (hY : HasMeanStd μ Y b.value b.uncertainty)
    (hc : cov[X, Y; μ] = 0) : HasMeanStd μ (fun ω => X ω + Y ω) (a.add b).value (a.add b).uncertainty :=
  ⟨hX.finite.add hY.finite, by rw [integral_add (int_of hX) (int_of hY), hX.mean, hY.mean]; rfl, Real.sqrt_nonneg _, by
    have h := variance_add hX.finite hY.finite
    have e : (X + Y) = fun ω => X ω + Y ω := rfl
    rw [e] at h
    rw [h, hc, hX.var, hY.var, Dev.add, Real.sq_sqrt (by nlinarith [sq_nonneg a.uncertainty, sq_nonneg b.uncertainty])]; ring⟩

theorem std_sub (hX : HasMeanStd μ X a.value a.uncertainty) (hY : HasMeanStd μ Y b.value b.uncertainty)
    (hc : cov[X, Y; μ] = 0) : HasMeanStd μ (fun ω => X ω - Y ω) (a.sub b).value (a.sub b).uncertainty := by
  have := std_add hX (std_neg hY) (by rw [covariance_fun_neg_right, hc, neg_zero])
  simpa [sub_eq_add_neg, Dev.add, Dev.sub, Dev.neg] using this

theorem std_mulNum (h : HasMeanStd μ X a.value a.uncertainty) (x : ℝ) :
    HasMeanStd μ (fun ω => X ω * x) (a.mulNum x).value (a.mulNum x).uncertainty :=
  ⟨h.finite.mul_const x, by rw [integral_mul_const, h.mean]; rfl, Real.sqrt_nonneg _, by
    rw [variance_mul_const, h.var, Dev.mulNum, Real.sq_sqrt (by nlinarith [sq_nonneg (a.uncertainty * x)])]; ring⟩

theorem std_divNum (h : HasMeanStd μ X a.value a.uncertainty) (x : ℝ) :
    HasMeanStd μ (fun ω => X ω / x) (a.divNum x).value (a.divNum x).uncertainty := by
  have := std_mulNum h x⁻¹
  have e : (a.divNum x) = a.mulNum x⁻¹ := by
    simp only [Dev.divNum, Dev.mulNum, div_eq_mul_inv, Dev.mk.injEq, true_and, mul_inv]
    congr 1; ring
  rw [e]; simpa [div_eq_mul_inv] using this

theorem memLp_mul (hX : MemLp X 2 μ) (hY : MemLp Y 2 μ) (hi : IndepFun X Y μ) : MemLp (fun ω => X ω * Y ω) 2 μ := by
  refine (memLp_two_iff_integrable_sq (hX.aestronglyMeasurable.mul hY.aestronglyMeasurable)).2 ?_
  have h2 : IndepFun (fun ω => X ω ^ 2) (fun ω => Y ω ^ 2) μ :=
    hi.comp (measurable_id.pow_const 2) (measurable_id.pow_const 2)
  have := h2.integrable_mul hX.integrable_sq hY.integrable_sq
  refine this.congr (Filter.Eventually.of_forall fun ω => ?_)
  simp [mul_pow]

theorem integral_sq (hX : HasMeanStd μ X a.value a.uncertainty) : ∫ ω, X ω ^ 2 ∂μ = a.uncertainty ^ 2 + a.value ^ 2 := by
  have := variance_eq_sub hX.finite
  have e : ∫ ω, (X ^ 2) ω ∂μ = ∫ ω, X ω ^ 2 ∂μ := rfl
  rw [hX.var, hX.mean, e] at this
  linarith

theorem std_mul (hX : HasMeanStd μ X a.value a.uncertainty) (hY : HasMeanStd μ Y b.value b.uncertainty)
    (hi : IndepFun X Y μ) : HasMeanStd μ (fun ω => X ω * Y ω) (a.mul b).value (a.mul b).uncertainty := by
  have hm := memLp_mul hX.finite hY.finite hi
  have hE : ∫ ω, X ω * Y ω ∂μ = a.value * b.value := by
    have := hi.integral_mul_eq_mul_integral hX.finite.aestronglyMeasurable hY.finite.aestronglyMeasurable
    rw [← hX.mean, ← hY.mean]; exact this
  have h2 : IndepFun (fun ω => X ω ^ 2) (fun ω => Y ω ^ 2) μ :=
    hi.comp (measurable_id.pow_const 2) (measurable_id.pow_const 2)
  have hE2 : ∫ ω, X ω ^ 2 * Y ω ^ 2 ∂μ = (a.uncertainty ^ 2 + a.value ^ 2) * (b.uncertainty ^ 2 + b.value ^ 2) := by
    have := h2.integral_mul_eq_mul_integral hX.finite.integrable_sq.aestronglyMeasurable hY.finite.integrable_sq.aestronglyMeasurable
    rw [← integral_sq hX, ← integral_sq hY]; exact this
  refine ⟨hm, hE, Real.sqrt_nonneg _, ?_⟩
  have hv := variance_eq_sub hm
  rw [hv, hE, Dev.mul, Real.sq_sqrt]
  · have e : ∫ ω, ((fun ω => X ω * Y ω) ^ 2) ω ∂μ = ∫ ω, X ω ^ 2 * Y ω ^ 2 ∂μ := by
      congr 1; funext ω; simp [mul_pow]
    rw [e, hE2]; ring
  · nlinarith [sq_nonneg (a.uncertainty * b.value), sq_nonneg (b.uncertainty * a.value), sq_nonneg (a.uncertainty * b.uncertainty)]

/-- Products with independent pairs are uncorrelated, if the factors of each pair are. -/
theorem cov_mul_mul {Z W : Ω → ℂ} (f g h k : ℂ → ℝ) (hf : Measurable f) (hg : Measurable g) (hh : Measurable h) (hk : Measurable k)
    (hi : IndepFun Z W μ)
    (mf : MemLp (fun ω => f (Z ω)) 2 μ) (mg : MemLp (fun ω => g (Z ω)) 2 μ)
    (mh : MemLp (fun ω => h (W ω)) 2 μ) (mk : MemLp (fun ω => k (W ω)) 2 μ)
    (c1 : cov[fun ω => f (Z ω), fun ω => g (Z ω); μ] = 0) (c2 : cov[fun ω => h (W ω), fun ω => k (W ω); μ] = 0) :
    cov[fun ω => f (Z ω) * h (W ω), fun ω => g (Z ω) * k (W ω); μ] = 0 := by
  have ifh : IndepFun (fun ω => f (Z ω)) (fun ω => h (W ω)) μ := hi.comp hf hh
  have igk : IndepFun (fun ω => g (Z ω)) (fun ω => k (W ω)) μ := hi.comp hg hk
  have ip : IndepFun (fun ω => f (Z ω) * g (Z ω)) (fun ω => h (W ω) * k (W ω)) μ := hi.comp (hf.mul hg) (hh.mul hk)
  rw [covariance_eq_sub (memLp_mul mf mh ifh) (memLp_mul mg mk igk)]
  rw [covariance_eq_sub mf mg] at c1
  rw [covariance_eq_sub mh mk] at c2
  have e1 := ifh.integral_mul_eq_mul_integral mf.aestronglyMeasurable mh.aestronglyMeasurable
  have e2 := igk.integral_mul_eq_mul_integral mg.aestronglyMeasurable mk.aestronglyMeasurable
  have e3 := ip.integral_mul_eq_mul_integral (mf.aestronglyMeasurable.mul mg.aestronglyMeasurable)
    (mh.aestronglyMeasurable.mul mk.aestronglyMeasurable)
  simp only [Pi.mul_apply] at c1 c2 e1 e2 e3 ⊢
  have e4 : ∫ ω, f (Z ω) * h (W ω) * (g (Z ω) * k (W ω)) ∂μ = ∫ ω, f (Z ω) * g (Z ω) * (h (W ω) * k (W ω)) ∂μ := by
    congr 1; funext ω; ring
  rw [e4, e1, e2, e3, sub_eq_zero.1 c1, sub_eq_zero.1 c2]; ring

theorem std_cmulNum {Z : Ω → ℂ} {a : CDev} (hZ : HasMeanStdC μ Z a.value a.uncertainty) (cZ : PartsUncorrelated μ Z) (x : ℂ) :
    HasMeanStdC μ (fun ω => Z ω * x) (a.mulNum x).value (a.mulNum x).uncertainty := by
  have zr : HasMeanStd μ (fun ω => (Z ω).re) a.re.value a.re.uncertainty := hZ.re
  have zi : HasMeanStd μ (fun ω => (Z ω).im) a.im.value a.im.uncertainty := hZ.im
  have cZ' : cov[fun ω => (Z ω).re, fun ω => (Z ω).im; μ] = 0 := cZ
  have lin : ∀ p q : ℝ, cov[fun ω => (Z ω).re * p, fun ω => (Z ω).im * q; μ] = 0 := by
    intro p q
    rw [covariance_mul_const_left, covariance_mul_const_right, cZ']; ring
  refine ⟨?_, ?_⟩
  · have := std_sub (std_mulNum zr x.re) (std_mulNum zi x.im) (lin _ _)
    simpa [Complex.mul_re, CDev.mulNum, CDev.ofParts] using this
  · have := std_add (std_mulNum zr x.im) (std_mulNum zi x.re) (lin _ _)
    simpa [Complex.mul_im, CDev.mulNum, CDev.ofParts] using this

theorem std_cadd {Z W : Ω → ℂ} {a b : CDev} (hZ : HasMeanStdC μ Z a.value a.uncertainty)
    (hW : HasMeanStdC μ W b.value b.uncertainty) (h1 : cov[fun ω => (Z ω).re, fun ω => (W ω).re; μ] = 0)
    (h2 : cov[fun ω => (Z ω).im, fun ω => (W ω).im; μ] = 0) :
    HasMeanStdC μ (fun ω => Z ω + W ω) (a.add b).value (a.add b).uncertainty := by
  have zr : HasMeanStd μ (fun ω => (Z ω).re) a.re.value a.re.uncertainty := hZ.re
  have zi : HasMeanStd μ (fun ω => (Z ω).im) a.im.value a.im.uncertainty := hZ.im
  have wr : HasMeanStd μ (fun ω => (W ω).re) b.re.value b.re.uncertainty := hW.re
  have wi : HasMeanStd μ (fun ω => (W ω).im) b.im.value b.im.uncertainty := hW.im
  exact ⟨by simpa [CDev.add, CDev.re, CDev.im, Dev.add] using std_add zr wr h1,
    by simpa [CDev.add, CDev.re, CDev.im, Dev.add] using std_add zi wi h2⟩

theorem weightedSum_concat (l : List (ℂ × CDev)) (t : ℂ × CDev) :
    CDev.weightedSum (l ++ [t]) = (CDev.weightedSum l).add (t.2.mulNum t.1) := by
  simp [CDev.weightedSum]

end Unc
end SecDec
