import Verif.Props.Primary
import Mathlib.MeasureTheory.Integral.Pi
import Mathlib.Analysis.SpecialFunctions.Gamma.Basic
/-
Feynman's formula: a product of powers of positive numbers as an integral over Feynman parameters (proof of C51).
-/
namespace SecDec
namespace Feynman
open scoped BigOperators
open MeasureTheory Decomp
noncomputable section
variable {n : ℕ}

theorem gamma_one {ν D : ℝ} (hν : 0 < ν) (hD : 0 < D) :
    IntegrableOn (fun a : ℝ => a ^ (ν - 1) * Real.exp (-(D * a))) (Set.Ioi 0) ∧
    ∫ a : ℝ in Set.Ioi 0, a ^ (ν - 1) * Real.exp (-(D * a)) = D ^ (-ν) * Real.Gamma ν := by
  have h := Real.integral_rpow_mul_exp_neg_mul_Ioi hν hD
  rw [one_div, Real.inv_rpow hD.le, ← Real.rpow_neg hD.le] at h
  refine ⟨?_, h⟩
  by_contra hn
  have h0 := integral_undef hn
  rw [h] at h0
  have : 0 < D ^ (-ν) * Real.Gamma ν := mul_pos (Real.rpow_pos_of_pos hD _) (Real.Gamma_pos_of_pos hν)
  linarith

theorem restrict_pos : (volume : Measure (Fin n → ℝ)).restrict (pos n) = Measure.pi fun _ => volume.restrict (Set.Ioi (0 : ℝ)) := by
  rw [volume_pi, ← Measure.restrict_pi_pi]
  congr 1
  ext w; simp [pos]

theorem measurableSet_pos : MeasurableSet (pos n) := by
  have : pos n = Set.univ.pi fun _ => Set.Ioi (0 : ℝ) := by ext w; simp [pos]
  rw [this]
  exact MeasurableSet.univ_pi fun _ => measurableSet_Ioi

/-- The integral over all but the last of the Schwinger parameters, at a fixed value `s` of the last one. -/
theorem inner (ν D : Fin n → ℝ) (hν : ∀ i, 0 < ν i) (hD : ∀ i, 0 < D i) {s : ℝ} (hs : 0 < s) :
    IntegrableOn (fun w : Fin n → ℝ => ∏ i, (w i ^ (ν i - 1) * Real.exp (-(s * D i * w i)))) (pos n) ∧
    ∫ w in pos n, ∏ i, (w i ^ (ν i - 1) * Real.exp (-(s * D i * w i))) = ∏ i, ((s * D i) ^ (-ν i) * Real.Gamma (ν i)) := by
  rw [IntegrableOn, restrict_pos]
  constructor
  · exact Integrable.fintype_prod (f := fun i (v : ℝ) => v ^ (ν i - 1) * Real.exp (-(s * D i * v)))
      fun i => (gamma_one (hν i) (mul_pos hs (hD i))).1
  · rw [integral_fintype_prod_eq_prod (f := fun i (v : ℝ) => v ^ (ν i - 1) * Real.exp (-(s * D i * v)))]
    exact Finset.prod_congr rfl fun i _ => (gamma_one (hν i) (mul_pos hs (hD i))).2

/-- The integrand of Feynman's formula. -/
def kernel (ν D : Fin (n+1) → ℝ) (x : Fin (n+1) → ℝ) : ℝ := (∏ i, x i ^ (ν i - 1)) * (∑ i, x i * D i) ^ (-∑ i, ν i)

theorem snoc_pos {w : Fin n → ℝ} (hw : w ∈ pos n) (i : Fin (n+1)) : 0 < (Fin.snoc w 1 : Fin (n+1) → ℝ) i := by
  refine Fin.lastCases ?_ (fun k => ?_) i
  · simp
  · simpa using hw k

theorem sum_pos' {x D : Fin (n+1) → ℝ} (hx : ∀ i, 0 < x i) (hD : ∀ i, 0 < D i) : 0 < ∑ i, x i * D i :=
  Finset.sum_pos (fun i _ => mul_pos (hx i) (hD i)) Finset.univ_nonempty

theorem kernel_pos {ν D : Fin (n+1) → ℝ} (hD : ∀ i, 0 < D i) {x : Fin (n+1) → ℝ} (hx : ∀ i, 0 < x i) : 0 < kernel ν D x :=
  mul_pos (Finset.prod_pos fun i _ => Real.rpow_pos_of_pos (hx i) _) (Real.rpow_pos_of_pos (sum_pos' hx hD) _)

/-- Feynman's formula, with the last parameter set to one. -/
theorem feynman (ν D : Fin (n+1) → ℝ) (hν : ∀ i, 0 < ν i) (hD : ∀ i, 0 < D i) :
    IntegrableOn (fun w => kernel ν D (Fin.snoc w 1)) (pos n) ∧
    Real.Gamma (∑ i, ν i) * ∫ w in pos n, kernel ν D (Fin.snoc w 1) = ∏ i, (Real.Gamma (ν i) * D i ^ (-ν i)) := by
  set N := ∑ i, ν i with hN
  have hN0 : 0 < N := Finset.sum_pos (fun i _ => hν i) Finset.univ_nonempty
  have hG := Real.Gamma_pos_of_pos hN0
  set ν' : Fin n → ℝ := fun i => ν i.castSucc with hν'
  set D' : Fin n → ℝ := fun i => D i.castSucc with hD'
  set S : (Fin n → ℝ) → ℝ := fun w => ∑ i, (Fin.snoc w 1 : Fin (n+1) → ℝ) i * D i with hS
  have hSe : ∀ w, S w = (∑ i, w i * D' i) + D (Fin.last n) := by
    intro w; simp only [hS]; rw [Fin.sum_univ_castSucc]; simp [hD']
  have hme : ∀ w : Fin n → ℝ, (∏ i, (Fin.snoc w 1 : Fin (n+1) → ℝ) i ^ (ν i - 1)) = ∏ i, w i ^ (ν' i - 1) := by
    intro w; rw [Fin.prod_univ_castSucc]; simp [hν']
  have hSp : ∀ w ∈ pos n, 0 < S w := fun w hw => sum_pos' (snoc_pos hw) hD
  set g : (Fin n → ℝ) → ℝ → ℝ := fun w s => (∏ i, w i ^ (ν' i - 1)) * (s ^ (N - 1) * Real.exp (-(S w * s))) with hg
  have hgs : ∀ w s, g w s = s ^ (N - 1) * Real.exp (-(D (Fin.last n) * s)) * ∏ i, (w i ^ (ν' i - 1) * Real.exp (-(s * D' i * w i))) := by
    intro w s
    simp only [hg]
    rw [Finset.prod_mul_distrib, ← Real.exp_sum, hSe,
      show -(((∑ i, w i * D' i) + D (Fin.last n)) * s) = -(D (Fin.last n) * s) + ∑ i, -(s * D' i * w i) by
        rw [add_mul, neg_add, Finset.sum_mul, ← Finset.sum_neg_distrib, add_comm]
        congr 1
        exact Finset.sum_congr rfl fun i _ => by ring,
      Real.exp_add]
    ring
  have hout : ∀ s ∈ Set.Ioi (0 : ℝ), s ^ (N - 1) * Real.exp (-(D (Fin.last n) * s)) * ∏ i, ((s * D' i) ^ (-ν' i) * Real.Gamma (ν' i)) =
      (∏ i, (Real.Gamma (ν' i) * D' i ^ (-ν' i))) * (s ^ (ν (Fin.last n) - 1) * Real.exp (-(D (Fin.last n) * s))) := by
    intro s hs
    have hs' : (0 : ℝ) < s := hs
    have h1 : ∏ i, ((s * D' i) ^ (-ν' i) * Real.Gamma (ν' i)) = s ^ (-∑ i, ν' i) * ∏ i, (Real.Gamma (ν' i) * D' i ^ (-ν' i)) := by
      rw [← Finset.sum_neg_distrib, Real.rpow_sum_of_pos hs', ← Finset.prod_mul_distrib]
      refine Finset.prod_congr rfl fun i _ => ?_
      rw [Real.mul_rpow hs'.le (hD _).le]; ring
    have h2 : s ^ (N - 1) * s ^ (-∑ i, ν' i) = s ^ (ν (Fin.last n) - 1) := by
      rw [← Real.rpow_add hs']
      congr 1
      rw [hN, Fin.sum_univ_castSucc]; simp only [hν']; ring
    rw [h1, ← h2]; ring
  have hprod : Integrable (Function.uncurry g) ((volume.restrict (pos n)).prod (volume.restrict (Set.Ioi (0 : ℝ)))) := by
    have hm : Measurable (Function.uncurry g) := by
      have hSm : Measurable S := by
        have : S = fun w => (∑ i, w i * D' i) + D (Fin.last n) := funext hSe
        rw [this]; fun_prop
      simp only [hg, Function.uncurry_def]
      refine Measurable.mul ?_ (Measurable.mul (measurable_snd.pow_const _) (Measurable.exp ?_))
      · exact Finset.measurable_prod _ fun i _ => ((measurable_pi_apply i).comp measurable_fst).pow_const _
      · exact ((hSm.comp measurable_fst).mul measurable_snd).neg
    rw [integrable_prod_iff' hm.aestronglyMeasurable]
    constructor
    · filter_upwards [self_mem_ae_restrict measurableSet_Ioi] with s hs
      simp only [Function.uncurry]
      simp only [hgs]
      exact (inner ν' D' (fun i => hν _) (fun i => hD _) hs).1.const_mul _
    · have : ∀ s ∈ Set.Ioi (0 : ℝ), ∫ w in pos n, ‖Function.uncurry g (w, s)‖ =
          (∏ i, (Real.Gamma (ν' i) * D' i ^ (-ν' i))) * (s ^ (ν (Fin.last n) - 1) * Real.exp (-(D (Fin.last n) * s))) := by
        intro s hs
        rw [← hout s hs, ← (inner ν' D' (fun i => hν _) (fun i => hD _) hs).2, ← integral_const_mul]
        refine setIntegral_congr_fun measurableSet_pos fun w hw => ?_
        simp only [Function.uncurry, hgs]
        rw [Real.norm_of_nonneg]
        refine mul_nonneg (mul_nonneg (Real.rpow_nonneg (le_of_lt hs) _) (Real.exp_pos _).le) (Finset.prod_nonneg fun i _ => ?_)
        exact mul_nonneg (Real.rpow_nonneg (hw i).le _) (Real.exp_pos _).le
      refine IntegrableOn.congr_fun ?_ (fun s hs => (this s hs).symm) measurableSet_Ioi
      exact (gamma_one (hν _) (hD _)).1.const_mul _
  have hleft : ∀ w ∈ pos n, ∫ s : ℝ in Set.Ioi 0, g w s = kernel ν D (Fin.snoc w 1) * Real.Gamma N := by
    intro w hw
    simp only [hg]
    rw [integral_const_mul, (gamma_one hN0 (hSp w hw)).2]
    unfold kernel
    rw [hme]; ring
  constructor
  · have h1 := hprod.integral_prod_left
    have h2 : IntegrableOn (fun w => kernel ν D (Fin.snoc w 1) * Real.Gamma N) (pos n) :=
      IntegrableOn.congr_fun h1 (fun w hw => hleft w hw) measurableSet_pos
    have h3 := h2.mul_const (Real.Gamma N)⁻¹
    refine h3.congr (Filter.Eventually.of_forall fun w => ?_)
    simp only
    rw [mul_assoc, mul_inv_cancel₀ hG.ne', mul_one]
  · have h3 := integral_integral_swap hprod
    rw [setIntegral_congr_fun measurableSet_pos hleft, integral_mul_const] at h3
    rw [mul_comm, h3]
    have h4 : ∀ s ∈ Set.Ioi (0 : ℝ), ∫ w in pos n, g w s =
        (∏ i, (Real.Gamma (ν' i) * D' i ^ (-ν' i))) * (s ^ (ν (Fin.last n) - 1) * Real.exp (-(D (Fin.last n) * s))) := by
      intro s hs
      rw [← hout s hs, ← (inner ν' D' (fun i => hν _) (fun i => hD _) hs).2, ← integral_const_mul]
      refine setIntegral_congr_fun measurableSet_pos fun w hw => ?_
      exact hgs w s
    rw [setIntegral_congr_fun measurableSet_Ioi h4, integral_const_mul, (gamma_one (hν _) (hD _)).2, Fin.prod_univ_castSucc]
    simp only [hν', hD']
    ring

/-- Exchange of the integrals: the integral of `g / ∏ D_i^ν_i` over any space is the integral over the Feynman parameters
of the integrals of `g * (∑ x_i D_i)^(-N)`. -/
theorem exchange {X : Type} [MeasurableSpace X] (μ : Measure X) [SFinite μ] (ν : Fin (n+1) → ℝ) (hν : ∀ i, 0 < ν i)
    (D : Fin (n+1) → X → ℝ) (hDm : ∀ i, Measurable (D i)) (hD : ∀ᵐ k ∂μ, ∀ i, 0 < D i k) (g : X → ℂ) (hgm : Measurable g)
    (hI : Integrable (fun k => g k * ((∏ i, D i k ^ (-ν i) : ℝ) : ℂ)) μ) :
    let f : (Fin (n+1) → ℝ) → ℂ := fun x => ((∏ i, x i ^ (ν i - 1) : ℝ) : ℂ) *
      ∫ k, g k * (((∑ i, x i * D i k) ^ (-∑ i, ν i) : ℝ) : ℂ) ∂μ
    Projective f ∧ DeltaIntegrable f ∧ ((∏ i, Real.Gamma (ν i) : ℝ) : ℂ) * ∫ k, g k * ((∏ i, D i k ^ (-ν i) : ℝ) : ℂ) ∂μ =
      (Real.Gamma (∑ i, ν i) : ℂ) * deltaIntegral f := by
  intro f
  set N := ∑ i, ν i with hN
  have hproj : Projective f := by
    intro c x hc hx
    simp only [f]
    have h1 : ∏ i, (c * x i) ^ (ν i - 1) = c ^ N * (c ^ (n + 1))⁻¹ * ∏ i, x i ^ (ν i - 1) := by
      have : ∏ i, (c * x i) ^ (ν i - 1) = (∏ i, c ^ (ν i - 1)) * ∏ i, x i ^ (ν i - 1) := by
        rw [← Finset.prod_mul_distrib]
        exact Finset.prod_congr rfl fun i _ => Real.mul_rpow hc.le (hx i).le
      rw [this, ← Real.rpow_sum_of_pos hc, Finset.sum_sub_distrib, Finset.sum_const, Finset.card_univ, Fintype.card_fin,
        nsmul_one, Real.rpow_sub hc, Real.rpow_natCast, div_eq_mul_inv]
    have h2 : (fun k => g k * (((∑ i, c * x i * D i k) ^ (-N) : ℝ) : ℂ)) =ᵐ[μ]
        fun k => ((c ^ (-N) : ℝ) : ℂ) * (g k * (((∑ i, x i * D i k) ^ (-N) : ℝ) : ℂ)) := by
      filter_upwards [hD] with k hk
      rw [show (∑ i, c * x i * D i k) = c * ∑ i, x i * D i k by
        rw [Finset.mul_sum]; exact Finset.sum_congr rfl fun i _ => by ring,
        Real.mul_rpow hc.le (sum_pos' hx hk).le]
      push_cast; ring
    rw [h1, integral_congr_ae h2, integral_const_mul]
    have h3 : ((c ^ N : ℝ) : ℂ) * ((c ^ (-N) : ℝ) : ℂ) = 1 := by
      rw [← Complex.ofReal_mul, ← Real.rpow_add hc, add_neg_cancel, Real.rpow_zero, Complex.ofReal_one]
    rw [Complex.real_smul]
    push_cast
    push_cast at h3
    linear_combination ((c : ℂ) ^ (n + 1))⁻¹ * (∏ i, ((x i ^ (ν i - 1) : ℝ) : ℂ)) *
      (∫ k, g k * (((∑ i, x i * D i k) ^ (-N) : ℝ) : ℂ) ∂μ) * h3
  obtain ⟨hd1, hd2⟩ := delta_eq_orthant hproj
  rw [hd1, hd2]
  set h : (Fin n → ℝ) → X → ℂ := fun w k => g k * ((kernel ν (fun i => D i k) (Fin.snoc w 1) : ℝ) : ℂ) with hh
  have hprod : Integrable (Function.uncurry h) ((volume.restrict (pos n)).prod μ) := by
    have hm : Measurable (Function.uncurry h) := by
      simp only [hh, Function.uncurry_def, kernel]
      have hs : ∀ i : Fin (n+1), Measurable fun a : (Fin n → ℝ) × X => (Fin.snoc a.1 1 : Fin (n+1) → ℝ) i := by
        intro i
        refine Fin.lastCases ?_ (fun j => ?_) i
        · simp
        · simp only [Fin.snoc_castSucc]
          exact (measurable_pi_apply j).comp measurable_fst
      refine Measurable.mul (hgm.comp measurable_snd) (Complex.measurable_ofReal.comp (Measurable.mul ?_ ?_))
      · exact Finset.measurable_prod _ fun i _ => (hs i).pow_const _
      · exact (Finset.measurable_sum _ fun i _ => (hs i).mul ((hDm i).comp measurable_snd)).pow_const _
    rw [integrable_prod_iff' hm.aestronglyMeasurable]
    constructor
    · filter_upwards [hD] with k hk
      simp only [Function.uncurry, hh]
      exact ((feynman ν (fun i => D i k) hν hk).1.ofReal (𝕜 := ℂ)).const_mul _
    · have hG := Real.Gamma_pos_of_pos (Finset.sum_pos (fun i _ => hν i) Finset.univ_nonempty : 0 < N)
      have he : (fun k => ∫ w in pos n, ‖Function.uncurry h (w, k)‖) =ᵐ[μ]
          fun k => (Real.Gamma N)⁻¹ * (∏ i, Real.Gamma (ν i)) * ‖g k * ((∏ i, D i k ^ (-ν i) : ℝ) : ℂ)‖ := by
        filter_upwards [hD] with k hk
        have h1 : ∀ w ∈ pos n, ‖Function.uncurry h (w, k)‖ = ‖g k‖ * kernel ν (fun i => D i k) (Fin.snoc w 1) := by
          intro w hw
          simp only [Function.uncurry, hh]
          rw [norm_mul, Complex.norm_real, Real.norm_of_nonneg (kernel_pos hk (snoc_pos hw)).le]
        have h2 := (feynman ν (fun i => D i k) hν hk).2
        rw [setIntegral_congr_fun measurableSet_pos h1, integral_const_mul, norm_mul, Complex.norm_real,
          Real.norm_of_nonneg (Finset.prod_nonneg fun i _ => Real.rpow_nonneg (hk i).le _)]
        rw [Finset.prod_mul_distrib] at h2
        rw [show (Real.Gamma N)⁻¹ * (∏ i, Real.Gamma (ν i)) * (‖g k‖ * ∏ i, D i k ^ (-ν i)) =
          ‖g k‖ * ((Real.Gamma N)⁻¹ * ((∏ i, Real.Gamma (ν i)) * ∏ i, D i k ^ (-ν i))) by ring, ← h2, ← hN, ← mul_assoc (Real.Gamma N)⁻¹,
          inv_mul_cancel₀ hG.ne', one_mul]
      exact (hI.norm.const_mul _).congr he.symm
  have hf : ∀ w, ∫ k, h w k ∂μ = f (Fin.snoc w 1) := by
    intro w
    simp only [hh, f, kernel]
    rw [← integral_const_mul]
    refine integral_congr_ae (Filter.Eventually.of_forall fun k => ?_)
    simp only
    push_cast; ring
  refine ⟨hproj, ?_, ?_⟩
  · have := hprod.integral_prod_left
    refine this.congr (Filter.Eventually.of_forall fun w => ?_)
    exact hf w
  · have h3 := integral_integral_swap hprod
    simp only [hf] at h3
    rw [h3, ← integral_const_mul, ← integral_const_mul]
    refine integral_congr_ae ?_
    filter_upwards [hD] with k hk
    have h2 := (feynman ν (fun i => D i k) hν hk).2
    have h2' := congrArg (fun r : ℝ => (r : ℂ)) h2
    rw [Finset.prod_mul_distrib, Complex.ofReal_mul, Complex.ofReal_mul, ← integral_complex_ofReal] at h2'
    simp only [hh]
    rw [integral_const_mul]
    linear_combination -(g k) * h2'
end
end Feynman
end SecDec
