import Mathlib.MeasureTheory.Integral.Pi
import Mathlib.MeasureTheory.Integral.Prod
import Mathlib.Analysis.SpecialFunctions.Integrals.Basic
import Mathlib.MeasureTheory.Constructions.Pi
import Mathlib.MeasureTheory.Function.SpecialFunctions.Basic
import Verif.Proof.SubForm
set_option linter.unusedSectionVars false
namespace SecDec.Subtraction
open Set Decomp MeasureTheory

variable {N : Nat}

theorem restrict_oc : (volume : Measure (Fin N → ℝ)).restrict (oc N)
    = Measure.pi (fun _ : Fin N => (volume : Measure ℝ).restrict (Ioo 0 1)) := by
  rw [oc, volume_pi, Measure.restrict_pi_pi]

theorem integrable_rpow_Ioo {r : ℝ} (hr : -1 < r) :
    Integrable (fun x : ℝ => x ^ r) ((volume : Measure ℝ).restrict (Ioo 0 1)) := by
  have h := (intervalIntegral.intervalIntegrable_rpow' (a := 0) (b := 1) hr).1
  exact h.mono_set Ioo_subset_Ioc_self

theorem integrable_prod_rpow (r : Fin N → ℝ) (hr : ∀ i, -1 < r i) :
    IntegrableOn (fun t : Fin N → ℝ => ∏ i, t i ^ r i) (oc N) := by
  rw [IntegrableOn, restrict_oc]
  exact Integrable.fintype_prod (f := fun i (x : ℝ) => x ^ r i) (fun i => integrable_rpow_Ioo (hr i))

/-- A product of powers times a bounded function. -/
theorem integrableOn_powers (B : Fin N → ℂ) (m : Fin N → ℕ) (hB : ∀ i, -1 < (B i).re + m i)
    (g : (Fin N → ℝ) → ℂ) (hg : ContinuousOn g (Icc 0 1)) (C : ℝ)
    (hC : ∀ t ∈ Icc (0 : Fin N → ℝ) 1, ‖g t‖ ≤ C * ∏ i, t i ^ m i) :
    IntegrableOn (fun t => (∏ i, (t i : ℂ) ^ (B i)) * g t) (oc N) := by
  have hsub : oc N ⊆ Icc (0 : Fin N → ℝ) 1 := by
    intro t ht
    rw [mem_oc] at ht
    exact ⟨fun i => (ht i).1.le, fun i => (ht i).2.le⟩
  have hbound : IntegrableOn (fun t : Fin N → ℝ => C * ∏ i, t i ^ ((B i).re + m i)) (oc N) :=
    (integrable_prod_rpow _ hB).const_mul C
  refine Integrable.mono' hbound ?_ ?_
  · refine AEStronglyMeasurable.mul ?_ ((hg.mono hsub).aestronglyMeasurable measurableSet_oc)
    refine Measurable.aestronglyMeasurable ?_
    refine Finset.measurable_fun_prod _ fun i _ => ?_
    exact (Complex.measurable_ofReal.comp (measurable_pi_apply i)).pow_const (B i)
  · refine (ae_restrict_iff' measurableSet_oc).2 (Filter.Eventually.of_forall fun t ht => ?_)
    have hpos : ∀ i, 0 < t i := fun i => (mem_oc.1 ht i).1
    have h1 : ∀ i, ‖(t i : ℂ) ^ (B i)‖ = t i ^ (B i).re := fun i => Complex.norm_cpow_eq_rpow_re_of_pos (hpos i) _
    rw [norm_mul, norm_prod]
    simp only [h1]
    calc (∏ i, t i ^ (B i).re) * ‖g t‖
        ≤ (∏ i, t i ^ (B i).re) * (C * ∏ i, t i ^ m i) :=
          mul_le_mul_of_nonneg_left (hC t (hsub ht)) (Finset.prod_nonneg fun i _ => (Real.rpow_pos_of_pos (hpos i) _).le)
      _ = C * ∏ i, t i ^ ((B i).re + m i) := by
          rw [mul_left_comm, ← Finset.prod_mul_distrib]
          congr 1
          refine Finset.prod_congr rfl fun i _ => ?_
          rw [Real.rpow_add (hpos i), Real.rpow_natCast]

theorem integral_cpow_Ioo {b : ℂ} (hb : -1 < b.re) : ∫ x in Ioo (0:ℝ) 1, (x : ℂ) ^ b = 1 / (b + 1) := by
  have h := integral_cpow (a := 0) (b := 1) (r := b) (Or.inl hb)
  rw [intervalIntegral.integral_of_le zero_le_one, integral_Ioc_eq_integral_Ioo] at h
  rw [h]
  have h1 : b + 1 ≠ 0 := by
    intro h0
    have := congrArg Complex.re h0
    simp at this; linarith
  simp [Complex.zero_cpow h1]

/-- Split off one coordinate of the open cube. -/
theorem oc_fubini {M : ℕ} (j : Fin (M+1)) (f : (Fin (M+1) → ℝ) → ℂ) :
    ∫ t in oc (M+1), f t = ∫ z in (Ioo (0:ℝ) 1) ×ˢ (oc M), f (j.insertNth z.1 z.2) := by
  set e : ℝ × (Fin M → ℝ) ≃ᵐ (Fin (M+1) → ℝ) := (MeasurableEquiv.piFinSuccAbove (fun _ => ℝ) j).symm
  have hem : MeasurePreserving e :=
    (volume_preserving_piFinSuccAbove (fun _ : Fin (M + 1) => ℝ) j).symm _
  have hpre : e ⁻¹' (oc (M+1)) = (Ioo (0:ℝ) 1) ×ˢ (oc M) := by
    ext z
    simp only [mem_preimage, mem_oc, mem_prod, mem_Ioo]
    have he : e z = j.insertNth z.1 z.2 := rfl
    rw [he]
    constructor
    · intro h
      refine ⟨by simpa using h j, fun i => by simpa using h (j.succAbove i)⟩
    · rintro ⟨h1, h2⟩ i
      refine Fin.succAboveCases j ?_ (fun i => ?_) i
      · simpa using h1
      · simpa using h2 i
  rw [← hpre]
  exact (hem.setIntegral_preimage_emb e.measurableEmbedding f (oc (M+1))).symm

/-- Integrating out a power of a parameter on which nothing else depends. -/
theorem integral_power_out (j : Fin N) {b : ℂ} (hb : -1 < b.re) (h : (Fin N → ℝ) → ℂ)
    (hind : ∀ t ∈ oc N, ∀ s ∈ Ioo (0:ℝ) 1, h (Function.update t j s) = h t) :
    ∫ t in oc N, (t j : ℂ) ^ b * h t = 1 / (b + 1) * ∫ t in oc N, h t := by
  cases N with
  | zero => exact j.elim0
  | succ M =>
  have hh : ∀ z ∈ (Ioo (0:ℝ) 1) ×ˢ (oc M), h (j.insertNth z.1 z.2) = h (j.insertNth (1/2) z.2) := by
    intro z hz
    have := hind (j.insertNth z.1 z.2) ?_ (1/2) (by constructor <;> norm_num)
    · rw [← this]; simp
    · rw [mem_oc]
      intro i
      refine Fin.succAboveCases j ?_ (fun i => ?_) i
      · simpa using hz.1
      · simpa using (mem_oc.1 hz.2) i
  have hms : MeasurableSet ((Ioo (0:ℝ) 1) ×ˢ (oc M)) := measurableSet_Ioo.prod measurableSet_oc
  have L : ∫ t in oc (M+1), (t j : ℂ) ^ b * h t
      = (∫ x in Ioo (0:ℝ) 1, (x : ℂ) ^ b) * ∫ y in oc M, h (j.insertNth (1/2) y) := by
    rw [oc_fubini j, Measure.volume_eq_prod, ← setIntegral_prod_mul]
    refine setIntegral_congr_fun hms fun z hz => ?_
    simp only [Fin.insertNth_apply_same]
    rw [hh z hz]
  have R : ∫ t in oc (M+1), h t = (∫ _ in Ioo (0:ℝ) 1, (1:ℂ)) * ∫ y in oc M, h (j.insertNth (1/2) y) := by
    rw [oc_fubini j, Measure.volume_eq_prod, ← setIntegral_prod_mul]
    refine setIntegral_congr_fun hms fun z hz => ?_
    simp only [one_mul]
    rw [hh z hz]
  rw [L, R, integral_cpow_Ioo hb]
  simp

end SecDec.Subtraction
