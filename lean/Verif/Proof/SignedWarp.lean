import Verif.Proof.Warp
import Mathlib.MeasureTheory.Measure.HasOuterApproxClosed
import Mathlib.MeasureTheory.Integral.IntervalIntegral.IntegrationByParts
/-
A change of variables that need not be monotone: the weight is the derivative with its sign.
-/
namespace SecDec
namespace Transforms
open MeasureTheory Set Qmc BoundedContinuousFunction

/-- The function `f` with the signed weight `w` leaves the integral over the unit interval of every bounded measurable function alone. -/
structure SWarp (f w : ℝ → ℝ) : Prop where
  meas_f : Measurable f
  meas_w : Measurable w
  bound : ∃ C, ∀ x ∈ Icc (0:ℝ) 1, |w x| ≤ C
  int : ∀ h : ℝ → ℂ, Measurable h → (∃ C, ∀ y, ‖h y‖ ≤ C) → ∫ x in Icc (0:ℝ) 1, (w x : ℂ) * h (f x) = ∫ x in Icc (0:ℝ) 1, h x

theorem integral_wmeas {w : ℝ → ℝ} (hw : Measurable w) {E : Type*} [NormedAddCommGroup E] [NormedSpace ℝ E] (h : ℝ → E) :
    ∫ x, h x ∂(wmeas w) = ∫ x in Icc (0:ℝ) 1, (max (w x) 0) • h x := by
  have := integral_withDensity_eq_integral_smul (μ := volume.restrict (Icc (0:ℝ) 1)) (f := fun x => Real.toNNReal (w x))
    hw.real_toNNReal h
  rw [wmeas]
  rw [show (fun x => ENNReal.ofReal (w x)) = fun x => ((Real.toNNReal (w x) : NNReal) : ENNReal) from rfl, this]
  rfl

theorem finite_wmeas {w : ℝ → ℝ} {C : ℝ} (h : ∀ x ∈ Icc (0:ℝ) 1, |w x| ≤ C) : IsFiniteMeasure (wmeas w) := by
  refine ⟨?_⟩
  rw [wmeas, withDensity_apply _ MeasurableSet.univ, Measure.restrict_univ]
  calc ∫⁻ x in Icc (0:ℝ) 1, ENNReal.ofReal (w x) ≤ ∫⁻ _ in Icc (0:ℝ) 1, ENNReal.ofReal C :=
        setLIntegral_mono' measurableSet_Icc fun x hx => ENNReal.ofReal_le_ofReal ((le_abs_self _).trans (h x hx))
    _ < ⊤ := by simp

theorem integrable_wh {f w : ℝ → ℝ} (hf : Measurable f) (hw : Measurable w) {C : ℝ} (hC : ∀ x ∈ Icc (0:ℝ) 1, |w x| ≤ C)
    {h : ℝ → ℂ} (hm : Measurable h) {B : ℝ} (hB : ∀ y, ‖h y‖ ≤ B) (v : ℝ → ℝ) (hv : Measurable v) (hvw : ∀ x, |v x| ≤ |w x|) :
    IntegrableOn (fun x => (v x : ℂ) * h (f x)) (Icc (0:ℝ) 1) := by
  refine Measure.integrableOn_of_bounded (M := C * B) (by simp) ?_ ?_
  · exact ((Complex.measurable_ofReal.comp hv).mul (hm.comp hf)).aestronglyMeasurable
  · refine (ae_restrict_iff' measurableSet_Icc).2 (Filter.Eventually.of_forall fun x hx => ?_)
    rw [norm_mul, Complex.norm_real, Real.norm_eq_abs]
    exact mul_le_mul ((hvw x).trans (hC x hx)) (hB _) (norm_nonneg _) ((abs_nonneg _).trans (hC x hx))

theorem swarp_of_deriv {f w : ℝ → ℝ} (hf : Measurable f) (hw : Measurable w) (hd : ∀ x ∈ Icc (0:ℝ) 1, HasDerivAt f (w x) x)
    (hc : ContinuousOn w (Icc 0 1)) (h0 : f 0 = 0) (h1 : f 1 = 1) : SWarp f w := by
  obtain ⟨C, hC⟩ := isCompact_Icc.exists_bound_of_continuousOn hc
  simp only [Real.norm_eq_abs] at hC
  refine ⟨hf, hw, ⟨C, hC⟩, ?_⟩
  have hCn : ∀ x ∈ Icc (0:ℝ) 1, |-w x| ≤ C := fun x hx => by rw [abs_neg]; exact hC x hx
  have i1 : IsFiniteMeasure (wmeas w) := finite_wmeas hC
  have i2 : IsFiniteMeasure (wmeas fun x => -w x) := finite_wmeas hCn
  have i3 : IsFiniteMeasure ((wmeas w).map f) := by infer_instance
  have i4 : IsFiniteMeasure ((wmeas fun x => -w x).map f) := by infer_instance
  have hsplit : ∀ x, max (w x) 0 - max (-w x) 0 = w x := fun x => by
    rcases le_total 0 (w x) with h | h
    · rw [max_eq_left h, max_eq_right (by linarith)]; ring
    · rw [max_eq_right h, max_eq_left (by linarith)]; ring
  have hle : ∀ x, |max (w x) 0| ≤ |w x| := fun x => by
    rw [abs_of_nonneg (le_max_right _ _)]; exact max_le (le_abs_self _) (abs_nonneg _)
  have hle' : ∀ x, |max (-w x) 0| ≤ |w x| := fun x => by
    rw [abs_of_nonneg (le_max_right _ _)]; exact max_le (neg_le_abs _) (abs_nonneg _)
  have key : (wmeas w).map f = (wmeas fun x => -w x).map f + volume.restrict (Icc (0:ℝ) 1) := by
    refine ext_of_forall_integral_eq_of_IsFiniteMeasure fun g => ?_
    rw [integral_add_measure (g.integrable _) (g.integrable _), integral_map hf.aemeasurable g.continuous.measurable.aestronglyMeasurable,
      integral_map hf.aemeasurable g.continuous.measurable.aestronglyMeasurable, integral_wmeas hw, integral_wmeas (w := fun x => -w x) hw.neg]
    have hI : ∀ v : ℝ → ℝ, Measurable v → (∀ x, |v x| ≤ |w x|) → IntegrableOn (fun x => v x • g (f x)) (Icc (0:ℝ) 1) := by
      intro v hv hvw
      refine Measure.integrableOn_of_bounded (M := C * ‖g‖) (by simp) ?_ ?_
      · exact (hv.mul (g.continuous.measurable.comp hf)).aestronglyMeasurable
      · refine (ae_restrict_iff' measurableSet_Icc).2 (Filter.Eventually.of_forall fun x hx => ?_)
        rw [norm_smul, Real.norm_eq_abs]
        exact mul_le_mul ((hvw x).trans (hC x hx)) (g.norm_coe_le_norm _) (norm_nonneg _) ((abs_nonneg _).trans (hC x hx))
    have e : ∫ x in Icc (0:ℝ) 1, ((max (w x) 0) • g (f x) - (max (-w x) 0) • g (f x)) = (∫ x in Icc (0:ℝ) 1, (max (w x) 0) • g (f x)) -
      ∫ x in Icc (0:ℝ) 1, (max (-w x) 0) • g (f x) := integral_sub (hI _ (hw.max measurable_const) hle) (hI _ (hw.neg.max measurable_const) hle')
    have ftc : ∫ x in Icc (0:ℝ) 1, w x • g (f x) = ∫ x in Icc (0:ℝ) 1, g x := by
      rw [integral_Icc_eq_integral_Ioc, integral_Icc_eq_integral_Ioc, ← intervalIntegral.integral_of_le zero_le_one,
        ← intervalIntegral.integral_of_le zero_le_one]
      have := intervalIntegral.integral_comp_smul_deriv'' (a := 0) (b := 1) (f := f) (f' := w) (g := g)
        (by rw [uIcc_of_le zero_le_one]; exact fun x hx => (hd x hx).continuousAt.continuousWithinAt)
        (fun x hx => by
          rw [min_eq_left zero_le_one, max_eq_right zero_le_one] at hx
          exact (hd x (Ioo_subset_Icc_self hx)).hasDerivWithinAt)
        (by rw [uIcc_of_le zero_le_one]; exact hc) g.continuous.continuousOn
      rw [h0, h1] at this
      exact this
    rw [← ftc]
    have e2 : ∀ x, (max (w x) 0) • g (f x) - (max (-w x) 0) • g (f x) = w x • g (f x) := fun x => by rw [← sub_smul, hsplit]
    simp only [e2] at e
    rw [e]; ring
  intro h hm ⟨B, hB⟩
  have hae : ∀ μ : Measure ℝ, AEStronglyMeasurable h μ := fun μ => hm.aestronglyMeasurable
  have hfin : ∀ μ : Measure ℝ, IsFiniteMeasure μ → Integrable h μ := fun μ _ =>
    Integrable.of_bound (hae μ) B (Filter.Eventually.of_forall hB)
  have k := congrArg (fun μ => ∫ x, h x ∂μ) key
  beta_reduce at k
  rw [integral_add_measure (hfin _ i4) (hfin _ inferInstance), integral_map hf.aemeasurable (hae _), integral_map hf.aemeasurable (hae _),
    integral_wmeas hw, integral_wmeas (w := fun x => -w x) hw.neg] at k
  simp only [Complex.real_smul] at k
  have e : ∫ x in Icc (0:ℝ) 1, (((max (w x) 0 : ℝ) : ℂ) * h (f x) - ((max (-w x) 0 : ℝ) : ℂ) * h (f x)) =
    (∫ x in Icc (0:ℝ) 1, ((max (w x) 0 : ℝ) : ℂ) * h (f x)) - ∫ x in Icc (0:ℝ) 1, ((max (-w x) 0 : ℝ) : ℂ) * h (f x) :=
    integral_sub (integrable_wh hf hw hC hm hB _ (hw.max measurable_const) hle)
    (integrable_wh hf hw hC hm hB _ (hw.neg.max measurable_const) hle')
  have e2 : ∀ x, ((max (w x) 0 : ℝ) : ℂ) * h (f x) - ((max (-w x) 0 : ℝ) : ℂ) * h (f x) = (w x : ℂ) * h (f x) := fun x => by
    rw [← sub_mul, ← Complex.ofReal_sub, hsplit]
  simp only [e2] at e
  rw [e, k]; ring

/-- Every variable may be transformed: the integral over the cube of a bounded measurable function stays the same. -/
theorem swarp_integral : ∀ {d : ℕ} {f w : Fin d → ℝ → ℝ} (_ : ∀ j, SWarp (f j) (w j)) (g : (Fin d → ℝ) → ℂ) (_ : Measurable g)
    (_ : ∃ C, ∀ y, ‖g y‖ ≤ C),
    ∫ x in unitCube d, ((∏ j, w j (x j) : ℝ) : ℂ) * g (fun j => f j (x j)) = ∫ x in unitCube d, g x := by
  intro d
  induction d with
  | zero =>
    intro f w _ g _ _
    congr 1; funext x
    simp only [Finset.univ_eq_empty, Finset.prod_empty, Complex.ofReal_one, one_mul]
    congr 1
    exact Subsingleton.elim _ _
  | succ d ih =>
    intro f w hW g hg ⟨B, hB⟩
    have hone : ((volume : Measure (Fin d → ℝ)).restrict (unitCube d)).real univ = 1 := by
      rw [cube_pi]; simp [measureReal_def, Measure.pi_univ]
    have hfin : IsFiniteMeasure ((volume : Measure (Fin d → ℝ)).restrict (unitCube d)) := by
      rw [cube_pi]; infer_instance
    have split : ∀ G : (Fin (d + 1) → ℝ) → ℂ, Measurable G → (∃ C, ∀ y ∈ unitCube (d + 1), ‖G y‖ ≤ C) →
        ∫ x in unitCube (d + 1), G x = ∫ a in Icc (0:ℝ) 1, ∫ x in unitCube d, G (Fin.cons a x) := by
      intro G hG ⟨C, hC⟩
      rw [cube_pi, ← ((measurePreserving_piFinSuccAbove (fun _ : Fin (d + 1) => volume.restrict (Icc (0:ℝ) 1)) 0).symm).integral_comp']
      simp_rw [MeasurableEquiv.piFinSuccAbove_symm_apply, Fin.insertNthEquiv, Fin.insertNth_zero, Equiv.coe_fn_mk]
      rw [← cube_pi]
      rw [integral_prod]
      · rfl
      · refine Integrable.of_bound (C := C) ?_ ?_
        · have hmc : Measurable fun z : ℝ × (Fin d → ℝ) => (Fin.cons z.1 z.2 : Fin (d + 1) → ℝ) := by
            refine measurable_pi_lambda _ fun j => ?_
            refine Fin.cases ?_ ?_ j
            · exact measurable_fst
            · intro i; exact (measurable_pi_apply i).comp measurable_snd
          exact (hG.comp hmc).aestronglyMeasurable
        · rw [Measure.prod_restrict]
          refine (ae_restrict_iff' (measurableSet_Icc.prod (MeasurableSet.univ_pi fun _ => measurableSet_Icc))).2
            (Filter.Eventually.of_forall fun x hx => ?_)
          apply hC
          intro j _
          refine Fin.cases ?_ ?_ j
          · exact hx.1
          · intro i; exact hx.2 i trivial
    have hmf : Measurable fun (x : Fin (d + 1) → ℝ) j => f j (x j) :=
      measurable_pi_lambda _ fun j => (hW j).meas_f.comp (measurable_pi_apply j)
    have hmw : Measurable fun x : Fin (d + 1) → ℝ => ∏ j, w j (x j) :=
      Finset.measurable_prod _ fun j _ => (hW j).meas_w.comp (measurable_pi_apply j)
    choose K hK using fun j => (hW j).bound
    rw [split (fun x => ((∏ j, w j (x j) : ℝ) : ℂ) * g (fun j => f j (x j))) ((Complex.measurable_ofReal.comp hmw).mul (hg.comp hmf))
      ⟨(∏ j, K j) * B, fun y hy => ?_⟩, split g hg ⟨B, fun y _ => hB y⟩]
    · have hcons : ∀ (a : ℝ) (x : Fin d → ℝ), (fun j => f j ((Fin.cons a x : Fin (d + 1) → ℝ) j)) =
          (Fin.cons (f 0 a) fun j : Fin d => f j.succ (x j) : Fin (d + 1) → ℝ) := by
        intro a x; funext j
        refine Fin.cases ?_ ?_ j
        · rfl
        · intro i; rfl
      have hmc : Measurable fun z : ℝ × (Fin d → ℝ) => (Fin.cons z.1 z.2 : Fin (d + 1) → ℝ) := by
        refine measurable_pi_lambda _ fun j => ?_
        refine Fin.cases ?_ ?_ j
        · exact measurable_fst
        · intro i; exact (measurable_pi_apply i).comp measurable_snd
      have hinner : ∀ a : ℝ, ∫ x in unitCube d, ((∏ j, w j ((Fin.cons a x : Fin (d + 1) → ℝ) j) : ℝ) : ℂ) *
          g (fun j => f j ((Fin.cons a x : Fin (d + 1) → ℝ) j)) = (w 0 a : ℂ) * ∫ x in unitCube d, g (Fin.cons (f 0 a) x) := by
        intro a
        rw [← ih (fun j => hW j.succ) (fun x => g (Fin.cons (f 0 a) x)) (hg.comp (hmc.comp (measurable_const.prodMk measurable_id)))
          ⟨B, fun y => hB _⟩, ← integral_const_mul]
        congr 1; funext x
        rw [hcons, Fin.prod_univ_succ]
        simp only [Fin.cons_zero, Fin.cons_succ]
        push_cast; ring
      simp only [hinner]
      refine (hW 0).int (fun b => ∫ x in unitCube d, g (Fin.cons b x)) ?_ ⟨B, fun y => ?_⟩
      · have : StronglyMeasurable fun z : ℝ × (Fin d → ℝ) => g (Fin.cons z.1 z.2) := (hg.comp hmc).stronglyMeasurable
        exact (this.integral_prod_right (ν := volume.restrict (unitCube d))).measurable
      · refine (norm_integral_le_of_norm_le_const (Filter.Eventually.of_forall fun x => hB _)).trans ?_
        rw [hone, mul_one]
    · rw [norm_mul, Complex.norm_real, Real.norm_eq_abs, Finset.abs_prod]
      refine mul_le_mul (Finset.prod_le_prod (fun j _ => abs_nonneg _) fun j _ => hK j _ (hy j trivial)) (hB _) (norm_nonneg _) ?_
      exact Finset.prod_nonneg fun j _ => (abs_nonneg _).trans (hK j _ (hy j trivial))

end Transforms
end SecDec
