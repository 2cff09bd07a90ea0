import Mathlib.Analysis.Calculus.Deriv.Mul
import Mathlib.Analysis.Calculus.Deriv.Add
import Mathlib.Analysis.Calculus.Deriv.MeanValue
import Mathlib.MeasureTheory.Function.JacobianOneDim
import Mathlib.MeasureTheory.Integral.Pi
import Verif.Spec.Qmc
/-
The integral transforms of the integration kernels preserve integrals over the unit cube.
-/
namespace SecDec
namespace Qmc
open MeasureTheory Set

/-- The Korobov transforms. -/
def Transform.isKorobov : Transform → Prop
  | .none => False
  | .baker => False
  | _ => True

theorem hpoly_symm (T : Transform) (hT : T.isKorobov) (x : ℝ) : hpoly T (1 - x) = 1 - hpoly T x := by
  cases T <;> first | exact hT.elim | (simp only [hpoly, sqr]; ring)

theorem f_eq_hpoly (T : Transform) (hT : T.isKorobov) (x : ℝ) : T.f x = hpoly T x := by
  have key : (if x ≤ 1/2 then hpoly T (if x ≤ 1/2 then x else 1 - x)
      else 1 - hpoly T (if x ≤ 1/2 then x else 1 - x)) = hpoly T x := by
    by_cases h : x ≤ 1/2
    · rw [if_pos h, if_pos h]
    · rw [if_neg h, if_neg h, hpoly_symm T hT]; ring
  cases T <;> first | exact hT.elim | exact key

theorem hpoly_hasDerivAt (T : Transform) (hT : T.isKorobov) (x : ℝ) : HasDerivAt (hpoly T) (T.w x) x := by
  cases T <;> first
    | exact hT.elim
    | (apply HasDerivAt.congr_deriv
       · show HasDerivAt (fun y => hpoly _ y) _ x
         simp only [hpoly, sqr]
         repeat' first
           | exact hasDerivAt_id' x
           | exact hasDerivAt_const x _
           | apply HasDerivAt.fun_mul
           | apply HasDerivAt.fun_sub
           | apply HasDerivAt.fun_add
           | apply HasDerivAt.fun_neg
       · simp only [Transform.w, sqr]; ring)

theorem w_nonneg (T : Transform) (x : ℝ) (h0 : 0 ≤ x) (h1 : x ≤ 1) : 0 ≤ T.w x := by
  have hu : 0 ≤ (1 - x) * x := mul_nonneg (by linarith) h0
  cases T <;> simp only [Transform.w, sqr] <;> positivity

theorem w_pos (T : Transform) (x : ℝ) (h0 : 0 < x) (h1 : x < 1) : 0 < T.w x := by
  have hu : 0 < (1 - x) * x := mul_pos (by linarith) h0
  cases T <;> simp only [Transform.w, sqr] <;> positivity

theorem w_continuous (T : Transform) : Continuous T.w := by
  cases T <;> (unfold Transform.w sqr; fun_prop)

theorem f_continuous (T : Transform) : Continuous T.f := by
  by_cases hT : T.isKorobov
  · have : T.f = hpoly T := funext (f_eq_hpoly T hT)
    rw [this, continuous_iff_continuousAt]
    exact fun x => (hpoly_hasDerivAt T hT x).continuousAt
  · cases T
    · exact continuous_id
    · have : Transform.baker.f = fun x => min (2*x) (2 - 2*x) := by
        funext x
        show (if 2*x < 2 - 2*x then 2*x else 2 - 2*x) = _
        split
        · next h => rw [min_eq_left h.le]
        · next h => rw [min_eq_right (not_lt.1 h)]
      rw [this]; fun_prop
    all_goals exact absurd trivial hT

theorem hpoly_zero (T : Transform) : hpoly T 0 = 0 := by
  cases T <;> simp [hpoly, sqr]

theorem hpoly_one (T : Transform) : hpoly T 1 = 1 := by
  cases T <;> norm_num [hpoly, sqr]

theorem hpoly_strictMono (T : Transform) (hT : T.isKorobov) : StrictMonoOn (hpoly T) (Icc 0 1) := by
  apply strictMonoOn_of_deriv_pos (convex_Icc 0 1)
  · exact fun x _ => (hpoly_hasDerivAt T hT x).continuousAt.continuousWithinAt
  · intro x hx
    rw [interior_Icc] at hx
    rw [(hpoly_hasDerivAt T hT x).deriv]
    exact w_pos T x hx.1 hx.2

theorem hpoly_image (T : Transform) (hT : T.isKorobov) : hpoly T '' Icc 0 1 = Icc 0 1 := by
  have hm := (hpoly_strictMono T hT).monotoneOn
  apply Subset.antisymm
  · rintro _ ⟨x, hx, rfl⟩
    refine ⟨?_, ?_⟩
    · rw [← hpoly_zero T]; exact hm (left_mem_Icc.2 zero_le_one) hx hx.1
    · rw [← hpoly_one T]; exact hm hx (right_mem_Icc.2 zero_le_one) hx.2
  · have hc : ContinuousOn (hpoly T) (Icc 0 1) :=
      fun x _ => (hpoly_hasDerivAt T hT x).continuousAt.continuousWithinAt
    have := intermediate_value_Icc (zero_le_one (α := ℝ)) hc
    rwa [hpoly_zero, hpoly_one] at this

/-- The unit interval with the weights of the transform. -/
noncomputable def weighted (T : Transform) : Measure ℝ :=
  (volume.restrict (Icc (0:ℝ) 1)).withDensity fun x => ENNReal.ofReal (T.w x)

theorem lintegral_baker (g : ℝ → ENNReal) (hg : Measurable g) :
    ∫⁻ x in Icc (0:ℝ) 1, g (Transform.baker.f x) = ∫⁻ x in Icc (0:ℝ) 1, g x := by
  have hsplit : Icc (0:ℝ) 1 = Ico 0 (1/2) ∪ Icc (1/2) 1 := by
    rw [Ico_union_Icc_eq_Icc] <;> norm_num
  have hd : Disjoint (Ico (0:ℝ) (1/2)) (Icc (1/2) 1) := by
    rw [Set.disjoint_left]; intro x hx hy; exact absurd hx.2 (not_lt.2 hy.1)
  have e1 : ∫⁻ x in Ico (0:ℝ) (1/2), g (Transform.baker.f x) = ENNReal.ofReal (1/2) * ∫⁻ x in Icc (0:ℝ) 1, g x := by
    have himg : (fun x : ℝ => 2*x) '' Ico 0 (1/2) = Ico 0 1 := by
      rw [image_mul_left_Ico (by norm_num)]; norm_num
    have h := lintegral_image_eq_lintegral_abs_deriv_mul (s := Ico (0:ℝ) (1/2)) (f := fun x => 2*x) (f' := fun _ => 2)
      measurableSet_Ico (fun x _ => by
        simpa using ((hasDerivAt_id' x).const_mul (2:ℝ)).hasDerivWithinAt) (fun a _ b _ h => by simpa using h) g
    rw [himg] at h
    have h' : ∫⁻ x in Ico (0:ℝ) (1/2), g (Transform.baker.f x) = ∫⁻ x in Ico (0:ℝ) (1/2), g (2*x) := by
      apply setLIntegral_congr_fun measurableSet_Ico
      intro x hx
      show g (if 2*x < 2 - 2*x then 2*x else 2 - 2*x) = g (2*x)
      rw [if_pos (by have := hx.2; linarith)]
    rw [h', setLIntegral_congr (Ico_ae_eq_Icc (a := (0:ℝ)) (b := 1)).symm, h, lintegral_const_mul _ (by fun_prop), ← mul_assoc,
      ← ENNReal.ofReal_mul (by norm_num)]
    norm_num
  have e2 : ∫⁻ x in Icc (1/2:ℝ) 1, g (Transform.baker.f x) = ENNReal.ofReal (1/2) * ∫⁻ x in Icc (0:ℝ) 1, g x := by
    have himg : (fun x : ℝ => 2 - 2*x) '' Icc (1/2) 1 = Icc 0 1 := by
      have : (fun x : ℝ => 2 - 2*x) = (fun y => 2 - y) ∘ (fun x => 2*x) := rfl
      rw [this, image_comp, image_mul_left_Icc (by norm_num) (by norm_num), image_const_sub_Icc]; norm_num
    have h := lintegral_image_eq_lintegral_abs_deriv_mul (s := Icc (1/2:ℝ) 1) (f := fun x => 2 - 2*x) (f' := fun _ => -2)
      measurableSet_Icc (fun x _ => by
        simpa using (((hasDerivAt_id' x).const_mul (2:ℝ)).const_sub 2).hasDerivWithinAt) (fun a _ b _ h => by simpa using h) g
    rw [himg] at h
    have h' : ∫⁻ x in Icc (1/2:ℝ) 1, g (Transform.baker.f x) = ∫⁻ x in Icc (1/2:ℝ) 1, g (2 - 2*x) := by
      apply setLIntegral_congr_fun measurableSet_Icc
      intro x hx
      show g (if 2*x < 2 - 2*x then 2*x else 2 - 2*x) = g (2 - 2*x)
      rw [if_neg (by have := hx.1; linarith)]
    rw [h', h, lintegral_const_mul _ (by fun_prop), ← mul_assoc, ← ENNReal.ofReal_mul (by norm_num)]
    norm_num
  rw [hsplit, lintegral_union measurableSet_Icc hd, ← hsplit, e1, e2, ← add_mul, ← ENNReal.ofReal_add (by norm_num) (by norm_num)]
  norm_num

theorem lintegral_transform (T : Transform) (g : ℝ → ENNReal) (hg : Measurable g) :
    ∫⁻ x in Icc (0:ℝ) 1, ENNReal.ofReal (T.w x) * g (T.f x) = ∫⁻ x in Icc (0:ℝ) 1, g x := by
  by_cases hT : T.isKorobov
  · have h := lintegral_image_eq_lintegral_abs_deriv_mul (s := Icc (0:ℝ) 1) (f := hpoly T) (f' := T.w) measurableSet_Icc
      (fun x _ => (hpoly_hasDerivAt T hT x).hasDerivWithinAt) (hpoly_strictMono T hT).injOn g
    rw [hpoly_image T hT] at h
    rw [h]
    apply setLIntegral_congr_fun measurableSet_Icc
    intro x hx
    simp only [f_eq_hpoly T hT, abs_of_nonneg (w_nonneg T x hx.1 hx.2)]
  · cases T
    · simp [Transform.w, Transform.f]
    · simpa [Transform.w] using lintegral_baker g hg
    all_goals exact absurd trivial hT

theorem map_weighted (T : Transform) : (weighted T).map T.f = volume.restrict (Icc (0:ℝ) 1) := by
  ext s hs
  have hm : Measurable fun x => ENNReal.ofReal (T.w x) := (w_continuous T).measurable.ennreal_ofReal
  rw [Measure.map_apply (f_continuous T).measurable hs, weighted,
    withDensity_apply _ ((f_continuous T).measurable hs), Measure.restrict_apply hs]
  have := lintegral_transform T (s.indicator 1) (measurable_one.indicator hs)
  rw [lintegral_indicator_one hs, Measure.restrict_apply hs] at this
  rw [← this, ← lintegral_indicator ((f_continuous T).measurable hs)]
  congr 1; funext x
  by_cases hx : T.f x ∈ s
  · rw [indicator_of_mem (by exact hx), indicator_of_mem hx]; simp
  · rw [indicator_of_notMem (by exact hx), indicator_of_notMem hx]; simp

instance weighted_prob (T : Transform) : IsProbabilityMeasure (weighted T) := by
  constructor
  have h := congrArg (fun m => m univ) (map_weighted T)
  simp only [Measure.map_apply (f_continuous T).measurable MeasurableSet.univ, preimage_univ] at h
  rw [h]; simp

instance weighted_sigma (T : Transform) : SigmaFinite (weighted T) := inferInstance

/-- The unit cube, as a product measure. -/
theorem cube_pi (d : ℕ) : (volume : Measure (Fin d → ℝ)).restrict (unitCube d)
    = Measure.pi fun _ : Fin d => volume.restrict (Icc (0:ℝ) 1) := by
  rw [volume_pi, unitCube, Measure.restrict_pi_pi]

theorem lintegral_prod_cube {d : ℕ} (μ : Fin d → Measure ℝ) [∀ i, SigmaFinite (μ i)] (g : Fin d → ℝ → ENNReal)
    (hg : ∀ i, Measurable (g i)) : ∫⁻ x, ∏ i, g i (x i) ∂Measure.pi μ = ∏ i, ∫⁻ x, g i x ∂μ i := by
  induction d with
  | zero => simp
  | succ d ih =>
    have e := (measurePreserving_piFinSuccAbove (fun i => μ i) 0).symm
    rw [← e.map_eq, lintegral_map_equiv]
    simp only [MeasurableEquiv.piFinSuccAbove_symm_apply, Fin.prod_univ_succ, Fin.insertNthEquiv_apply, Fin.zero_succAbove]
    simp only [Fin.insertNth_zero', Fin.cons_zero, Fin.cons_succ]
    rw [lintegral_prod_mul (f := fun a => g 0 a) (g := fun y : Fin d → ℝ => ∏ i : Fin d, g i.succ (y i)) (hg 0).aemeasurable
      (Finset.measurable_prod _ fun i _ => (hg i.succ).comp (measurable_pi_apply i)).aemeasurable]
    rw [ih (fun i => μ i.succ) (fun i => g i.succ) fun i => hg _]

theorem pi_weighted (T : Transform) (d : ℕ) : Measure.pi (fun _ : Fin d => weighted T)
    = ((volume : Measure (Fin d → ℝ)).restrict (unitCube d)).withDensity fun x => ENNReal.ofReal (∏ j, T.w (x j)) := by
  rw [cube_pi]
  refine Measure.pi_eq fun s hs => ?_
  have hm : Measurable fun x => ENNReal.ofReal (T.w x) := (w_continuous T).measurable.ennreal_ofReal
  rw [withDensity_apply _ (MeasurableSet.univ_pi hs), Measure.restrict_pi_pi]
  have hae : ∀ᵐ x ∂(Measure.pi fun i : Fin d => (volume.restrict (Icc (0:ℝ) 1)).restrict (s i)),
      ENNReal.ofReal (∏ j, T.w (x j)) = ∏ j, ENNReal.ofReal (T.w (x j)) := by
    have hq : ∀ᵐ x ∂(Measure.pi fun i : Fin d => (volume.restrict (Icc (0:ℝ) 1)).restrict (s i)),
        ∀ i, x i ∈ Icc (0:ℝ) 1 := by
      rw [ae_all_iff]
      intro i
      have : ∀ᵐ y ∂((volume.restrict (Icc (0:ℝ) 1)).restrict (s i)), y ∈ Icc (0:ℝ) 1 :=
        ae_restrict_of_ae (ae_restrict_mem measurableSet_Icc)
      exact (Measure.quasiMeasurePreserving_eval (μ := fun i : Fin d => (volume.restrict (Icc (0:ℝ) 1)).restrict (s i)) i).ae this
    filter_upwards [hq] with x hx
    rw [ENNReal.ofReal_prod_of_nonneg fun i _ => w_nonneg T _ (hx i).1 (hx i).2]
  rw [lintegral_congr_ae hae, lintegral_prod_cube _ _ fun _ => hm]
  refine Finset.prod_congr rfl fun i _ => ?_
  rw [weighted, withDensity_apply _ (hs i)]

theorem map_pi_weighted (T : Transform) (d : ℕ) :
    (Measure.pi fun _ : Fin d => weighted T).map (fun x j => T.f (x j)) = (volume : Measure (Fin d → ℝ)).restrict (unitCube d) := by
  have : ∀ _ : Fin d, SigmaFinite ((weighted T).map T.f) := fun _ => by rw [map_weighted]; infer_instance
  rw [Measure.pi_map_pi (fun _ => (f_continuous T).measurable.aemeasurable), cube_pi]
  simp only [map_weighted]

theorem measurable_fpi (T : Transform) (d : ℕ) : Measurable fun (x : Fin d → ℝ) j => T.f (x j) :=
  measurable_pi_lambda _ fun j => (f_continuous T).measurable.comp (measurable_pi_apply j)

theorem unitCube_meas (d : ℕ) : MeasurableSet (unitCube d) := MeasurableSet.univ_pi fun _ => measurableSet_Icc

theorem prod_w_nonneg {d : ℕ} (T : Transform) {x : Fin d → ℝ} (hx : x ∈ unitCube d) : 0 ≤ ∏ j, T.w (x j) :=
  Finset.prod_nonneg fun j _ => w_nonneg T _ (hx j trivial).1 (hx j trivial).2

theorem prod_w_meas {d : ℕ} (T : Transform) : Measurable fun x : Fin d → ℝ => ∏ j, T.w (x j) :=
  Finset.measurable_prod _ fun j _ => (w_continuous T).measurable.comp (measurable_pi_apply j)

/-- The transform of an integrable function is integrable, and has the same integral. -/
theorem transformed_integral {d : ℕ} (T : Transform) (g : (Fin d → ℝ) → ℂ) (hg : IntegrableOn g (unitCube d)) :
    IntegrableOn (transformed T g) (unitCube d) ∧ ∫ x in unitCube d, transformed T g x = ∫ x in unitCube d, g x := by
  have hm := map_pi_weighted T d
  rw [pi_weighted] at hm
  have hgi : Integrable g ((((volume : Measure (Fin d → ℝ)).restrict (unitCube d)).withDensity
      fun x => ENNReal.ofReal (∏ j, T.w (x j))).map fun x j => T.f (x j)) := by rw [hm]; exact hg
  have hcomp := hgi.comp_measurable (measurable_fpi T d)
  have hdm : Measurable fun x : Fin d → ℝ => Real.toNNReal (∏ j, T.w (x j)) := (prod_w_meas T).real_toNNReal
  have hsm := (integrable_withDensity_iff_integrable_smul (μ := (volume : Measure (Fin d → ℝ)).restrict (unitCube d)) hdm
    (g := g ∘ fun x j => T.f (x j))).1 hcomp
  have hae : ∀ᵐ x ∂(volume : Measure (Fin d → ℝ)).restrict (unitCube d),
      Real.toNNReal (∏ j, T.w (x j)) • (g ∘ fun x j => T.f (x j)) x = transformed T g x := by
    filter_upwards [ae_restrict_mem (unitCube_meas d)] with x hx
    rw [transformed, NNReal.smul_def, Real.coe_toNNReal _ (prod_w_nonneg T hx), Complex.real_smul]; rfl
  refine ⟨hsm.congr hae, ?_⟩
  conv_rhs => rw [← hm]
  rw [integral_map (measurable_fpi T d).aemeasurable hgi.aestronglyMeasurable]
  have := integral_withDensity_eq_integral_smul (μ := (volume : Measure (Fin d → ℝ)).restrict (unitCube d)) hdm
    (g ∘ fun x j => T.f (x j))
  rw [← integral_congr_ae hae, ← this]
  rfl

end Qmc
end SecDec
