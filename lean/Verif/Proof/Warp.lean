import Verif.Proof.QmcTransform
/-
Changes of variables of the unit interval, and of the unit cube variable by variable.
-/
namespace SecDec
namespace Transforms
open MeasureTheory Set Qmc

/-- `f` with the weight `w` does not change integrals over the unit interval. -/
structure Warp (f w : ℝ → ℝ) : Prop where
  meas_f : Measurable f
  meas_w : Measurable w
  nonneg : ∀ x ∈ Icc (0:ℝ) 1, 0 ≤ w x
  lint : ∀ g : ℝ → ENNReal, Measurable g → ∫⁻ x in Icc (0:ℝ) 1, ENNReal.ofReal (w x) * g (f x) = ∫⁻ x in Icc (0:ℝ) 1, g x

theorem image_of_deriv {f w : ℝ → ℝ} (hd : ∀ x ∈ Icc (0:ℝ) 1, HasDerivAt f (w x) x) (hw : ∀ x ∈ Ioo (0:ℝ) 1, 0 < w x) (h0 : f 0 = 0)
    (h1 : f 1 = 1) : StrictMonoOn f (Icc 0 1) ∧ f '' Icc 0 1 = Icc 0 1 := by
  have hc : ContinuousOn f (Icc 0 1) := fun x hx => (hd x hx).continuousAt.continuousWithinAt
  have hm : StrictMonoOn f (Icc 0 1) := by
    apply strictMonoOn_of_deriv_pos (convex_Icc 0 1) hc
    intro x hx
    rw [interior_Icc] at hx
    rw [(hd x (Ioo_subset_Icc_self hx)).deriv]
    exact hw x hx
  refine ⟨hm, Subset.antisymm ?_ ?_⟩
  · rintro _ ⟨x, hx, rfl⟩
    refine ⟨?_, ?_⟩
    · rw [← h0]; exact hm.monotoneOn (left_mem_Icc.2 zero_le_one) hx hx.1
    · rw [← h1]; exact hm.monotoneOn hx (right_mem_Icc.2 zero_le_one) hx.2
  · have := intermediate_value_Icc (zero_le_one (α := ℝ)) hc
    rwa [h0, h1] at this

theorem warp_of_deriv {f w : ℝ → ℝ} (hf : Measurable f) (hwm : Measurable w) (hd : ∀ x ∈ Icc (0:ℝ) 1, HasDerivAt f (w x) x)
    (h : ∀ x ∈ Icc (0:ℝ) 1, 0 ≤ w x) (hw : ∀ x ∈ Ioo (0:ℝ) 1, 0 < w x) (h0 : f 0 = 0) (h1 : f 1 = 1) : Warp f w where
  meas_f := hf
  meas_w := hwm
  nonneg := h
  lint g _ := by
    obtain ⟨hm, hi⟩ := image_of_deriv hd hw h0 h1
    have h := lintegral_image_eq_lintegral_abs_deriv_mul (s := Icc (0:ℝ) 1) (f := f) (f' := w) measurableSet_Icc
      (fun x hx => (hd x hx).hasDerivWithinAt) hm.injOn g
    rw [hi] at h
    rw [h]
    apply setLIntegral_congr_fun measurableSet_Icc
    intro x hx
    simp only [abs_of_nonneg (‹∀ x ∈ Icc (0:ℝ) 1, 0 ≤ w x› x hx)]

/-- A change of the functions outside of the unit interval. -/
theorem Warp.congr {f w f' w' : ℝ → ℝ} (h : Warp f w) (hf : Measurable f') (hw : Measurable w') (ef : ∀ x ∈ Icc (0:ℝ) 1, f' x = f x)
    (ew : ∀ x ∈ Icc (0:ℝ) 1, w' x = w x) : Warp f' w' where
  meas_f := hf
  meas_w := hw
  nonneg x hx := by rw [ew x hx]; exact h.nonneg x hx
  lint g hg := by
    rw [← h.lint g hg]
    apply setLIntegral_congr_fun measurableSet_Icc
    intro x hx
    simp only [ef x hx, ew x hx]

theorem warp_id : Warp (fun x => x) fun _ => 1 where
  meas_f := measurable_id
  meas_w := measurable_const
  nonneg _ _ := zero_le_one
  lint g _ := by simp

/-- The unit interval with the weights of the transform. -/
noncomputable def wmeas (w : ℝ → ℝ) : Measure ℝ := (volume.restrict (Icc (0:ℝ) 1)).withDensity fun x => ENNReal.ofReal (w x)

theorem Warp.map {f w : ℝ → ℝ} (h : Warp f w) : (wmeas w).map f = volume.restrict (Icc (0:ℝ) 1) := by
  ext s hs
  rw [Measure.map_apply h.meas_f hs, wmeas, withDensity_apply _ (h.meas_f hs), Measure.restrict_apply hs]
  have := h.lint (s.indicator 1) (measurable_one.indicator hs)
  rw [lintegral_indicator_one hs, Measure.restrict_apply hs] at this
  rw [← this, ← lintegral_indicator (h.meas_f hs)]
  congr 1; funext x
  by_cases hx : f x ∈ s
  · rw [indicator_of_mem (by exact hx), indicator_of_mem hx]; simp
  · rw [indicator_of_notMem (by exact hx), indicator_of_notMem hx]; simp

theorem Warp.prob {f w : ℝ → ℝ} (h : Warp f w) : IsProbabilityMeasure (wmeas w) := by
  constructor
  have h := congrArg (fun m => m univ) h.map
  simp only [Measure.map_apply ‹Warp f w›.meas_f MeasurableSet.univ, preimage_univ] at h
  rw [h]; simp

variable {d : ℕ} {f w : Fin d → ℝ → ℝ}

theorem warp_pi (h : ∀ j, Warp (f j) (w j)) : Measure.pi (fun j : Fin d => wmeas (w j))
    = ((volume : Measure (Fin d → ℝ)).restrict (unitCube d)).withDensity fun x => ENNReal.ofReal (∏ j, w j (x j)) := by
  have : ∀ j, IsProbabilityMeasure (wmeas (w j)) := fun j => (h j).prob
  rw [cube_pi]
  refine Measure.pi_eq fun s hs => ?_
  have hm : ∀ j, Measurable fun x => ENNReal.ofReal (w j x) := fun j => (h j).meas_w.ennreal_ofReal
  rw [withDensity_apply _ (MeasurableSet.univ_pi hs), Measure.restrict_pi_pi]
  have hae : ∀ᵐ x ∂(Measure.pi fun i : Fin d => (volume.restrict (Icc (0:ℝ) 1)).restrict (s i)),
      ENNReal.ofReal (∏ j, w j (x j)) = ∏ j, ENNReal.ofReal (w j (x j)) := by
    have hq : ∀ᵐ x ∂(Measure.pi fun i : Fin d => (volume.restrict (Icc (0:ℝ) 1)).restrict (s i)),
        ∀ i, x i ∈ Icc (0:ℝ) 1 := by
      rw [ae_all_iff]
      intro i
      have : ∀ᵐ y ∂((volume.restrict (Icc (0:ℝ) 1)).restrict (s i)), y ∈ Icc (0:ℝ) 1 :=
        ae_restrict_of_ae (ae_restrict_mem measurableSet_Icc)
      exact (Measure.quasiMeasurePreserving_eval (μ := fun i : Fin d => (volume.restrict (Icc (0:ℝ) 1)).restrict (s i)) i).ae this
    filter_upwards [hq] with x hx
    rw [ENNReal.ofReal_prod_of_nonneg fun i _ => (h i).nonneg _ (hx i)]
  rw [lintegral_congr_ae hae, lintegral_prod_cube _ _ fun j => hm j]
  refine Finset.prod_congr rfl fun i _ => ?_
  rw [wmeas, withDensity_apply _ (hs i)]

theorem warp_map_pi (h : ∀ j, Warp (f j) (w j)) :
    (Measure.pi fun j : Fin d => wmeas (w j)).map (fun x j => f j (x j)) = (volume : Measure (Fin d → ℝ)).restrict (unitCube d) := by
  have : ∀ j, IsProbabilityMeasure (wmeas (w j)) := fun j => (h j).prob
  have : ∀ j : Fin d, SigmaFinite ((wmeas (w j)).map (f j)) := fun j => by rw [(h j).map]; infer_instance
  rw [Measure.pi_map_pi (fun j => (h j).meas_f.aemeasurable), cube_pi]
  simp only [(h _).map]

/-- The transform of an integrable function is integrable, and has the same integral. -/
theorem warp_integral (h : ∀ j, Warp (f j) (w j)) (g : (Fin d → ℝ) → ℂ) (hg : IntegrableOn g (unitCube d)) :
    IntegrableOn (fun x => ((∏ j, w j (x j) : ℝ) : ℂ) * g fun j => f j (x j)) (unitCube d) ∧
      ∫ x in unitCube d, ((∏ j, w j (x j) : ℝ) : ℂ) * g (fun j => f j (x j)) = ∫ x in unitCube d, g x := by
  have hmf : Measurable fun (x : Fin d → ℝ) j => f j (x j) := measurable_pi_lambda _ fun j => (h j).meas_f.comp (measurable_pi_apply j)
  have hmw : Measurable fun x : Fin d → ℝ => ∏ j, w j (x j) :=
    Finset.measurable_prod _ fun j _ => (h j).meas_w.comp (measurable_pi_apply j)
  have hm := warp_map_pi h
  rw [warp_pi h] at hm
  have hgi : Integrable g ((((volume : Measure (Fin d → ℝ)).restrict (unitCube d)).withDensity
      fun x => ENNReal.ofReal (∏ j, w j (x j))).map fun x j => f j (x j)) := by rw [hm]; exact hg
  have hcomp := hgi.comp_measurable hmf
  have hdm : Measurable fun x : Fin d → ℝ => Real.toNNReal (∏ j, w j (x j)) := hmw.real_toNNReal
  have hsm := (integrable_withDensity_iff_integrable_smul (μ := (volume : Measure (Fin d → ℝ)).restrict (unitCube d)) hdm
    (g := g ∘ fun x j => f j (x j))).1 hcomp
  have hae : ∀ᵐ x ∂(volume : Measure (Fin d → ℝ)).restrict (unitCube d),
      Real.toNNReal (∏ j, w j (x j)) • (g ∘ fun x j => f j (x j)) x = ((∏ j, w j (x j) : ℝ) : ℂ) * g fun j => f j (x j) := by
    filter_upwards [ae_restrict_mem (unitCube_meas d)] with x hx
    rw [NNReal.smul_def, Real.coe_toNNReal _ (Finset.prod_nonneg fun j _ => (h j).nonneg _ (hx j trivial)), Complex.real_smul]; rfl
  refine ⟨hsm.congr hae, ?_⟩
  conv_rhs => rw [← hm]
  rw [integral_map hmf.aemeasurable hgi.aestronglyMeasurable]
  have := integral_withDensity_eq_integral_smul (μ := (volume : Measure (Fin d → ℝ)).restrict (unitCube d)) hdm
    (g ∘ fun x j => f j (x j))
  rw [← integral_congr_ae hae, ← this]
  rfl

end Transforms
end SecDec
