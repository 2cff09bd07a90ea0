import Mathlib.Algebra.Order.Floor.Ring
import Mathlib.MeasureTheory.Function.Floor
import Verif.Proof.QmcTransform
import Verif.Proof.QmcKernel
/-
Averaging over the shift of the lattice.
-/
namespace SecDec
namespace Qmc
open MeasureTheory Set

theorem lintegral_fract (c : ℝ) (g : ℝ → ENNReal) :
    ∫⁻ x in Icc (0:ℝ) 1, g (Int.fract (c + x)) = ∫⁻ x in Icc (0:ℝ) 1, g x := by
  set c0 := Int.fract c with hc0
  have h0 : 0 ≤ c0 := Int.fract_nonneg c
  have h1 : c0 < 1 := Int.fract_lt_one c
  have hfr : ∀ x, Int.fract (c + x) = Int.fract (c0 + x) := by
    intro x
    have : c + x = (⌊c⌋ : ℝ) + (c0 + x) := by rw [hc0, ← add_assoc, Int.floor_add_fract]
    rw [this, Int.fract_intCast_add]
  have tr : ∀ (a b t : ℝ) , ∫⁻ x in Ico (a + t) (b + t), g x = ∫⁻ x in Ico a b, g (x + t) := by
    intro a b t
    have h := lintegral_image_eq_lintegral_abs_deriv_mul (s := Ico a b) (f := fun x => x + t) (f' := fun _ => 1)
      measurableSet_Ico (fun x _ => ((hasDerivAt_id' x).add_const t).hasDerivWithinAt) (fun a _ b _ h => by simpa using h) g
    rw [image_add_const_Ico] at h
    simpa using h
  rw [← setLIntegral_congr (Ico_ae_eq_Icc (a := (0:ℝ)) (b := 1)), ← setLIntegral_congr (Ico_ae_eq_Icc (a := (0:ℝ)) (b := 1))]
  have hs1 : Ico (0:ℝ) 1 = Ico 0 (1 - c0) ∪ Ico (1 - c0) 1 := by
    rw [Ico_union_Ico_eq_Ico] <;> linarith
  have hs2 : Ico (0:ℝ) 1 = Ico c0 1 ∪ Ico 0 c0 := by
    rw [union_comm, Ico_union_Ico_eq_Ico] <;> linarith
  have hd1 : Disjoint (Ico (0:ℝ) (1 - c0)) (Ico (1 - c0) 1) := by
    rw [Set.disjoint_left]; intro x hx hy; exact absurd hx.2 (not_lt.2 hy.1)
  have hd2 : Disjoint (Ico c0 1) (Ico (0:ℝ) c0) := by
    rw [Set.disjoint_left]; intro x hx hy; exact absurd hy.2 (not_lt.2 hx.1)
  conv_lhs => rw [hs1, lintegral_union measurableSet_Ico hd1]
  conv_rhs => rw [hs2, lintegral_union measurableSet_Ico hd2]
  congr 1
  · have := tr 0 (1 - c0) c0
    rw [zero_add, sub_add_cancel] at this
    rw [this]
    apply setLIntegral_congr_fun measurableSet_Ico
    intro x hx
    dsimp only
    rw [hfr, (Int.fract_eq_iff (b := x + c0)).2 ⟨by linarith [hx.1, hx.2], by linarith [hx.1, hx.2], 0, by push_cast; ring⟩]
  · have := tr (1 - c0) 1 (c0 - 1)
    rw [show (1:ℝ) - c0 + (c0 - 1) = 0 by ring, show (1:ℝ) + (c0 - 1) = c0 by ring] at this
    rw [this]
    apply setLIntegral_congr_fun measurableSet_Ico
    intro x hx
    dsimp only
    rw [hfr, (Int.fract_eq_iff (b := x + (c0 - 1))).2 ⟨by linarith [hx.1, hx.2], by linarith [hx.1, hx.2], 1, by push_cast; ring⟩]

theorem measurable_shift (c : ℝ) : Measurable fun x : ℝ => Int.fract (c + x) :=
  measurable_fract.comp (measurable_const_add c)

theorem map_fract (c : ℝ) : (volume.restrict (Icc (0:ℝ) 1)).map (fun x => Int.fract (c + x)) = volume.restrict (Icc (0:ℝ) 1) := by
  ext s hs
  rw [Measure.map_apply (measurable_shift c) hs, ← lintegral_indicator_one hs, ← lintegral_indicator_one (measurable_shift c hs),
    ← lintegral_fract c (s.indicator 1)]
  rfl

theorem measurable_point {d : ℕ} (c : Fin d → ℝ) : Measurable fun (s : Fin d → ℝ) j => Int.fract (c j + s j) :=
  measurable_pi_lambda _ fun j => (measurable_shift (c j)).comp (measurable_pi_apply j)

theorem map_point {d : ℕ} (c : Fin d → ℝ) :
    ((volume : Measure (Fin d → ℝ)).restrict (unitCube d)).map (fun s j => Int.fract (c j + s j))
      = (volume : Measure (Fin d → ℝ)).restrict (unitCube d) := by
  rw [cube_pi]
  have : ∀ j : Fin d, SigmaFinite ((volume.restrict (Icc (0:ℝ) 1)).map (fun x => Int.fract (c j + x))) := fun j => by
    rw [map_fract]; infer_instance
  rw [Measure.pi_map_pi (fun j => (measurable_shift (c j)).aemeasurable)]
  simp only [map_fract]

theorem integral_point {d : ℕ} (c : Fin d → ℝ) (h : (Fin d → ℝ) → ℂ) (hh : IntegrableOn h (unitCube d)) :
    IntegrableOn (fun s => h fun j => Int.fract (c j + s j)) (unitCube d) ∧
    ∫ s in unitCube d, h (fun j => Int.fract (c j + s j)) = ∫ x in unitCube d, h x := by
  have hi : Integrable h (((volume : Measure (Fin d → ℝ)).restrict (unitCube d)).map (fun s j => Int.fract (c j + s j))) := by
    rw [map_point]; exact hh
  refine ⟨hi.comp_measurable (measurable_point c), ?_⟩
  conv_rhs => rw [← map_point c]
  rw [integral_map (measurable_point c).aemeasurable hi.aestronglyMeasurable]

/-- The average over the shift of the sum over the lattice. -/
theorem integral_latticeSum {d : ℕ} (n : ℕ) (z : Fin d → ℕ) (h : (Fin d → ℝ) → ℂ) (hh : IntegrableOn h (unitCube d)) :
    IntegrableOn (fun s => ∑ i ∈ Finset.Ico 0 n, h (latticePoint n z s i)) (unitCube d) ∧
    ∫ s in unitCube d, ∑ i ∈ Finset.Ico 0 n, h (latticePoint n z s i) = n * ∫ x in unitCube d, h x := by
  have hp : ∀ i, IntegrableOn (fun s => h (latticePoint n z s i)) (unitCube d) ∧
      ∫ s in unitCube d, h (latticePoint n z s i) = ∫ x in unitCube d, h x := fun i =>
    integral_point (fun j => (i:ℝ) * (z j : ℝ) / n) h hh
  refine ⟨integrable_finsetSum _ fun i _ => (hp i).1, ?_⟩
  rw [integral_finsetSum _ fun i _ => (hp i).1]
  simp [(hp _).2]

theorem Ico_cube_ae (d : ℕ) : ∀ᵐ s ∂(volume : Measure (Fin d → ℝ)).restrict (unitCube d), ∀ j, 0 ≤ s j ∧ s j < 1 := by
  rw [cube_pi, ae_all_iff]
  intro j
  have : ∀ᵐ y ∂(volume.restrict (Icc (0:ℝ) 1)), 0 ≤ y ∧ y < 1 := by
    rw [← Measure.restrict_congr_set (Ico_ae_eq_Icc (a := (0:ℝ)) (b := 1))]
    exact ae_restrict_mem measurableSet_Ico
  exact (Measure.quasiMeasurePreserving_eval (μ := fun _ : Fin d => volume.restrict (Icc (0:ℝ) 1)) j).ae this

/-- For an integrand without failing sign checks, the sum over the lattice. -/
theorem latticeSum_total {d : ℕ} (n : ℕ) (z : Fin d → ℕ) (s : Fin d → ℝ) (T : Transform) (g : (Fin d → ℝ) → ℂ) (i1 i2 : ℕ) :
    (Kernel.mk n z s T fun x => some (g x)).latticeSum i1 i2
      = some (∑ i ∈ Finset.Ico i1 i2, transformed T g (latticePoint n z s i)) := by
  unfold Kernel.latticeSum osum
  rw [if_pos]
  · rfl
  · intro i _; rfl

end Qmc
end SecDec
