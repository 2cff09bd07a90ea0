import Verif.Proof.SignedWarp
import Verif.Proof.Transforms
/-
Proofs for C67: the fit function of qmc.hpp.
-/
namespace SecDec
namespace Transforms
open MeasureTheory Set Qmc

open Classical in
theorem fitLoop_spec {d : ℕ} (S : Fin d → Step) (l : List (Fin d)) (hl : l.Nodup) (st : ℝ × (Fin d → ℝ)) :
    fitLoop S l st = if ∀ j ∈ l, (S j).value (st.2 j) ∈ Icc (0:ℝ) 1 then some (loop S l st) else none := by
  induction l generalizing st with
  | nil => simp [fitLoop, loop]
  | cons s l ih =>
    obtain ⟨c, x⟩ := st
    rw [List.nodup_cons] at hl
    rw [fitLoop, loop]
    simp only [ih hl.2, List.forall_mem_cons]
    have hne : ∀ j ∈ l, j ≠ s := fun j hj e => hl.1 (e ▸ hj)
    have he : (∀ j ∈ l, (S j).value (Function.update x s ((S s).value (x s)) j) ∈ Icc (0:ℝ) 1) ↔
        ∀ j ∈ l, (S j).value (x j) ∈ Icc (0:ℝ) 1 := by
      refine forall₂_congr fun j hj => ?_
      rw [Function.update_of_ne (hne j hj)]
    simp only [he]
    by_cases h : (S s).value (x s) > 1 ∨ (S s).value (x s) < 0
    · rw [if_pos h, if_neg]
      rintro ⟨⟨h1, h2⟩, -⟩
      rcases h with h | h <;> linarith
    · rw [if_neg h]
      have : (S s).value (x s) ∈ Icc (0:ℝ) 1 := by
        push Not at h
        exact ⟨h.2, h.1⟩
      simp only [this, true_and]

theorem applyFit_eq {d : ℕ} (p : Fin d → Fit) (f : (Fin d → ℝ) → ℂ) (x : Fin d → ℝ) :
    applyFit p f x = ((∏ j, (p j).step.weight (x j) : ℝ) : ℂ) * (unitCube d).indicator f fun j => (p j).step.value (x j) := by
  unfold applyFit
  rw [fitLoop_spec _ _ (List.nodup_finRange d), loop_all]
  by_cases h : ∀ j ∈ List.finRange d, (p j).step.value (x j) ∈ Icc (0:ℝ) 1
  · rw [if_pos h, indicator_of_mem]
    intro j _
    exact h j (List.mem_finRange j)
  · rw [if_neg h, indicator_of_notMem, mul_zero]
    intro hm
    exact h fun j _ => hm j trivial

theorem fit_deriv (p : Fit) {x : ℝ} (h0 : p.p0 - x ≠ 0) (h1 : p.p1 - x ≠ 0) : HasDerivAt p.step.value (p.step.weight x) x := by
  have hx := hasDerivAt_id x
  have d0 : HasDerivAt (fun x => p.p0 - x) (-1) x := hx.const_sub p.p0
  have d1 : HasDerivAt (fun x => p.p1 - x) (-1) x := hx.const_sub p.p1
  have a0 : HasDerivAt (fun x => |p.p2| * (x * (p.p0 - 1)) / (p.p0 - x)) _ x := ((hx.mul_const (p.p0 - 1)).const_mul |p.p2|).div d0 h0
  have a1 : HasDerivAt (fun x => |p.p3| * (x * (p.p1 - 1)) / (p.p1 - x)) _ x := ((hx.mul_const (p.p1 - 1)).const_mul |p.p3|).div d1 h1
  have a2 : HasDerivAt (fun x => x * (p.p4 + x * (p.p5 + x * (1 - |p.p2| - |p.p3| - p.p4 - p.p5)))) _ x :=
    hx.mul ((hx.mul ((hx.mul_const (1 - |p.p2| - |p.p3| - p.p4 - p.p5)).const_add p.p5)).const_add p.p4)
  refine ((a0.add a1).add a2).congr_deriv ?_
  simp only [Fit.step, id]
  field_simp
  ring

theorem fit_warp (p : Fit) (h0 : 1 < p.p0) (h1 : p.p1 < 0) : SWarp p.step.value p.step.weight := by
  have n0 : ∀ x ∈ Icc (0:ℝ) 1, p.p0 - x ≠ 0 := fun x hx => by have := hx.2; linarith
  have n1 : ∀ x ∈ Icc (0:ℝ) 1, p.p1 - x ≠ 0 := fun x hx => by have := hx.1; linarith
  refine swarp_of_deriv ?_ ?_ (fun x hx => fit_deriv p (n0 x hx) (n1 x hx)) ?_ ?_ ?_
  · show Measurable fun x => |p.p2| * (x * (p.p0 - 1)) / (p.p0 - x) + |p.p3| * (x * (p.p1 - 1)) / (p.p1 - x)
      + x * (p.p4 + x * (p.p5 + x * (1 - |p.p2| - |p.p3| - p.p4 - p.p5)))
    fun_prop
  · show Measurable fun x => |p.p2| * p.p0 * (p.p0 - 1) / (p.p0 - x) / (p.p0 - x) + |p.p3| * p.p1 * (p.p1 - 1) / (p.p1 - x) / (p.p1 - x) + p.p4
      + x * (2 * p.p5 + x * 3 * (1 - |p.p2| - |p.p3| - p.p4 - p.p5))
    fun_prop
  · show ContinuousOn (fun x => |p.p2| * p.p0 * (p.p0 - 1) / (p.p0 - x) / (p.p0 - x) + |p.p3| * p.p1 * (p.p1 - 1) / (p.p1 - x) / (p.p1 - x) + p.p4
      + x * (2 * p.p5 + x * 3 * (1 - |p.p2| - |p.p3| - p.p4 - p.p5))) _
    fun_prop (disch := assumption)
  · simp [Fit.step]
  · have e0 : p.p0 - 1 ≠ 0 := by linarith
    have e1 : p.p1 - 1 ≠ 0 := by linarith
    simp only [Fit.step]
    field_simp
    ring

theorem fit_integral {d : ℕ} (p : Fin d → Fit) (hp : ∀ j, 1 < (p j).p0 ∧ (p j).p1 < 0) (g : (Fin d → ℝ) → ℂ)
    (hg : Measurable ((unitCube d).indicator g)) {C : ℝ} (hC : ∀ x ∈ unitCube d, ‖g x‖ ≤ C) :
    IntegrableOn (applyFit p g) (unitCube d) ∧ ∫ x in unitCube d, applyFit p g x = ∫ x in unitCube d, g x := by
  have hW : ∀ j, SWarp (p j).step.value (p j).step.weight := fun j => fit_warp (p j) (hp j).1 (hp j).2
  have hB : ∀ y, ‖(unitCube d).indicator g y‖ ≤ max C 0 := by
    intro y
    by_cases hy : y ∈ unitCube d
    · rw [indicator_of_mem hy]; exact (hC y hy).trans (le_max_left _ _)
    · rw [indicator_of_notMem hy, norm_zero]; exact le_max_right _ _
  have hms : MeasurableSet (unitCube d) := MeasurableSet.univ_pi fun _ => measurableSet_Icc
  have e : applyFit p g = fun x => ((∏ j, (p j).step.weight (x j) : ℝ) : ℂ) * (unitCube d).indicator g fun j => (p j).step.value (x j) :=
    funext fun x => applyFit_eq p g x
  constructor
  · choose K hK using fun j => (hW j).bound
    have hmf : Measurable fun (x : Fin d → ℝ) j => (p j).step.value (x j) :=
      measurable_pi_lambda _ fun j => (hW j).meas_f.comp (measurable_pi_apply j)
    have hmw : Measurable fun x : Fin d → ℝ => ∏ j, (p j).step.weight (x j) :=
      Finset.measurable_prod _ fun j _ => (hW j).meas_w.comp (measurable_pi_apply j)
    rw [e]
    refine Measure.integrableOn_of_bounded (M := (∏ j, K j) * max C 0) ?_ ?_ ?_
    · exact (isCompact_univ_pi fun _ => isCompact_Icc).measure_lt_top.ne
    · exact ((Complex.measurable_ofReal.comp hmw).mul (hg.comp hmf)).aestronglyMeasurable
    · refine (ae_restrict_iff' hms).2 (Filter.Eventually.of_forall fun x hx => ?_)
      rw [norm_mul, Complex.norm_real, Real.norm_eq_abs, Finset.abs_prod]
      refine mul_le_mul (Finset.prod_le_prod (fun j _ => abs_nonneg _) fun j _ => hK j _ (hx j trivial)) (hB _) (norm_nonneg _) ?_
      exact Finset.prod_nonneg fun j _ => (abs_nonneg _).trans (hK j _ (hx j trivial))
  · rw [e, swarp_integral hW _ hg ⟨_, hB⟩]
    exact setIntegral_congr_fun hms fun x hx => indicator_of_mem hx g

end Transforms
end SecDec
