import Verif.Proof.PolySingular
/-
C67: the transforms of the quasi-Monte Carlo integrator.
-/
namespace SecDec
namespace Transforms
open MeasureTheory Set Qmc

/-- C67.  `Korobov<r0,r1>`: for all weights `r0`, `r1`, every number of variables and every integrable function, the transformed function is
integrable over the unit cube, with the same integral. -/
theorem C67_korobov {d : ℕ} (r0 r1 : ℕ) (g : (Fin d → ℝ) → ℂ) (hg : IntegrableOn g (unitCube d)) :
    IntegrableOn (apply (korobovStep r0 r1) g) (unitCube d) ∧ ∫ x in unitCube d, apply (korobovStep r0 r1) g x = ∫ x in unitCube d, g x := by
  have := warp_integral (fun _ : Fin d => korobov_warp r0 r1) g hg
  rwa [show apply (korobovStep r0 r1) g = _ from funext fun x => apply_eq _ g x]

/-- C67.  `Sidi<r>`, for all `r`. -/
theorem C67_sidi {d : ℕ} (r : ℕ) (g : (Fin d → ℝ) → ℂ) (hg : IntegrableOn g (unitCube d)) :
    IntegrableOn (apply (sidiStep r) g) (unitCube d) ∧ ∫ x in unitCube d, apply (sidiStep r) g x = ∫ x in unitCube d, g x := by
  have := warp_integral (fun _ : Fin d => sidi_warp r) g hg
  rwa [show apply (sidiStep r) g = _ from funext fun x => apply_eq _ g x]

/-- C67.  `Baker`. -/
theorem C67_baker {d : ℕ} (g : (Fin d → ℝ) → ℂ) (hg : IntegrableOn g (unitCube d)) :
    IntegrableOn (apply bakerStep g) (unitCube d) ∧ ∫ x in unitCube d, apply bakerStep g x = ∫ x in unitCube d, g x := by
  have := warp_integral (fun _ : Fin d => baker_warp) g hg
  rwa [show apply bakerStep g = _ from funext fun x => apply_eq _ g x]

/-- C67.  The fit function `PolySingular`: whatever the fit has found, as long as its poles are outside the unit interval (the constraint under
which the fit is done, `qmc.hpp:265`), and although the variable may run backwards or leave the unit interval, the transformed function is
integrable over the unit cube, with the same integral.  Here the function is bounded (and measurable) on the cube. -/
theorem C67_polysingular {d : ℕ} (p : Fin d → Fit) (hp : ∀ j, 1 < (p j).p0 ∧ (p j).p1 < 0) (g : (Fin d → ℝ) → ℂ)
    (hg : Measurable ((unitCube d).indicator g)) (hC : ∃ C, ∀ x ∈ unitCube d, ‖g x‖ ≤ C) :
    IntegrableOn (applyFit p g) (unitCube d) ∧ ∫ x in unitCube d, applyFit p g x = ∫ x in unitCube d, g x := by
  obtain ⟨C, hC⟩ := hC
  exact fit_integral p hp g hg hC

/-- C67.  What `Qmc::integrate` samples (`qmc.hpp:3364-3366`): the fit function first, the periodizing transform after it.  For an integrand that
is continuous on the closed unit cube and every choice of the transform, the integral is the one of the integrand. -/
theorem C67_integrate {d : ℕ} (S : Step) (hS : (∃ r0 r1, S = korobovStep r0 r1) ∨ (∃ r, S = sidiStep r) ∨ S = bakerStep)
    (p : Fin d → Fit) (hp : ∀ j, 1 < (p j).p0 ∧ (p j).p1 < 0) (g : (Fin d → ℝ) → ℂ) (hg : ContinuousOn g (unitCube d)) :
    IntegrableOn (apply S (applyFit p g)) (unitCube d) ∧ ∫ x in unitCube d, apply S (applyFit p g) x = ∫ x in unitCube d, g x := by
  have hk : IsCompact (unitCube d) := isCompact_univ_pi fun _ => isCompact_Icc
  have hms : MeasurableSet (unitCube d) := MeasurableSet.univ_pi fun _ => measurableSet_Icc
  have hm : Measurable ((unitCube d).indicator g) := by
    classical
    have h := hg.measurable_piecewise (g := fun _ => (0:ℂ)) continuousOn_const hms
    rwa [show (unitCube d).piecewise g (fun _ => (0:ℂ)) = (unitCube d).indicator g from piecewise_eq_indicator] at h
  obtain ⟨h1, h2⟩ := C67_polysingular p hp g hm (hk.exists_bound_of_continuousOn hg)
  rw [← h2]
  rcases hS with ⟨r0, r1, rfl⟩ | ⟨r, rfl⟩ | rfl
  · exact C67_korobov r0 r1 _ h1
  · exact C67_sidi r _ h1
  · exact C67_baker _ h1

/-- C67.  The transforms make the integrand periodic, which is what the lattice rule needs: `Korobov` with positive weights and `Sidi` with
positive `r` give a function that vanishes on the faces of the cube, `Baker` gives the same values on opposite faces. -/
theorem C67_periodic {d : ℕ} (g : (Fin d → ℝ) → ℂ) (x : Fin d → ℝ) (j : Fin d) :
    (∀ r0 r1, x j = 0 ∧ 0 < r0 ∨ x j = 1 ∧ 0 < r1 → apply (korobovStep r0 r1) g x = 0) ∧
      (∀ r, 0 < r → x j = 0 ∨ x j = 1 → apply (sidiStep r) g x = 0) ∧
      apply bakerStep g (Function.update x j 0) = apply bakerStep g (Function.update x j 1) := by
  refine ⟨fun r0 r1 h => ?_, fun r hr h => ?_, ?_⟩
  · rw [apply_eq, Finset.prod_eq_zero (Finset.mem_univ j)]
    · simp
    · rw [korobov_weight]
      rcases h with ⟨h, hr⟩ | ⟨h, hr⟩
      · rw [h, zero_pow hr.ne']; simp
      · rw [h, sub_self, zero_pow hr.ne']; simp
  · obtain ⟨T, -, ⟨c, -, hw⟩, -⟩ := sidi_facts r hr.ne'
    rw [apply_eq, Finset.prod_eq_zero (Finset.mem_univ j)]
    · simp
    · rw [hw]
      rcases h with h | h
      · rw [h, mul_zero, Real.sin_zero, zero_pow hr.ne', mul_zero]
      · rw [h, mul_one, Real.sin_pi, zero_pow hr.ne', mul_zero]
  · rw [apply_eq, apply_eq]
    congr 2
    funext i
    by_cases hi : i = j
    · subst hi
      rw [Function.update_self, Function.update_self]
      norm_num [bakerStep]
    · rw [Function.update_of_ne hi, Function.update_of_ne hi]

/-- C67.  The coefficients of the C++ templates are those of the literature: `Korobov<1,1>` is `3x² - 2x³` with the weight `6x(1-x)`, and
`Sidi<2>` is `x - sin(2πx)/(2π)` with the weight `2 sin²(πx)`; the clamps do nothing. -/
theorem C67_named (x : ℝ) (hx : x ∈ Icc (0:ℝ) 1) :
    ((korobovStep 1 1).value x = 3 * x ^ 2 - 2 * x ^ 3 ∧ (korobovStep 1 1).weight x = 6 * (x * (1 - x))) ∧
      (sidiStep 2).value x = x - Real.sin (2 * Real.pi * x) / (2 * Real.pi) ∧ (sidiStep 2).weight x = 2 * Real.sin (Real.pi * x) ^ 2 := by
  refine ⟨⟨?_, ?_⟩, ?_, ?_⟩
  · show clamp (ipow 2 x * korobovTerm 1 1 1 x) = _
    rw [clamp_eq (korobov_range 1 1 hx), korobov_poly]
    simp [Finset.sum_range_succ]
    ring
  · rw [korobov_weight]
    norm_num
    ring
  · obtain ⟨T, hv, ⟨c, hc, hw⟩, hd, h0, h1⟩ := sidi_facts 2 (by norm_num)
    have hp : ∀ x ∈ Ioo (0:ℝ) 1, 0 < (sidiStep 2).weight x := by
      intro x hx
      rw [hw]
      have : 0 < Real.sin (Real.pi * x) := Real.sin_pos_of_pos_of_lt_pi (by have := Real.pi_pos; nlinarith [hx.1])
        (by have := Real.pi_pos; nlinarith [hx.2])
      positivity
    have hr : clamp (T x) = T x := clamp_eq (range_of_warp hd hp h0 h1 hx)
    have hT : T x = x - Real.sin (2 * Real.pi * x) / (2 * Real.pi) := by
      have hw2 : ∀ y, (sidiStep 2).weight y = 2 * Real.sin (Real.pi * y) ^ 2 := by
        intro y
        simp [sidiStep, ipow_eq, factorial]
      have hq : ∀ y, HasDerivAt (fun y => y - Real.sin (2 * Real.pi * y) / (2 * Real.pi)) ((sidiStep 2).weight y) y := by
        intro y
        have h1 : HasDerivAt (fun y : ℝ => 2 * Real.pi * y) (2 * Real.pi) y := by
          simpa using (hasDerivAt_id y).const_mul (2 * Real.pi)
        refine ((hasDerivAt_id y).sub (h1.sin.div_const (2 * Real.pi))).congr_deriv ?_
        rw [hw2, mul_assoc 2 Real.pi y, Real.cos_two_mul, Real.cos_sq']
        field_simp
        ring
      have hz : ∀ y, HasDerivAt (fun y => T y - (y - Real.sin (2 * Real.pi * y) / (2 * Real.pi))) 0 y := by
        intro y
        exact ((hd y).sub (hq y)).congr_deriv (sub_self _)
      have := is_const_of_deriv_eq_zero (fun y => (hz y).differentiableAt) (fun y => (hz y).deriv) x 0
      simp [h0] at this
      linarith
    rw [hv, hr, hT]
  · simp [sidiStep, ipow_eq, factorial]

/-- A transform of the fit that runs backwards and leaves the unit interval: at one half the derivative is negative. -/
def wild : Fit := ⟨2, -1, 0, 0, 6, -14⟩

example : 1 < wild.p0 ∧ wild.p1 < 0 := by norm_num [wild]
example : wild.step.weight (1/2) < 0 := by norm_num [wild, Fit.step]
example : ∃ x ∈ Icc (0:ℝ) 1, wild.step.weight x < 0 ∧ wild.step.value x ∈ Icc (0:ℝ) 1 := ⟨1/2, by norm_num [wild, Fit.step]⟩
/-- Integrands that the theorems apply to. -/
example : ContinuousOn (fun x : Fin 1 → ℝ => (x 0 : ℂ)) (unitCube 1) := by fun_prop
example : IntegrableOn (fun _ : Fin 3 → ℝ => (2 : ℂ)) (unitCube 3) :=
  integrableOn_const (isCompact_univ_pi fun _ => isCompact_Icc).measure_lt_top.ne

end Transforms
end SecDec
