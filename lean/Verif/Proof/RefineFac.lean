import Verif.Model.Refine
namespace SecDec
namespace Refine
open Unc

/-- All the numbers of a term are positive. -/
def Pos (d : TermData) : Prop := 0 < d.c ∧ 0 < d.absvar ∧ 0 < d.scaleexpo

/-- `c^(2 beta s)` -/
noncomputable def cc (d : TermData) : ℝ := d.c ^ (2 * (beta d.scaleexpo * d.scaleexpo))

theorem cc_pos {d : TermData} (h : Pos d) : 0 < cc d := Real.rpow_pos_of_pos h.1 _

/-- `sum v min(C, f)` -/
noncomputable def hsum (l : List TermData) (f : ℝ) : ℝ := (l.map fun d => d.absvar * min (cc d) f).sum

theorem hsum_mono {l : List TermData} (hl : ∀ d ∈ l, Pos d) {f f' : ℝ} (h : f ≤ f') : hsum l f ≤ hsum l f' := by
  unfold hsum
  exact List.sum_le_sum fun d hd => mul_le_mul_of_nonneg_left (min_le_min_left _ h) (hl d hd).2.1.le

theorem hsum_pos {l : List TermData} (hl : ∀ d ∈ l, Pos d) (hne : l ≠ []) {f : ℝ} (hf : 0 < f) : 0 < hsum l f := by
  unfold hsum
  refine List.sum_pos _ ?_ (by simpa using hne)
  intro x hx
  obtain ⟨d, hd, rfl⟩ := List.mem_map.1 hx
  exact mul_pos (hl d hd).2.1 (lt_min (cc_pos (hl d hd)) hf)

theorem facPass_first {l : List TermData} (hl : ∀ d ∈ l, Pos d) (g fac : ℝ) :
    facPass l g true fac = fac * ((l.map fun d => d.absvar * cc d).sum / g) := by
  unfold facPass
  dsimp only
  congr 3
  refine List.map_congr_left fun d hd => ?_
  simp [(hl d hd).1, cc]

theorem facPass_next {l : List TermData} (hl : ∀ d ∈ l, Pos d) (g : ℝ) {fac : ℝ} (hf : 0 < fac) :
    facPass l g false fac = hsum l fac / g := by
  unfold facPass hsum
  dsimp only
  rw [← mul_div_assoc]
  congr 1
  rw [← List.sum_map_mul_left]
  congr 1
  refine List.map_congr_left fun d hd => ?_
  simp only [(hl d hd).1, gt_iff_lt, if_true, Bool.false_eq_true, if_false]
  have : min (cc d) fac = fac * min (cc d / fac) 1 := by
    rw [mul_min_of_nonneg _ _ hf.le, mul_div_cancel₀ _ hf.ne', mul_one]
  rw [this, cc]; ring

theorem facLoop_next {l : List TermData} (hl : ∀ d ∈ l, Pos d) (hne : l ≠ []) {g : ℝ} (hg : 0 < g) (passes : ℕ) :
    ∀ {f : ℝ}, 0 < f → hsum l f ≤ g * f → 0 < facLoop l g passes false f ∧
      hsum l (facLoop l g passes false f) ≤ g * facLoop l g passes false f := by
  have step : ∀ {f : ℝ}, 0 < f → hsum l f ≤ g * f → 0 < facPass l g false f ∧
      hsum l (facPass l g false f) ≤ g * facPass l g false f := by
    intro f hf h
    rw [facPass_next hl g hf]
    have hp := hsum_pos hl hne hf
    refine ⟨div_pos hp hg, ?_⟩
    rw [mul_div_cancel₀ _ hg.ne']
    exact hsum_mono hl ((div_le_iff₀ hg).2 (by linarith))
  induction passes with
  | zero => exact step
  | succ n ih =>
    intro f hf h
    unfold facLoop
    dsimp only
    split
    · exact ih (step hf h).1 (step hf h).2
    · exact step hf h

/-- The result of the loop: with it the predicted variance is at most the goal. -/
theorem facLoop_spec {l : List TermData} (hl : ∀ d ∈ l, Pos d) (hne : l ≠ []) {g : ℝ} (hg : 0 < g) (passes : ℕ) :
    0 < facLoop l g passes true 1 ∧ hsum l (facLoop l g passes true 1) ≤ g * facLoop l g passes true 1 := by
  have hs : 0 < (l.map fun d => d.absvar * cc d).sum := by
    refine List.sum_pos _ ?_ (by simpa using hne)
    intro x hx
    obtain ⟨d, hd, rfl⟩ := List.mem_map.1 hx
    exact mul_pos (hl d hd).2.1 (cc_pos (hl d hd))
  have h1 : 0 < facPass l g true 1 ∧ hsum l (facPass l g true 1) ≤ g * facPass l g true 1 := by
    rw [facPass_first hl, one_mul]
    refine ⟨div_pos hs hg, ?_⟩
    rw [mul_div_cancel₀ _ hg.ne']
    unfold hsum
    exact List.sum_le_sum fun d hd => mul_le_mul_of_nonneg_left (min_le_left _ _) (hl d hd).2.1.le
  cases passes with
  | zero => exact h1
  | succ n =>
    unfold facLoop
    dsimp only
    split
    · exact facLoop_next hl hne hg n h1.1 h1.2
    · exact h1

/-- The factor by which the number of evaluations grows. -/
noncomputable def growth (d : TermData) (f : ℝ) : ℝ := d.c ^ (-beta d.scaleexpo) * f ^ (0.5 / d.scaleexpo)

theorem growth_pos {d : TermData} (h : Pos d) {f : ℝ} (hf : 0 < f) : 0 < growth d f :=
  mul_pos (Real.rpow_pos_of_pos h.1 _) (Real.rpow_pos_of_pos hf _)

theorem growth_rpow {d : TermData} (h : Pos d) {f : ℝ} (hf : 0 < f) : growth d f ^ (2 * d.scaleexpo) = f / cc d := by
  obtain ⟨hc, -, hs⟩ := h
  unfold growth cc
  rw [Real.mul_rpow (Real.rpow_nonneg hc.le _) (Real.rpow_nonneg hf.le _), ← Real.rpow_mul hc.le, ← Real.rpow_mul hf.le]
  have e1 : 0.5 / d.scaleexpo * (2 * d.scaleexpo) = 1 := by field_simp; norm_num
  have e2 : -beta d.scaleexpo * (2 * d.scaleexpo) = -(2 * (beta d.scaleexpo * d.scaleexpo)) := by ring
  rw [e1, e2, Real.rpow_one, Real.rpow_neg hc.le]
  field_simp

/-- If no term grows by more than the factor `r d`, the variance is at most the goal times the largest `r d ^ (2 s)`. -/
theorem total_le {l : List TermData} (hl : ∀ d ∈ l, Pos d) {g f R : ℝ} (hf : 0 < f) (hh : hsum l f ≤ g * f)
    (hR : 1 ≤ R) (r : ∀ d ∈ l, growth d f ^ (2 * d.scaleexpo) ≤ R) : (l.map (·.absvar)).sum ≤ R * g := by
  have h1 : (l.map (·.absvar)).sum * (f / R) ≤ hsum l f := by
    unfold hsum
    rw [← List.sum_map_mul_right]
    refine List.sum_le_sum fun d hd => mul_le_mul_of_nonneg_left (le_min ?_ ?_) (hl d hd).2.1.le
    · have := r d hd
      rw [growth_rpow (hl d hd) hf] at this
      rw [div_le_iff₀ (by linarith)]
      rw [div_le_iff₀ (cc_pos (hl d hd))] at this
      linarith
    · exact div_le_self hf.le hR
  have hR0 : 0 < R := by linarith
  have h2 : (l.map (·.absvar)).sum * (f / R) ≤ g * f := h1.trans hh
  rw [← mul_div_assoc, div_le_iff₀ hR0] at h2
  have : (l.map (·.absvar)).sum * f ≤ (R * g) * f := by linarith
  exact le_of_mul_le_mul_right this hf

end Refine
end SecDec
