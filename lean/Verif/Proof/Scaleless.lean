import Mathlib.MeasureTheory.Measure.Lebesgue.Basic
import Mathlib.MeasureTheory.Constructions.Polish.Basic
import Mathlib.MeasureTheory.Constructions.BorelSpace.Complex
import Mathlib.MeasureTheory.Function.L1Space.Integrable
import Mathlib.Analysis.SpecialFunctions.Log.Basic
import Mathlib.MeasureTheory.Integral.IntegrableOn
/-
A function which is homogeneous under a rescaling of the variables is not integrable on the positive orthant.
-/
namespace SecDec
namespace FindRegions
open MeasureTheory Set
variable {n : ℕ}

/-- The shell number `k`. -/
def shell (u : Fin n → ℝ) (k : ℕ) : Set (Fin n → ℝ) :=
  {x | (∀ j, 0 < x j) ∧ (k : ℝ) * ∑ j, u j * u j < ∑ j, u j * Real.log (x j) ∧ ∑ j, u j * Real.log (x j) < (k + 1 : ℝ) * ∑ j, u j * u j}

theorem isOpen_orthant : IsOpen {x : Fin n → ℝ | ∀ j, 0 < x j} := by
  rw [ofPred_forall]
  exact isOpen_iInter_of_finite fun j => isOpen_lt continuous_const (continuous_apply j)

theorem isOpen_shell (u : Fin n → ℝ) (k : ℕ) : IsOpen (shell u k) := by
  have hc : ContinuousOn (fun x : Fin n → ℝ => ∑ j, u j * Real.log (x j)) {x | ∀ j, 0 < x j} :=
    continuousOn_finsetSum _ fun j _ => continuousOn_const.mul ((continuous_apply j).continuousOn.log fun x hx => (hx j).ne')
  have := hc.isOpen_inter_preimage isOpen_orthant (isOpen_Ioo (a := (k : ℝ) * ∑ j, u j * u j) (b := (k + 1 : ℝ) * ∑ j, u j * u j))
  exact this

theorem shell_nonempty {u : Fin n → ℝ} (hu : u ≠ 0) : (shell u 0).Nonempty := by
  have hp : 0 < ∑ j, u j * u j := by
    obtain ⟨i, hi⟩ := Function.ne_iff.1 hu
    exact Finset.sum_pos' (fun i _ => mul_self_nonneg _) ⟨i, Finset.mem_univ _, mul_self_pos.2 hi⟩
  refine ⟨fun j => Real.exp (u j / 2), fun j => Real.exp_pos _, ?_⟩
  have e : ∑ j, u j * Real.log (Real.exp (u j / 2)) = (∑ j, u j * u j) / 2 := by
    rw [Finset.sum_div]
    exact Finset.sum_congr rfl fun j _ => by rw [Real.log_exp]; ring
  constructor
  · rw [e]; simp; linarith
  · rw [e]; simp; linarith

theorem shell_disjoint {u : Fin n → ℝ} (hu : u ≠ 0) : Pairwise (fun k l => Disjoint (shell u k) (shell u l)) := by
  have hp : 0 < ∑ j, u j * u j := by
    obtain ⟨i, hi⟩ := Function.ne_iff.1 hu
    exact Finset.sum_pos' (fun i _ => mul_self_nonneg _) ⟨i, Finset.mem_univ _, mul_self_pos.2 hi⟩
  have key : ∀ k l : ℕ, k < l → Disjoint (shell u k) (shell u l) := by
    intro k l hkl
    rw [Set.disjoint_left]
    intro x h1 h2
    have h3 := h1.2.2
    have h4 := h2.2.1
    have : (k + 1 : ℝ) ≤ l := by exact_mod_cast hkl
    nlinarith
  intro k l hkl
  rcases lt_or_gt_of_ne hkl with h | h
  · exact key k l h
  · exact (key l k h).symm

/-- The rescaling. -/
noncomputable def dilate (u : Fin n → ℝ) (x : Fin n → ℝ) : Fin n → ℝ := fun j => Real.exp (u j) * x j

theorem shell_preimage (u : Fin n → ℝ) (k : ℕ) : dilate u ⁻¹' shell u (k + 1) = shell u k := by
  ext x
  simp only [shell, dilate, mem_preimage, mem_ofPred_eq]
  have hpos : (∀ j, 0 < Real.exp (u j) * x j) ↔ ∀ j, 0 < x j :=
    forall_congr' fun j => ⟨fun h => pos_of_mul_pos_right h (Real.exp_pos _).le, fun h => mul_pos (Real.exp_pos _) h⟩
  rw [hpos]
  refine and_congr_right fun hx => ?_
  have e : ∑ j, u j * Real.log (Real.exp (u j) * x j) = ∑ j, u j * u j + ∑ j, u j * Real.log (x j) := by
    rw [← Finset.sum_add_distrib]
    refine Finset.sum_congr rfl fun j _ => ?_
    rw [Real.log_mul (Real.exp_pos _).ne' (hx j).ne', Real.log_exp]
    ring
  rw [e]
  push_cast
  constructor
  · rintro ⟨h1, h2⟩
    constructor <;> linarith
  · rintro ⟨h1, h2⟩
    constructor <;> linarith

theorem lintegral_dilate (u : Fin n → ℝ) (A : Set (Fin n → ℝ)) (F : (Fin n → ℝ) → ENNReal) :
    ∫⁻ x in A, F x = ENNReal.ofReal (Real.exp (∑ j, u j)) * ∫⁻ x in dilate u ⁻¹' A, F (dilate u x) := by
  have hdet : (Matrix.diagonal fun j => Real.exp (u j)).det = Real.exp (∑ j, u j) := by
    rw [Matrix.det_diagonal, Real.exp_sum]
  have hT : ⇑(Matrix.toLin' (Matrix.diagonal fun j => Real.exp (u j))) = dilate u := by
    funext x j
    simp [dilate, Matrix.mulVec_diagonal]
  have hv := Real.smul_map_diagonal_volume_pi (D := fun j => Real.exp (u j)) (by rw [hdet]; exact (Real.exp_pos _).ne')
  rw [hdet, abs_of_pos (Real.exp_pos _), hT] at hv
  have hcont : Continuous (dilate u) := by unfold dilate; fun_prop
  have hinj : Function.Injective (dilate u) := by
    intro x y hxy
    funext j
    exact mul_left_cancel₀ (Real.exp_pos (u j)).ne' (congrFun hxy j)
  have hemb := hcont.measurableEmbedding hinj
  conv_lhs => rw [← hv]
  rw [Measure.restrict_smul, lintegral_smul_measure, hemb.restrict_map, hemb.lintegral_map, smul_eq_mul]

/-- The main lemma. -/
theorem not_integrable_of_homogeneous {f : (Fin n → ℝ) → ℂ} (hf : ContinuousOn f {x | ∀ j, 0 < x j}) (h0 : ∀ x, (∀ j, 0 < x j) → f x ≠ 0)
    {u : Fin n → ℝ} (hu : u ≠ 0) {c : ℝ} (hh : ∀ s : ℝ, ∀ x, (∀ j, 0 < x j) → ‖f (dilate (s • u) x)‖ = Real.exp (s * c) * ‖f x‖) :
    ¬ IntegrableOn f {x | ∀ j, 0 < x j} := by
  -- choose the sign
  suffices H : ∀ u : Fin n → ℝ, u ≠ 0 → ∀ c : ℝ, (∀ x, (∀ j, 0 < x j) → ‖f (dilate u x)‖ = Real.exp c * ‖f x‖) → 0 ≤ ∑ j, u j + c →
      ¬ IntegrableOn f {x | ∀ j, 0 < x j} by
    rcases le_total 0 (∑ j, u j + c) with h | h
    · exact H u hu c (fun x hx => by simpa using hh 1 x hx) h
    · refine H (-u) (neg_ne_zero.2 hu) (-c) (fun x hx => by simpa using hh (-1) x hx) ?_
      simp only [Pi.neg_apply, Finset.sum_neg_distrib]
      linarith
  clear hh hu u c
  intro u hu c hh hpos hint
  have hstep : ∀ k, ∫⁻ x in shell u k, ‖f x‖ₑ ≤ ∫⁻ x in shell u (k + 1), ‖f x‖ₑ := by
    intro k
    rw [lintegral_dilate u (shell u (k + 1)), shell_preimage]
    have e : ∫⁻ x in shell u k, ‖f (dilate u x)‖ₑ = ∫⁻ x in shell u k, ENNReal.ofReal (Real.exp c) * ‖f x‖ₑ := by
      refine setLIntegral_congr_fun (isOpen_shell u k).measurableSet fun x hx => ?_
      simp only [← ofReal_norm_eq_enorm]
      rw [hh x hx.1, ENNReal.ofReal_mul (Real.exp_pos _).le]
    rw [e, lintegral_const_mul' _ _ ENNReal.ofReal_ne_top, ← mul_assoc, ← ENNReal.ofReal_mul (Real.exp_pos _).le, ← Real.exp_add]
    have h1 : (1 : ENNReal) ≤ ENNReal.ofReal (Real.exp (∑ j, u j + c)) := by
      rw [ENNReal.one_le_ofReal]
      exact Real.one_le_exp hpos
    calc ∫⁻ x in shell u k, ‖f x‖ₑ = 1 * ∫⁻ x in shell u k, ‖f x‖ₑ := (one_mul _).symm
      _ ≤ _ := by gcongr
  have hmono : ∀ k, ∫⁻ x in shell u 0, ‖f x‖ₑ ≤ ∫⁻ x in shell u k, ‖f x‖ₑ := by
    intro k
    induction k with
    | zero => exact le_rfl
    | succ k ih => exact ih.trans (hstep k)
  have hsub : ∀ k, shell u k ⊆ {x | ∀ j, 0 < x j} := fun k x hx => hx.1
  have hne : ∫⁻ x in shell u 0, ‖f x‖ₑ ≠ 0 := by
    intro hz
    have hm : AEMeasurable (fun x => ‖f x‖ₑ) (volume.restrict (shell u 0)) :=
      ((hf.mono (hsub 0)).aestronglyMeasurable (isOpen_shell u 0).measurableSet).enorm
    rw [lintegral_eq_zero_iff' hm, Filter.EventuallyEq, ae_restrict_iff' (isOpen_shell u 0).measurableSet] at hz
    have hnull : volume (shell u 0) = 0 := by
      refine measure_mono_null ?_ hz
      intro x hx hcon
      have := hcon hx
      simp only [Pi.zero_apply, enorm_eq_zero] at this
      exact h0 x hx.1 this
    exact (isOpen_shell u 0).measure_ne_zero volume (shell_nonempty hu) hnull
  have htop : ∑' _k : ℕ, ∫⁻ x in shell u 0, ‖f x‖ₑ = ⊤ := ENNReal.tsum_const_eq_top_of_ne_zero hne
  have hle : ∑' k : ℕ, ∫⁻ x in shell u k, ‖f x‖ₑ ≤ ∫⁻ x in {x | ∀ j, 0 < x j}, ‖f x‖ₑ := by
    rw [← lintegral_iUnion (fun k => (isOpen_shell u k).measurableSet) (shell_disjoint hu)]
    exact lintegral_mono_set (iUnion_subset hsub)
  have hfin : ∫⁻ x in {x | ∀ j, 0 < x j}, ‖f x‖ₑ < ⊤ := hint.2
  have := (ENNReal.tsum_le_tsum hmono).trans hle
  rw [htop] at this
  exact absurd (lt_of_le_of_lt this hfin) (lt_irrefl _)

end FindRegions
end SecDec
