import Verif.Proof.AnalyticOrder
import Verif.Proof.SubMain
/-
Rules for analytically regulated integrals.
-/
set_option linter.unusedSectionVars false
namespace SecDec.Reg
open Set Decomp MeasureTheory Filter Topology Metric
open AnalyticReg (cubeIntegral_oc cubeIntegrable_oc)

variable {N : ℕ} {f g : (Fin N → ℝ) → ℂ} {v w : ℂ}

theorem congr (h : ∀ t ∈ oc N, f t = g t) (hf : Regulated f v) : Regulated g v := by
  obtain ⟨δ, c, E, H, h1, h2, h3, h4, h5, h6, h7, h8⟩ := hf
  refine ⟨δ, c, E, H, h1, h2, h3, h4, h5, fun s hs => ?_, fun s hs hE => ?_, h8⟩
  · rw [cubeIntegrable_oc]
    refine ((cubeIntegrable_oc.1 (h6 s hs)).congr_fun (fun t ht => ?_) measurableSet_oc)
    beta_reduce
    rw [h t ht]
  · rw [h7 s hs hE, cubeIntegral_oc, cubeIntegral_oc]
    refine setIntegral_congr_fun measurableSet_oc fun t ht => ?_
    beta_reduce
    rw [h t ht]

theorem zero : Regulated (fun _ : Fin N → ℝ => (0 : ℂ)) 0 := by
  refine ⟨1, 0, ∅, fun _ => 0, one_pos, countable_empty, isClosed_empty, by simp, differentiableOn_const _, fun s _ => ?_, fun s _ _ => ?_, rfl⟩
  · simp only [mul_zero]
    exact integrable_zero _ _ _
  · simp [cubeIntegral]

theorem add (hf : Regulated f v) (hg : Regulated g w) : Regulated (fun t => f t + g t) (v + w) := by
  obtain ⟨δ, c, E, H, h1, h2, h3, h4, h5, h6, h7, h8⟩ := hf
  obtain ⟨δ', c', E', H', h1', h2', h3', h4', h5', h6', h7', h8'⟩ := hg
  have e : ∀ s : ℂ, (fun t : Fin N → ℝ => (∏ i, (t i : ℂ) ^ s) * (f t + g t)) =
      fun t => (∏ i, (t i : ℂ) ^ s) * f t + (∏ i, (t i : ℂ) ^ s) * g t := by
    intro s; funext t; ring
  refine ⟨min δ δ', max c c', E ∪ E', fun s => H s + H' s, lt_min h1 h1', h2.union h2', h3.union h3', ?_, ?_, ?_, ?_, ?_⟩
  · rintro (h | h)
    · exact h4 h
    · exact h4' h
  · refine (h5.mono ?_).add (h5'.mono ?_)
    · rintro s ⟨a, b⟩
      exact ⟨lt_of_le_of_lt (neg_le_neg (min_le_left δ δ')) a, fun h => b (Or.inl h)⟩
    · rintro s ⟨a, b⟩
      exact ⟨lt_of_le_of_lt (neg_le_neg (min_le_right δ δ')) a, fun h => b (Or.inr h)⟩
  · intro s hs
    rw [e]
    exact Integrable.add (h6 s (lt_of_le_of_lt (le_max_left _ _) hs)) (h6' s (lt_of_le_of_lt (le_max_right _ _) hs))
  · intro s hs hE
    have a := h6 s (lt_of_le_of_lt (le_max_left _ _) hs)
    have b := h6' s (lt_of_le_of_lt (le_max_right _ _) hs)
    beta_reduce
    rw [e, h7 s (lt_of_le_of_lt (le_max_left _ _) hs) fun h => hE (Or.inl h), h7' s (lt_of_le_of_lt (le_max_right _ _) hs) fun h => hE (Or.inr h)]
    exact (integral_add a b).symm
  · beta_reduce; rw [h8, h8']

/-- The sum of a list. -/
theorem list_sum {α : Type} {l : List α} {f : α → (Fin N → ℝ) → ℂ} {vs : List ℂ} (h : List.Forall₂ (fun a v => Regulated (f a) v) l vs) :
    Regulated (fun t => (l.map fun a => f a t).sum) vs.sum := by
  induction h with
  | nil => simpa using zero
  | cons h _ ih =>
    simp only [List.map_cons, List.sum_cons]
    exact add h ih

theorem norm_cpow_le {x : ℝ} (hx : x ∈ Ioo (0 : ℝ) 1) {b : ℂ} (hb : 0 ≤ b.re) : ‖(x : ℂ) ^ b‖ ≤ 1 := by
  rw [Complex.norm_cpow_eq_rpow_re_of_pos hx.1]
  exact Real.rpow_le_one hx.1.le hx.2.le hb

theorem measurable_cpow (i : Fin N) (b : ℂ) : Measurable (fun t : Fin N → ℝ => (t i : ℂ) ^ b) := by
  have : Measurable (fun x : ℝ => (x : ℂ) ^ b) := Complex.measurable_ofReal.pow_const b
  exact this.comp (measurable_pi_apply i)

theorem measurable_prod_cpow (b : Fin N → ℂ) : Measurable (fun t : Fin N → ℝ => ∏ i, (t i : ℂ) ^ b i) :=
  Finset.measurable_prod _ fun i _ => measurable_cpow i (b i)

/-- Integrability with larger powers. -/
theorem integrable_larger {h : (Fin N → ℝ) → ℂ} {a b : Fin N → ℂ} (hab : ∀ i, (a i).re ≤ (b i).re)
    (hi : IntegrableOn (fun t => (∏ i, (t i : ℂ) ^ a i) * h t) (oc N)) : IntegrableOn (fun t => (∏ i, (t i : ℂ) ^ b i) * h t) (oc N) := by
  have h1 : IntegrableOn (fun t => (∏ i, (t i : ℂ) ^ (b i - a i)) * ((∏ i, (t i : ℂ) ^ a i) * h t)) (oc N) := by
    refine Integrable.bdd_mul (c := 1) hi (measurable_prod_cpow _).aestronglyMeasurable ?_
    filter_upwards [ae_restrict_mem measurableSet_oc] with t ht
    rw [norm_prod]
    refine Finset.prod_le_one (fun i _ => norm_nonneg _) fun i _ => norm_cpow_le (mem_oc.1 ht i) ?_
    rw [Complex.sub_re]; linarith [hab i]
  refine h1.congr_fun (fun t ht => ?_) measurableSet_oc
  beta_reduce
  rw [← mul_assoc, ← Finset.prod_mul_distrib]
  congr 1
  refine Finset.prod_congr rfl fun i _ => ?_
  have h0 : (t i : ℂ) ≠ 0 := by exact_mod_cast (mem_oc.1 ht i).1.ne'
  rw [← Complex.cpow_add _ _ h0, sub_add_cancel]

/-- The power of a parameter on which the rest does not depend. -/
theorem power_out (j : Fin N) {b : ℂ} (hb : b + 1 ≠ 0) {h : (Fin N → ℝ) → ℂ}
    (hind : ∀ t ∈ oc N, ∀ s ∈ Ioo (0:ℝ) 1, h (Function.update t j s) = h t)
    (hr : Regulated (fun t => 1 / (b + 1) * h t) v) : Regulated (fun t => (t j : ℂ) ^ b * h t) v := by
  obtain ⟨δ, c, E, H, h1, h2, h3, h4, h5, h6, h7, h8⟩ := hr
  set c' : ℝ := max (max c (c - b.re)) (max (-1) (-1 - b.re)) with hc'
  have hcc : ∀ s : ℂ, c' < s.re → c < s.re ∧ c - b.re < s.re ∧ -1 < s.re ∧ -1 - b.re < s.re := by
    intro s hs
    refine ⟨lt_of_le_of_lt ?_ hs, lt_of_le_of_lt ?_ hs, lt_of_le_of_lt ?_ hs, lt_of_le_of_lt ?_ hs⟩ <;> simp [hc']
  have hint : ∀ s : ℂ, c < s.re → IntegrableOn (fun t => (∏ i, (t i : ℂ) ^ s) * h t) (oc N) := by
    intro s hs
    have : IntegrableOn (fun t => (b + 1) * ((∏ i, (t i : ℂ) ^ s) * (1 / (b + 1) * h t))) (oc N) :=
      Integrable.const_mul (cubeIntegrable_oc.1 (h6 s hs)) (b + 1)
    refine this.congr_fun (fun t _ => ?_) measurableSet_oc
    beta_reduce
    rw [one_div, mul_left_comm, mul_inv_cancel_left₀ hb]
  have hsplit : ∀ (s d : ℂ) (t : Fin N → ℝ), t ∈ oc N → (∏ i, (t i : ℂ) ^ s) * ((t j : ℂ) ^ d * h t) =
      (t j : ℂ) ^ (s + d) * ((∏ i, (t i : ℂ) ^ (if i = j then 0 else s)) * h t) := by
    intro s d t ht
    have h0 : (t j : ℂ) ≠ 0 := by exact_mod_cast (mem_oc.1 ht j).1.ne'
    rw [Subtraction.prod_split t (fun _ => s) j, Complex.cpow_add _ _ h0]
    ring
  have hpo : ∀ s d : ℂ, -1 < (s + d).re → ∫ t in oc N, (∏ i, (t i : ℂ) ^ s) * ((t j : ℂ) ^ d * h t) =
      1 / (s + d + 1) * ∫ t in oc N, (∏ i, (t i : ℂ) ^ (if i = j then 0 else s)) * h t := by
    intro s d hs
    rw [setIntegral_congr_fun measurableSet_oc (hsplit s d), Subtraction.integral_power_out j hs]
    intro t ht x hx
    rw [hind t ht x hx]
    congr 1
    refine Finset.prod_congr rfl fun i _ => ?_
    by_cases hij : i = j
    · simp [hij]
    · rw [Function.update_of_ne hij]
  refine ⟨min δ 1, c', E ∪ {-(b + 1)}, fun s => H s * ((b + 1) * (s + 1) / (s + b + 1)), lt_min h1 one_pos, h2.union (countable_singleton _),
    h3.union isClosed_singleton, ?_, ?_, ?_, ?_, ?_⟩
  · rintro (h0 | h0)
    · exact h4 h0
    · exact hb (by rw [mem_singleton_iff] at h0; linear_combination h0)
  · refine DifferentiableOn.mul (h5.mono ?_) (DifferentiableOn.div (by fun_prop) (by fun_prop) ?_)
    · rintro s ⟨a1, a2⟩
      exact ⟨lt_of_le_of_lt (neg_le_neg (min_le_left δ 1)) a1, fun h => a2 (Or.inl h)⟩
    · rintro s ⟨-, a2⟩ h0
      exact a2 (Or.inr (by rw [mem_singleton_iff]; linear_combination h0))
  · intro s hs
    rw [cubeIntegrable_oc]
    obtain ⟨s1, s2, -, -⟩ := hcc s hs
    have hm : c < (min s.re (s + b).re) := by rw [Complex.add_re]; exact lt_min s1 (by linarith)
    have hi := hint (((min s.re (s + b).re : ℝ)) : ℂ) (by rw [Complex.ofReal_re]; exact hm)
    have hi2 := integrable_larger (b := fun i => if i = j then s + b else s) (fun i => by
      rw [Complex.ofReal_re]
      by_cases hij : i = j
      · rw [if_pos hij]; exact min_le_right _ _
      · rw [if_neg hij]; exact min_le_left _ _) hi
    refine hi2.congr_fun (fun t ht => ?_) measurableSet_oc
    beta_reduce
    rw [hsplit s b t ht, Subtraction.prod_split t (fun i => if i = j then s + b else s) j, if_pos rfl, mul_assoc]
    congr 2
    refine Finset.prod_congr rfl fun i _ => ?_
    by_cases hij : i = j <;> simp [hij]
  · intro s hs hE
    obtain ⟨s1, s2, s3, s4⟩ := hcc s hs
    have e1 : H s = 1 / (b + 1) * (1 / (s + 1) * ∫ t in oc N, (∏ i, (t i : ℂ) ^ (if i = j then 0 else s)) * h t) := by
      have := hpo s 0 (by simpa using s3)
      simp only [Complex.cpow_zero, one_mul, add_zero] at this
      rw [h7 s s1 fun h => hE (Or.inl h), cubeIntegral_oc, ← this, ← integral_const_mul]
      congr 1
      funext t; ring
    have n1 : s + 1 ≠ 0 := by
      intro h0
      have := congrArg Complex.re h0
      simp at this; linarith
    have n2 : s + b + 1 ≠ 0 := by
      intro h0
      have := congrArg Complex.re h0
      simp at this; linarith
    beta_reduce
    rw [cubeIntegral_oc, hpo s b (by rw [Complex.add_re]; linarith), e1]
    field_simp
  · beta_reduce
    rw [h8, zero_add, zero_add, mul_one, div_self hb, mul_one]

/-- An integral which converges, and still does with slightly smaller powers. -/
theorem of_integrable {δ : ℝ} (hδ : 0 < δ) (hi : IntegrableOn (fun t => (∏ i, (t i : ℂ) ^ (-(δ : ℂ))) * f t) (oc N)) :
    Regulated f (cubeIntegral f) := by
  have hint : ∀ s : ℂ, -δ ≤ s.re → IntegrableOn (fun t => (∏ i, (t i : ℂ) ^ s) * f t) (oc N) := fun s hs =>
    integrable_larger (b := fun _ => s) (fun i => by simpa using hs) hi
  refine ⟨δ, 0, ∅, fun s => cubeIntegral (fun t => (∏ i, (t i : ℂ) ^ s) * f t), hδ, countable_empty, isClosed_empty, by simp, ?_,
    fun s hs => cubeIntegrable_oc.2 (hint s (by linarith)), fun s _ _ => rfl, ?_⟩
  · rw [sdiff_empty]
    intro s hs
    simp only [mem_ofPred_eq] at hs
    simp only [cubeIntegral_oc]
    refine DifferentiableAt.differentiableWithinAt ?_
    have hr : 0 < s.re + δ := by linarith
    refine AnalyticReg.holo_param (r := s.re + δ) (B := fun t => ‖(∏ i, (t i : ℂ) ^ (-(δ : ℂ))) * f t‖) hr hi.norm ?_ ?_ ?_
    · filter_upwards [ae_restrict_mem measurableSet_oc] with t ht
      refine DifferentiableOn.mul_const ?_ _
      refine DifferentiableOn.fun_finsetProd fun i _ => ?_
      have h0 : (t i : ℂ) ≠ 0 := by exact_mod_cast (mem_oc.1 ht i).1.ne'
      exact (differentiable_id.const_cpow (Or.inl h0)).differentiableOn
    · filter_upwards [ae_restrict_mem measurableSet_oc] with t ht z hz
      rw [norm_mul, norm_mul]
      refine mul_le_mul_of_nonneg_right ?_ (norm_nonneg _)
      rw [norm_prod, norm_prod]
      refine Finset.prod_le_prod (fun i _ => norm_nonneg _) fun i _ => ?_
      have ht' := mem_oc.1 ht i
      rw [Complex.norm_cpow_eq_rpow_re_of_pos ht'.1, Complex.norm_cpow_eq_rpow_re_of_pos ht'.1]
      refine Real.rpow_le_rpow_of_exponent_ge ht'.1 ht'.2.le ?_
      have h1 : |(z - s).re| ≤ ‖z - s‖ := Complex.abs_re_le_norm _
      rw [mem_ball, dist_eq_norm] at hz
      rw [Complex.sub_re] at h1
      have h2 := (abs_le.1 h1).1
      simp only [Complex.neg_re, Complex.ofReal_re]
      linarith
    · intro z hz
      have h1 : |(z - s).re| ≤ ‖z - s‖ := Complex.abs_re_le_norm _
      rw [mem_ball, dist_eq_norm] at hz
      rw [Complex.sub_re] at h1
      have h2 := (abs_le.1 h1).1
      exact (hint z (by linarith)).aestronglyMeasurable
  · beta_reduce
    rw [cubeIntegral_oc, cubeIntegral_oc]
    simp

end SecDec.Reg
