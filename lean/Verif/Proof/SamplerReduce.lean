import Verif.Spec.Sampler
import Mathlib.Tactic.Ring
import Mathlib.Tactic.Linarith
import Mathlib.Tactic.FieldSimp
/-
Proofs for C68: the reduction.
-/
namespace SecDec
namespace Sampler

/-- The sum of the squared deviations. -/
noncomputable def dev (l : List ℝ) : ℝ := (l.map fun x => (x - mean l) ^ 2).sum

theorem sum_dev (l : List ℝ) (c : ℝ) : (l.map fun x => (x - c) ^ 2).sum = (l.map fun x => x ^ 2).sum - 2 * c * l.sum + l.length * c ^ 2 := by
  induction l with
  | nil => simp
  | cons x l ih =>
    simp only [List.map_cons, List.sum_cons, List.length_cons, ih]
    push_cast; ring

theorem dev_eq (l : List ℝ) (h : l ≠ []) : dev l = (l.map fun x => x ^ 2).sum - l.sum ^ 2 / l.length := by
  have hl : (l.length : ℝ) ≠ 0 := by simpa using h
  rw [dev, sum_dev, mean]
  field_simp
  ring

theorem dev_nonneg (l : List ℝ) : 0 ≤ dev l := by
  refine List.sum_nonneg fun x hx => ?_
  rw [List.mem_map] at hx
  obtain ⟨y, -, rfl⟩ := hx
  positivity

theorem mean_append (l : List ℝ) (s : ℝ) : mean (l ++ [s]) = mean l + (s - mean l) / (l.length + 1 : ℕ) := by
  by_cases h : l = []
  · subst h; simp [mean]
  · have hl : (l.length : ℝ) ≠ 0 := by simpa using h
    have hl1 : (l.length : ℝ) + 1 ≠ 0 := by positivity
    simp only [mean, List.sum_append, List.sum_cons, List.sum_nil, List.length_append, List.length_cons, List.length_nil]
    push_cast
    field_simp
    ring

theorem dev_append (l : List ℝ) (s : ℝ) : dev (l ++ [s]) = dev l + (s - mean l) * (s - mean (l ++ [s])) := by
  by_cases h : l = []
  · subst h; simp [dev, mean]
  · have hl : (l.length : ℝ) ≠ 0 := by simpa using h
    have hl1 : (l.length : ℝ) + 1 ≠ 0 := by positivity
    rw [dev_eq _ (by simp), dev_eq _ h]
    simp only [mean, List.map_append, List.sum_append, List.sum_cons, List.sum_nil, List.length_append, List.length_cons, List.length_nil, List.map_cons,
      List.map_nil]
    push_cast
    field_simp
    ring

/-- The state of the online algorithm after the values `l`. -/
noncomputable def online (l : List ℂ) : ℂ × ℂ :=
  (⟨mean (l.map Complex.re), mean (l.map Complex.im)⟩, ⟨dev (l.map Complex.re), dev (l.map Complex.im)⟩)

theorem reduceLoop_spec (sums l : List ℂ) : reduceLoop sums l.length (online l).1 (online l).2 = online (l ++ sums) := by
  induction sums generalizing l with
  | nil => simp [reduceLoop]
  | cons s sums ih =>
    rw [reduceLoop]
    have e1 : (online l).1 + (s - (online l).1) / ((l.length + 1 : ℕ) : ℂ) = (online (l ++ [s])).1 := by
      have hc : ((l.length + 1 : ℕ) : ℂ) = (((l.length + 1 : ℕ) : ℝ) : ℂ) := by push_cast; rfl
      apply Complex.ext
      · rw [hc, Complex.add_re, Complex.div_ofReal_re]
        simp only [online, List.map_append, List.map_cons, List.map_nil, Complex.sub_re]
        rw [mean_append, List.length_map]
      · rw [hc, Complex.add_im, Complex.div_ofReal_im]
        simp only [online, List.map_append, List.map_cons, List.map_nil, Complex.sub_im]
        rw [mean_append, List.length_map]
    have e2 : computeVariance (online (l ++ [s])).1 (online l).2 s (s - (online l).1) = (online (l ++ [s])).2 := by
      unfold computeVariance
      apply Complex.ext
      · simp only [online, List.map_append, List.map_cons, List.map_nil, Complex.add_re, Complex.sub_re]
        rw [dev_append]
      · simp only [online, List.map_append, List.map_cons, List.map_nil, Complex.add_im, Complex.sub_im]
        rw [dev_append]
    rw [e1, e2]
    have := ih (l ++ [s])
    rw [List.length_append, List.length_cons, List.length_nil, List.append_assoc] at this
    exact this

theorem online_nil : online [] = (0, 0) := by
  simp [online, mean, dev, Complex.ext_iff]

/-- The result is the one of the values `l` (sums over `n` points each), in the form of the program. -/
structure Holds (res : Result) (n : ℕ) (l : List ℂ) : Prop where
  size : res.n = n
  count : res.m = l.length
  integral : res.integral = (online l).1 / n
  error : res.error = computeError ((online l).2 / (((l.length : ℂ) - 1) * l.length * n * n))

theorem recover (n : ℕ) (hn : 0 < n) (l : List ℂ) (hl : 2 ≤ l.length) :
    varianceFromError (computeError ((online l).2 / (((l.length : ℂ) - 1) * l.length * n * n))) * (((l.length : ℂ) - 1) * l.length * n * n) = (online l).2 := by
  have hc : ((l.length : ℂ) - 1) * l.length * n * n = ((((l.length : ℝ) - 1) * l.length * n * n : ℝ) : ℂ) := by push_cast; rfl
  have hpos : 0 < ((l.length : ℝ) - 1) * l.length * n * n := by
    have h1 : (2 : ℝ) ≤ l.length := by exact_mod_cast hl
    have h2 : (0 : ℝ) < n := by exact_mod_cast hn
    have h3 : (0 : ℝ) < (l.length : ℝ) - 1 := by linarith
    positivity
  rw [hc]
  generalize ((l.length : ℝ) - 1) * l.length * n * n = c at hpos
  unfold varianceFromError computeError
  apply Complex.ext
  · rw [Complex.re_mul_ofReal, Complex.div_ofReal_re]
    dsimp only
    rw [Real.mul_self_sqrt (abs_nonneg _), abs_of_nonneg (div_nonneg (show 0 ≤ (online l).2.re from dev_nonneg _) hpos.le)]
    exact div_mul_cancel₀ _ hpos.ne'
  · rw [Complex.im_mul_ofReal, Complex.div_ofReal_im]
    dsimp only
    rw [Real.mul_self_sqrt (abs_nonneg _), abs_of_nonneg (div_nonneg (show 0 ≤ (online l).2.im from dev_nonneg _) hpos.le)]
    exact div_mul_cancel₀ _ hpos.ne'

theorem shiftSums_length (r : ℕ → ℂ) (rsize m : ℕ) : (shiftSums r rsize m).length = m := by simp [shiftSums]

/-- A first reduction for the lattice size. -/
theorem reduce_fresh (r : ℕ → ℂ) (rsize n m : ℕ) (previous : List Result) (hp : ∀ p ∈ previous.head?, p.n ≠ n) :
    Holds (reduce r rsize n m previous).1 n (shiftSums r rsize m) ∧
      (reduce r rsize n m previous).2 = (reduce r rsize n m previous).1 :: previous ∧
      (reduce r rsize n m previous).1.evaluations = n * m + (previous.head?.elim 0 Result.evaluations) := by
  have key := reduceLoop_spec (shiftSums r rsize m) []
  rw [online_nil, List.nil_append, List.length_nil] at key
  dsimp only at key
  unfold reduce
  cases previous with
  | nil =>
    dsimp only
    rw [key]
    refine ⟨⟨rfl, by rw [shiftSums_length]; rfl, rfl, ?_⟩, rfl, rfl⟩
    dsimp only
    rw [shiftSums_length, Nat.add_zero]
  | cons p l =>
    have : p.n ≠ n := hp p rfl
    simp only [this, if_false]
    rw [key]
    refine ⟨⟨rfl, by rw [shiftSums_length]; rfl, rfl, ?_⟩, trivial, rfl⟩
    dsimp only
    rw [shiftSums_length, Nat.add_zero]

/-- Additional shifts. -/
theorem reduce_more (r : ℕ → ℂ) (rsize n m : ℕ) (hn : 0 < n) (p : Result) (rest : List Result) (l : List ℂ) (hl : 2 ≤ l.length) (hp : Holds p n l) :
    Holds (reduce r rsize n m (p :: rest)).1 n (l ++ shiftSums r rsize m) ∧
      (reduce r rsize n m (p :: rest)).2 = (reduce r rsize n m (p :: rest)).1 :: rest ∧
      (reduce r rsize n m (p :: rest)).1.evaluations = n * m + p.evaluations := by
  have hn0 : (n : ℂ) ≠ 0 := by exact_mod_cast hn.ne'
  have key := reduceLoop_spec (shiftSums r rsize m) l
  have e1 : p.integral * n = (online l).1 := by rw [hp.integral]; exact div_mul_cancel₀ _ hn0
  have e2 : varianceFromError p.error * (((p.m : ℂ) - 1) * p.m * p.n * p.n) = (online l).2 := by
    rw [hp.error, hp.count, hp.size]; exact recover n hn l hl
  unfold reduce
  simp only [hp.size, if_true]
  rw [hp.size] at e2
  rw [e1, e2, hp.count, key]
  refine ⟨⟨rfl, by rw [List.length_append, shiftSums_length, Nat.add_comm], rfl, ?_⟩, trivial, trivial⟩
  dsimp only
  rw [List.length_append, shiftSums_length, Nat.add_comm]

/-- What the result says. -/
theorem estimate_of_holds (res : Result) (n : ℕ) (hn : 0 < n) (l : List ℂ) (hl : 2 ≤ l.length) (h : Holds res n l) :
    IsEstimate res (l.map (· / (n : ℂ))) := by
  have hnr : (n : ℂ) = ((n : ℝ) : ℂ) := by push_cast; rfl
  have hnp : (0 : ℝ) < n := by exact_mod_cast hn
  have h1 : (2 : ℝ) ≤ l.length := by exact_mod_cast hl
  have hre : ((l.map (· / (n : ℂ))).map Complex.re) = (l.map Complex.re).map (· / (n : ℝ)) := by
    rw [List.map_map, List.map_map]
    refine List.map_congr_left fun x _ => ?_
    simp only [Function.comp_apply, hnr, Complex.div_ofReal_re]
  have him : ((l.map (· / (n : ℂ))).map Complex.im) = (l.map Complex.im).map (· / (n : ℝ)) := by
    rw [List.map_map, List.map_map]
    refine List.map_congr_left fun x _ => ?_
    simp only [Function.comp_apply, hnr, Complex.div_ofReal_im]
  have hmean : ∀ g : List ℝ, mean (g.map (· / (n : ℝ))) = mean g / n := by
    intro g
    unfold mean
    rw [List.length_map]
    have : (g.map (· / (n : ℝ))).sum = g.sum / n := by
      induction g with
      | nil => simp
      | cons x g ih => simp only [List.map_cons, List.sum_cons, ih]; ring
    rw [this]; ring
  have hvar : ∀ g : List ℝ, g.length = l.length → meanVariance (g.map (· / (n : ℝ))) = dev g / (((l.length : ℝ) - 1) * l.length * n * n) := by
    intro g hg
    unfold meanVariance
    rw [hmean, List.length_map, hg]
    have : ((g.map (· / (n : ℝ))).map fun x => (x - mean g / n) ^ 2).sum = dev g / (n * n) := by
      unfold dev
      generalize mean g = c
      clear hg
      induction g with
      | nil => simp
      | cons x g ih => simp only [List.map_cons, List.sum_cons, ih]; field_simp
    rw [this]
    have : (0 : ℝ) < (l.length : ℝ) - 1 := by linarith
    field_simp
  have hc : ((l.length : ℂ) - 1) * l.length * n * n = ((((l.length : ℝ) - 1) * l.length * n * n : ℝ) : ℂ) := by push_cast; rfl
  have hpos : 0 < ((l.length : ℝ) - 1) * l.length * n * n := by
    have h3 : (0 : ℝ) < (l.length : ℝ) - 1 := by linarith
    positivity
  refine ⟨by rw [h.count, List.length_map], ?_, ?_, ?_, ?_⟩
  · rw [h.integral, hre, hmean, hnr, Complex.div_ofReal_re]; rfl
  · rw [h.integral, him, hmean, hnr, Complex.div_ofReal_im]; rfl
  · rw [h.error, hre, hvar _ (by simp), hc, computeError]
    dsimp only
    rw [Complex.div_ofReal_re]
    congr 1
    exact abs_of_nonneg (div_nonneg (dev_nonneg _) hpos.le)
  · rw [h.error, him, hvar _ (by simp), hc, computeError]
    dsimp only
    rw [Complex.div_ofReal_im]
    congr 1
    exact abs_of_nonneg (div_nonneg (dev_nonneg _) hpos.le)

end Sampler
end SecDec
