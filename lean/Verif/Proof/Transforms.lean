import Verif.Model.Transforms
import Verif.Proof.Warp
import Mathlib.Analysis.SpecialFunctions.Integrals.Basic
import Mathlib.Analysis.SpecialFunctions.Trigonometric.Deriv
import Mathlib.Tactic.LinearCombination
/-
Proofs for C67: the transforms of qmc.hpp.
-/
namespace SecDec
namespace Transforms
open MeasureTheory Set Qmc

theorem ipow_eq (n : ℕ) (b : ℝ) : ipow n b = b ^ n := by
  induction n using Nat.strong_induction_on with
  | _ n ih =>
    rw [ipow]
    split
    · rename_i h; subst h; simp
    · split
      · rename_i h0 h
        dsimp only
        rw [ih _ (by omega)]
        conv_rhs => rw [show n = (n - 1) / 2 + (n - 1) / 2 + 1 by omega]
        ring
      · rename_i h0 h
        dsimp only
        rw [ih _ (by omega)]
        conv_rhs => rw [show n = n / 2 + n / 2 by omega]
        ring

theorem binomial_eq (n : ℕ) : ∀ k, binomial n k = n.choose k := by
  induction n with
  | zero =>
    intro k
    rw [binomial]
    cases k <;> simp
  | succ n ih =>
    intro k
    rw [binomial]
    split
    · rename_i h; rw [Nat.choose_eq_zero_of_lt h]
    · split
      · rename_i h; subst h; simp
      · split
        · rename_i h; subst h; simp
        · rename_i h1 h2 h3
          obtain ⟨k, rfl⟩ := Nat.exists_eq_succ_of_ne_zero h2
          simp only [Nat.add_sub_cancel, Nat.succ_eq_add_one]
          rw [ih, ih, Nat.choose_succ_succ]

theorem factorial_eq (n : ℕ) : factorial n = n.factorial := by
  induction n with
  | zero => rfl
  | succ n ih => rw [factorial, ih, Nat.factorial_succ]

theorem clamp_eq {x : ℝ} (h : x ∈ Icc (0:ℝ) 1) : clamp x = x := by
  unfold clamp
  rw [if_neg (not_lt.2 h.2), if_neg (not_lt.2 h.1)]

theorem measurable_clamp : Measurable clamp := by
  unfold clamp
  refine Measurable.ite ?_ measurable_const ?_
  · have : Measurable fun x : ℝ => if x > 1 then (1:ℝ) else x := Measurable.ite measurableSet_Ioi measurable_const measurable_id
    exact this measurableSet_Iio
  · exact Measurable.ite measurableSet_Ioi measurable_const measurable_id

/-! ### The loop -/

theorem loop_spec {d : ℕ} (S : Fin d → Step) (l : List (Fin d)) (hl : l.Nodup) (c : ℝ) (x : Fin d → ℝ) :
    (loop S l (c, x)).1 = c * (l.map fun s => (S s).weight (x s)).prod ∧
      ∀ j, (loop S l (c, x)).2 j = if j ∈ l then (S j).value (x j) else x j := by
  induction l generalizing c x with
  | nil => simp [loop]
  | cons s l ih =>
    rw [List.nodup_cons] at hl
    obtain ⟨h1, h2⟩ := ih hl.2 (c * (S s).weight (x s)) (Function.update x s ((S s).value (x s)))
    rw [loop]
    have hne : ∀ j ∈ l, j ≠ s := fun j hj e => hl.1 (e ▸ hj)
    constructor
    · rw [h1, List.map_cons, List.prod_cons, mul_assoc]
      congr 3
      refine List.map_congr_left fun j hj => ?_
      rw [Function.update_of_ne (hne j hj)]
    · intro j
      rw [h2]
      by_cases hj : j ∈ l
      · rw [if_pos hj, if_pos (List.mem_cons_of_mem _ hj), Function.update_of_ne (hne j hj)]
      · rw [if_neg hj]
        by_cases hs : j = s
        · subst hs
          rw [if_pos (by simp), Function.update_self]
        · rw [if_neg (by simp [hs, hj]), Function.update_of_ne hs]

theorem loop_all {d : ℕ} (S : Fin d → Step) (x : Fin d → ℝ) :
    loop S (List.finRange d) (1, x) = (∏ j, (S j).weight (x j), fun j => (S j).value (x j)) := by
  obtain ⟨h1, h2⟩ := loop_spec S (List.finRange d) (List.nodup_finRange d) 1 x
  refine Prod.ext ?_ (funext fun j => ?_)
  · rw [h1, one_mul, ← List.ofFn_eq_map, List.prod_ofFn]
  · rw [h2, if_pos (List.mem_finRange j)]

theorem apply_eq {d : ℕ} (S : Step) (f : (Fin d → ℝ) → ℂ) (x : Fin d → ℝ) :
    apply S f x = ((∏ j, S.weight (x j) : ℝ) : ℂ) * f fun j => S.value (x j) := by
  unfold apply
  rw [loop_all]

/-! ### Korobov -/

theorem korobovCoefficient_eq (a b : ℕ) (k : ℕ) (hk : k ≤ b) :
    korobovCoefficient a b k = (-1) ^ k * (b.choose k) * ((a + b + 1) * (a + b).choose b) / (a + k + 1) := by
  induction k with
  | zero => rw [korobovCoefficient, binomial_eq]; simp
  | succ k ih =>
    rw [korobovCoefficient, ih (by omega)]
    have hc : ((b.choose (k + 1) : ℕ) : ℝ) * (k + 1) = b.choose k * (b - k) := by
      have := Nat.choose_succ_right_eq b k
      have h2 : ((b - k : ℕ) : ℝ) = (b : ℝ) - k := Nat.cast_sub (by omega)
      rw [← h2]
      exact_mod_cast this
    have e1 : ((b.choose (k + 1) : ℕ) : ℝ) = b.choose k * (b - k) / (k + 1) := by
      rw [eq_div_iff (by positivity)]; exact hc
    rw [e1]
    have h1 : (a : ℝ) + k + 1 ≠ 0 := by positivity
    have h2 : (a : ℝ) + (k + 1) + 1 ≠ 0 := by positivity
    have h3 : (k : ℝ) + 1 ≠ 0 := by positivity
    push_cast
    field_simp
    ring

theorem korobovTerm_eq (a b : ℕ) (k : ℕ) (hk : k ≤ b) (x : ℝ) :
    korobovTerm a b k x = ∑ j ∈ Finset.range (k + 1), korobovCoefficient a b (b - k + j) * x ^ j := by
  induction k with
  | zero => simp [korobovTerm]
  | succ k ih =>
    rw [korobovTerm, ih (by omega), Finset.sum_mul, Finset.sum_range_succ' _ (k + 1)]
    simp only [add_zero, pow_zero, mul_one]
    congr 1
    refine Finset.sum_congr rfl fun j _ => ?_
    rw [show b - (k + 1) + (j + 1) = b - k + j by omega]
    ring

/-- The Korobov transform as a polynomial. -/
theorem korobov_poly (a b : ℕ) (x : ℝ) :
    ipow (a + 1) x * korobovTerm a b b x =
      ((a + b + 1) * (a + b).choose b) * ∑ j ∈ Finset.range (b + 1), (-1) ^ j * (b.choose j) * (x ^ (a + j + 1) / (a + j + 1)) := by
  rw [ipow_eq, korobovTerm_eq a b b le_rfl, Finset.mul_sum, Finset.mul_sum]
  refine Finset.sum_congr rfl fun j hj => ?_
  rw [Nat.sub_self, zero_add, korobovCoefficient_eq a b j (by rw [Finset.mem_range] at hj; omega)]
  ring

theorem korobov_deriv (a b : ℕ) (x : ℝ) :
    HasDerivAt (fun x => ipow (a + 1) x * korobovTerm a b b x) (((a + b + 1) * (a + b).choose b) * x ^ a * (1 - x) ^ b) x := by
  simp only [korobov_poly]
  have h : HasDerivAt (fun x : ℝ => ∑ j ∈ Finset.range (b + 1), (-1) ^ j * (b.choose j : ℝ) * (x ^ (a + j + 1) / (a + j + 1)))
      (∑ j ∈ Finset.range (b + 1), (-1) ^ j * (b.choose j : ℝ) * x ^ (a + j)) x := by
    refine HasDerivAt.fun_sum fun j _ => ?_
    have := ((hasDerivAt_pow (a + j + 1) x).div_const ((a : ℝ) + j + 1)).const_mul ((-1) ^ j * (b.choose j : ℝ))
    refine this.congr_deriv ?_
    have h1 : (a : ℝ) + j + 1 ≠ 0 := by positivity
    rw [Nat.add_sub_cancel]
    push_cast
    field_simp
  refine (h.const_mul _).congr_deriv ?_
  rw [show (1 - x) ^ b = (-x + 1) ^ b by ring, add_pow, mul_assoc _ (x ^ a), Finset.mul_sum (a := x ^ a)]
  congr 1
  refine Finset.sum_congr rfl fun j _ => ?_
  rw [one_pow, neg_pow, pow_add]
  ring

theorem beta_sum (a b : ℕ) : ∑ j ∈ Finset.range (b + 1), (-1 : ℝ) ^ j * (b.choose j) * (1 / (a + j + 1)) =
    a.factorial * b.factorial / (a + b + 1).factorial := by
  induction b generalizing a with
  | zero =>
    simp only [zero_add, Finset.sum_range_one, pow_zero, Nat.choose_self, Nat.cast_one, mul_one, one_mul, Nat.cast_zero, add_zero,
      Nat.factorial_zero, Nat.factorial_succ]
    push_cast
    have : (a.factorial : ℝ) ≠ 0 := by positivity
    field_simp
  | succ b ih =>
    have split : ∑ j ∈ Finset.range (b + 1 + 1), (-1 : ℝ) ^ j * ((b + 1).choose j) * (1 / (a + j + 1)) =
        (∑ j ∈ Finset.range (b + 1), (-1 : ℝ) ^ j * (b.choose j) * (1 / (a + j + 1))) -
          ∑ j ∈ Finset.range (b + 1), (-1 : ℝ) ^ j * (b.choose j) * (1 / ((a + 1 : ℕ) + j + 1)) := by
      rw [Finset.sum_range_succ' _ (b + 1)]
      have h1 : ∑ j ∈ Finset.range (b + 1), (-1 : ℝ) ^ j * (b.choose j) * (1 / (a + j + 1)) =
          (∑ j ∈ Finset.range (b + 1), (-1 : ℝ) ^ (j + 1) * (b.choose (j + 1)) * (1 / (a + (j + 1 : ℕ) + 1))) + 1 / (a + 1) := by
        rw [Finset.sum_range_succ' _ b, Finset.sum_range_succ _ b, Nat.choose_succ_self]
        simp
      rw [h1, add_sub_right_comm, ← Finset.sum_sub_distrib]
      congr 1
      · refine Finset.sum_congr rfl fun j _ => ?_
        rw [Nat.choose_succ_succ]
        push_cast
        rw [pow_succ]
        have h2 : (a : ℝ) + (j + 1) + 1 ≠ 0 := by positivity
        have h3 : (a : ℝ) + 1 + j + 1 ≠ 0 := by positivity
        field_simp
        ring
      · simp
    rw [split, ih a, ih (a + 1)]
    have f1 : ((a + 1).factorial : ℝ) = (a + 1) * a.factorial := by rw [Nat.factorial_succ]; push_cast; ring
    have f2 : ((b + 1).factorial : ℝ) = (b + 1) * b.factorial := by rw [Nat.factorial_succ]; push_cast; ring
    have f3 : ((a + 1 + b + 1).factorial : ℝ) = (a + b + 2) * (a + b + 1).factorial := by
      rw [show a + 1 + b + 1 = (a + b + 1) + 1 by ring, Nat.factorial_succ]; push_cast; ring
    have f4 : ((a + (b + 1) + 1).factorial : ℝ) = (a + b + 2) * (a + b + 1).factorial := by
      rw [show a + (b + 1) + 1 = (a + b + 1) + 1 by ring, Nat.factorial_succ]; push_cast; ring
    rw [f1, f2, f3, f4]
    have g1 : ((a + b + 1).factorial : ℝ) ≠ 0 := by positivity
    have g2 : (a : ℝ) + b + 2 ≠ 0 := by positivity
    field_simp
    ring

theorem korobov_one (a b : ℕ) : ipow (a + 1) 1 * korobovTerm a b b 1 = 1 := by
  rw [korobov_poly]
  simp only [one_pow]
  rw [beta_sum]
  have h : ((a + b).choose b : ℝ) * a.factorial * b.factorial = (a + b).factorial := by
    have := Nat.choose_mul_factorial_mul_factorial (n := a + b) (k := b) (by omega)
    rw [Nat.add_sub_cancel] at this
    rw [← this]; push_cast; ring
  have f : ((a + b + 1).factorial : ℝ) = (a + b + 1) * (a + b).factorial := by rw [Nat.factorial_succ]; push_cast; ring
  have g1 : ((a + b).factorial : ℝ) ≠ 0 := by positivity
  have g2 : (a : ℝ) + b + 1 ≠ 0 := by positivity
  rw [f]
  field_simp
  linear_combination h

theorem korobov_zero (a b : ℕ) : ipow (a + 1) 0 * korobovTerm a b b 0 = 0 := by
  rw [ipow_eq]; simp

theorem korobov_weight (a b : ℕ) (x : ℝ) : (korobovStep a b).weight x = ((a + b + 1) * (a + b).choose b) * x ^ a * (1 - x) ^ b := by
  show ((a : ℝ) + b + 1) * binomial (a + b) a * ipow a x * ipow b (1 - x) = _
  rw [ipow_eq, ipow_eq, binomial_eq, Nat.choose_symm_add]

theorem korobov_range (a b : ℕ) {x : ℝ} (hx : x ∈ Icc (0:ℝ) 1) : ipow (a + 1) x * korobovTerm a b b x ∈ Icc (0:ℝ) 1 := by
  have hpos : (0:ℝ) < (a + b + 1) * (a + b).choose b := by
    have : 0 < (a + b).choose b := Nat.choose_pos (by omega)
    positivity
  have := (image_of_deriv (f := fun x => ipow (a + 1) x * korobovTerm a b b x) (w := fun x => ((a + b + 1) * (a + b).choose b) * x ^ a * (1 - x) ^ b)
    (fun x _ => korobov_deriv a b x) (fun x hx => mul_pos (mul_pos hpos (pow_pos hx.1 _)) (pow_pos (sub_pos.2 hx.2) _))
    (korobov_zero a b) (korobov_one a b)).2
  rw [← this]
  exact ⟨x, hx, rfl⟩

theorem korobov_warp (a b : ℕ) : Warp (korobovStep a b).value (korobovStep a b).weight := by
  have hpos : (0:ℝ) < (a + b + 1) * (a + b).choose b := by
    have : 0 < (a + b).choose b := Nat.choose_pos (by omega)
    positivity
  have hc : Continuous fun x => ipow (a + 1) x * korobovTerm a b b x :=
    continuous_iff_continuousAt.2 fun x => (korobov_deriv a b x).continuousAt
  have hw : (korobovStep a b).weight = fun x : ℝ => (((a : ℝ) + b + 1) * (a + b).choose b) * x ^ a * (1 - x) ^ b := funext (korobov_weight a b)
  have hwm : Measurable (korobovStep a b).weight := by rw [hw]; exact (by fun_prop : Continuous _).measurable
  have h := warp_of_deriv hc.measurable (w := fun x : ℝ => ((a + b + 1) * (a + b).choose b) * x ^ a * (1 - x) ^ b)
    (by fun_prop : Continuous _).measurable
    (fun x _ => korobov_deriv a b x) (fun x hx => mul_nonneg (mul_nonneg hpos.le (pow_nonneg hx.1 _)) (pow_nonneg (sub_nonneg.2 hx.2) _))
    (fun x hx => mul_pos (mul_pos hpos (pow_pos hx.1 _)) (pow_pos (sub_pos.2 hx.2) _)) (korobov_zero a b) (korobov_one a b)
  refine h.congr (measurable_clamp.comp hc.measurable) hwm (fun x hx => clamp_eq (korobov_range a b hx)) fun x _ => korobov_weight a b x

/-! ### Sidi -/

/-- The powers of the sine, from the binomial theorem. -/
theorem sin_pow_complex (r : ℕ) (θ : ℂ) :
    (2 * Complex.I * Complex.sin θ) ^ r = ∑ k ∈ Finset.range (r + 1), (-1) ^ k * (r.choose k : ℂ) * Complex.exp (((r : ℂ) - 2 * k) * θ * Complex.I) := by
  have h : 2 * Complex.I * Complex.sin θ = -Complex.exp (-θ * Complex.I) + Complex.exp (θ * Complex.I) := by
    rw [Complex.sin]
    have := Complex.I_sq
    linear_combination (Complex.exp (-θ * Complex.I) - Complex.exp (θ * Complex.I)) * this
  rw [h, add_pow]
  refine Finset.sum_congr rfl fun k hk => ?_
  have hk' : k ≤ r := by rw [Finset.mem_range] at hk; omega
  rw [neg_pow, ← Complex.exp_nat_mul, ← Complex.exp_nat_mul, mul_assoc ((-1 : ℂ) ^ k), ← Complex.exp_add, Nat.cast_sub hk']
  rw [show (k : ℂ) * (-θ * Complex.I) + ((r : ℂ) - k) * (θ * Complex.I) = ((r : ℂ) - 2 * k) * θ * Complex.I by ring]
  ring

theorem sign_sub {m k : ℕ} (h : k ≤ m) : (-1 : ℝ) ^ (m - k) = (-1) ^ m * (-1) ^ k := by
  obtain ⟨j, rfl⟩ := Nat.exists_eq_add_of_le h
  rw [Nat.add_sub_cancel_left, pow_add, mul_right_comm, ← mul_pow]
  simp

theorem sin_pow_odd (m : ℕ) (θ : ℝ) : Real.sin θ ^ (2 * m + 1) =
    1 / 2 ^ (2 * m) * ∑ k ∈ Finset.range (m + 1), (-1) ^ (m - k) * ((2 * m + 1).choose k : ℝ) * Real.sin (((2 * m + 1 : ℕ) - 2 * (k : ℝ)) * θ) := by
  have h := sin_pow_complex (2 * m + 1) θ
  rw [show 2 * m + 1 + 1 = (m + 1) + (m + 1) by ring, Finset.sum_range_add, ← Finset.sum_range_reflect (fun x => _) (m + 1),
    ← Finset.sum_add_distrib] at h
  have e : ∀ k ∈ Finset.range (m + 1),
      ((-1 : ℂ) ^ (m + 1 - 1 - k) * ((2 * m + 1).choose (m + 1 - 1 - k) : ℂ) *
          Complex.exp ((((2 * m + 1 : ℕ) : ℂ) - 2 * (m + 1 - 1 - k : ℕ)) * θ * Complex.I)) +
        (-1 : ℂ) ^ (m + 1 + k) * ((2 * m + 1).choose (m + 1 + k) : ℂ) *
          Complex.exp ((((2 * m + 1 : ℕ) : ℂ) - 2 * (m + 1 + k : ℕ)) * θ * Complex.I) =
      2 * Complex.I * ((-1) ^ (m - k) * ((2 * m + 1).choose (m - k) : ℂ) * Complex.sin ((((2 * m + 1 : ℕ) : ℂ) - 2 * (m - k : ℕ)) * θ)) := by
    intro k hk
    rw [Finset.mem_range] at hk
    have hk' : k ≤ m := by omega
    rw [show m + 1 - 1 - k = m - k by omega]
    rw [show (2 * m + 1).choose (m + 1 + k) = (2 * m + 1).choose (m - k) from by
      rw [← Nat.choose_symm (show m - k ≤ 2 * m + 1 by omega)]; congr 1; omega]
    have hs : (-1 : ℂ) ^ (m + 1 + k) = -(-1) ^ (m - k) := by
      rw [show m + 1 + k = (m - k) + 1 + 2 * k by omega, pow_add, pow_mul, pow_succ]; simp
    rw [hs, Complex.sin]
    rw [show (((2 * m + 1 : ℕ) : ℂ) - 2 * (m + 1 + k : ℕ)) * θ * Complex.I = -((((2 * m + 1 : ℕ) : ℂ) - 2 * (m - k : ℕ)) * θ) * Complex.I by
      rw [Nat.cast_sub hk']; push_cast; ring]
    have := Complex.I_sq
    linear_combination ((-1) ^ (m - k) * ((2 * m + 1).choose (m - k) : ℂ) *
      (Complex.exp (-((((2 * m + 1 : ℕ) : ℂ) - 2 * (m - k : ℕ)) * θ) * Complex.I) -
        Complex.exp ((((2 * m + 1 : ℕ) : ℂ) - 2 * (m - k : ℕ)) * θ * Complex.I))) * (-this)
  rw [Finset.sum_congr rfl e, ← Finset.mul_sum] at h
  have hr : ∑ k ∈ Finset.range (m + 1), ((-1) ^ (m - k) * ((2 * m + 1).choose (m - k) : ℂ) * Complex.sin ((((2 * m + 1 : ℕ) : ℂ) - 2 * (m - k : ℕ)) * θ))
      = ∑ k ∈ Finset.range (m + 1), ((-1) ^ k * ((2 * m + 1).choose k : ℂ) * Complex.sin ((((2 * m + 1 : ℕ) : ℂ) - 2 * (k : ℕ)) * θ)) := by
    rw [← Finset.sum_range_reflect (fun k => (-1) ^ k * ((2 * m + 1).choose k : ℂ) * Complex.sin ((((2 * m + 1 : ℕ) : ℂ) - 2 * (k : ℕ)) * θ)) (m + 1)]
    refine Finset.sum_congr rfl fun k _ => ?_
    rw [show m + 1 - 1 - k = m - k by omega]
  rw [hr, mul_pow, show (2 * Complex.I) ^ (2 * m + 1) = 2 * Complex.I * (-4) ^ m by
    rw [pow_succ, pow_mul, mul_pow, Complex.I_sq]; norm_num; ring, mul_assoc] at h
  have h2 := mul_left_cancel₀ (by simp) h
  have h3 : ((((-4) ^ m * Real.sin θ ^ (2 * m + 1) : ℝ)) : ℂ) =
      ((∑ k ∈ Finset.range (m + 1), (-1) ^ k * ((2 * m + 1).choose k : ℝ) * Real.sin (((2 * m + 1 : ℕ) - 2 * (k : ℝ)) * θ) : ℝ) : ℂ) := by
    push_cast
    push_cast at h2
    exact h2
  have h4 := Complex.ofReal_injective h3
  have h5 : ∑ k ∈ Finset.range (m + 1), (-1) ^ (m - k) * ((2 * m + 1).choose k : ℝ) * Real.sin (((2 * m + 1 : ℕ) - 2 * (k : ℝ)) * θ) =
      (-1) ^ m * ∑ k ∈ Finset.range (m + 1), (-1) ^ k * ((2 * m + 1).choose k : ℝ) * Real.sin (((2 * m + 1 : ℕ) - 2 * (k : ℝ)) * θ) := by
    rw [Finset.mul_sum]
    refine Finset.sum_congr rfl fun k hk => ?_
    rw [sign_sub (by rw [Finset.mem_range] at hk; omega)]
    ring
  rw [h5, ← h4, show (-4 : ℝ) = (-1) * 4 by norm_num, mul_pow, pow_mul (2:ℝ)]
  have h6 : ((-1 : ℝ) ^ m) * (-1) ^ m = 1 := by rw [← mul_pow]; simp
  norm_num
  field_simp
  linear_combination -(Real.sin θ ^ (2 * m + 1)) * h6

theorem sin_pow_even (m : ℕ) (θ : ℝ) : Real.sin θ ^ (2 * m) =
    1 / 2 ^ (2 * m) * (((2 * m).choose m : ℝ) +
      2 * ∑ k ∈ Finset.range m, (-1) ^ (m - k) * ((2 * m).choose k : ℝ) * Real.cos (((2 * m : ℕ) - 2 * (k : ℝ)) * θ)) := by
  have h := sin_pow_complex (2 * m) θ
  rw [show 2 * m + 1 = m + (m + 1) by ring, Finset.sum_range_add, Finset.sum_range_succ' _ m,
    ← Finset.sum_range_reflect (fun x => (-1 : ℂ) ^ x * ((2 * m).choose x : ℂ) * Complex.exp ((((2 * m : ℕ) : ℂ) - 2 * (x : ℕ)) * θ * Complex.I)) m,
    ← add_assoc, ← Finset.sum_add_distrib] at h
  have e : ∀ k ∈ Finset.range m,
      ((-1 : ℂ) ^ (m - 1 - k) * ((2 * m).choose (m - 1 - k) : ℂ) *
          Complex.exp ((((2 * m : ℕ) : ℂ) - 2 * (m - 1 - k : ℕ)) * θ * Complex.I)) +
        (-1 : ℂ) ^ (m + (k + 1)) * ((2 * m).choose (m + (k + 1)) : ℂ) *
          Complex.exp ((((2 * m : ℕ) : ℂ) - 2 * (m + (k + 1) : ℕ)) * θ * Complex.I) =
      2 * ((-1) ^ (m - 1 - k) * ((2 * m).choose (m - 1 - k) : ℂ) * Complex.cos ((((2 * m : ℕ) : ℂ) - 2 * (m - 1 - k : ℕ)) * θ)) := by
    intro k hk
    rw [Finset.mem_range] at hk
    rw [show (2 * m).choose (m + (k + 1)) = (2 * m).choose (m - 1 - k) from by
      rw [← Nat.choose_symm (show m - 1 - k ≤ 2 * m by omega)]; congr 1; omega]
    have hs : (-1 : ℂ) ^ (m + (k + 1)) = (-1) ^ (m - 1 - k) := by
      rw [show m + (k + 1) = (m - 1 - k) + 2 * (k + 1) by omega, pow_add, pow_mul]; simp
    rw [hs, Complex.cos]
    have hc : ((m - 1 - k : ℕ) : ℂ) = (m : ℂ) - 1 - k := by
      rw [Nat.cast_sub (by omega), Nat.cast_sub (by omega)]; simp
    rw [show (((2 * m : ℕ) : ℂ) - 2 * (m + (k + 1) : ℕ)) * θ * Complex.I = -((((2 * m : ℕ) : ℂ) - 2 * (m - 1 - k : ℕ)) * θ) * Complex.I by
      rw [hc]; push_cast; ring]
    ring
  rw [Finset.sum_congr rfl e, ← Finset.mul_sum] at h
  have hr : ∑ k ∈ Finset.range m, ((-1) ^ (m - 1 - k) * ((2 * m).choose (m - 1 - k) : ℂ) * Complex.cos ((((2 * m : ℕ) : ℂ) - 2 * (m - 1 - k : ℕ)) * θ))
      = ∑ k ∈ Finset.range m, ((-1) ^ k * ((2 * m).choose k : ℂ) * Complex.cos ((((2 * m : ℕ) : ℂ) - 2 * (k : ℕ)) * θ)) :=
    Finset.sum_range_reflect (fun k => (-1) ^ k * ((2 * m).choose k : ℂ) * Complex.cos ((((2 * m : ℕ) : ℂ) - 2 * (k : ℕ)) * θ)) m
  rw [hr, mul_pow, show (2 * Complex.I) ^ (2 * m) = (-4) ^ m by
    rw [pow_mul, mul_pow, Complex.I_sq]; norm_num] at h
  have h3 : ((((-4) ^ m * Real.sin θ ^ (2 * m) : ℝ)) : ℂ) =
      ((2 * ∑ k ∈ Finset.range m, (-1) ^ k * ((2 * m).choose k : ℝ) * Real.cos (((2 * m : ℕ) - 2 * (k : ℝ)) * θ) +
        (-1) ^ m * ((2 * m).choose m : ℝ) : ℝ) : ℂ) := by
    push_cast
    push_cast at h
    rw [h]
    simp
  have h4 := Complex.ofReal_injective h3
  have h5 : ∑ k ∈ Finset.range m, (-1) ^ (m - k) * ((2 * m).choose k : ℝ) * Real.cos (((2 * m : ℕ) - 2 * (k : ℝ)) * θ) =
      (-1) ^ m * ∑ k ∈ Finset.range m, (-1) ^ k * ((2 * m).choose k : ℝ) * Real.cos (((2 * m : ℕ) - 2 * (k : ℝ)) * θ) := by
    rw [Finset.mul_sum]
    refine Finset.sum_congr rfl fun k hk => ?_
    rw [sign_sub (by rw [Finset.mem_range] at hk; omega)]
    ring
  have h6 : ((-1 : ℝ) ^ m) * (-1) ^ m = 1 := by rw [← mul_pow]; simp
  rw [show (-4 : ℝ) = (-1) * 4 by norm_num, mul_pow] at h4
  have h7 : (2 : ℝ) ^ (2 * m) = 4 ^ m := by rw [pow_mul]; norm_num
  rw [h5, h7, one_div, ← div_eq_inv_mul, eq_div_iff (by positivity)]
  linear_combination (-1 : ℝ) ^ m * h4 - (Real.sin θ ^ (2 * m) * 4 ^ m - ((2 * m).choose m : ℝ)) * h6

theorem sidiTerm_odd (m k : ℕ) (x : ℝ) : sidiTerm (2 * m + 1) k x =
    ∑ j ∈ Finset.range (k + 1), sidiCoefficient (2 * m + 1) j * (Real.cos ((2 * (j : ℝ) - (2 * m + 1 : ℕ)) * Real.pi * x) - 1) := by
  have hr : (2 * m + 1) % 2 ≠ 0 := by omega
  induction k with
  | zero =>
    rw [sidiTerm, if_pos hr]
    simp
  | succ k ih =>
    rw [sidiTerm, if_pos hr, ih, Finset.sum_range_succ _ (k + 1), add_comm]
    push_cast; rfl

theorem sidiTerm_even (m k : ℕ) (x : ℝ) : sidiTerm (2 * m) k x =
    (∑ j ∈ Finset.range (k + 1), sidiCoefficient (2 * m) j * Real.sin ((2 * (j : ℝ) - (2 * m : ℕ)) * Real.pi * x))
      + 1 / 2 * Real.pi * ((2 * m).choose m : ℝ) * x := by
  have hr : ¬ (2 * m) % 2 ≠ 0 := by omega
  induction k with
  | zero =>
    rw [sidiTerm, if_neg hr, binomial_eq, show 2 * m / 2 = m by omega]
    simp
  | succ k ih =>
    rw [sidiTerm, if_neg hr, ih, Finset.sum_range_succ _ (k + 1)]
    push_cast; ring

theorem sidi_deriv_odd (m : ℕ) (x : ℝ) :
    HasDerivAt (sidiTerm (2 * m + 1) m) (Real.pi * 4 ^ m * Real.sin (Real.pi * x) ^ (2 * m + 1)) x := by
  rw [show sidiTerm (2 * m + 1) m = fun x => ∑ j ∈ Finset.range (m + 1),
    sidiCoefficient (2 * m + 1) j * (Real.cos ((2 * (j : ℝ) - (2 * m + 1 : ℕ)) * Real.pi * x) - 1) from funext fun x => sidiTerm_odd m m x]
  have h : ∀ j ∈ Finset.range (m + 1), HasDerivAt
      (fun x : ℝ => sidiCoefficient (2 * m + 1) j * (Real.cos ((2 * (j : ℝ) - (2 * m + 1 : ℕ)) * Real.pi * x) - 1))
      (sidiCoefficient (2 * m + 1) j * (-Real.sin ((2 * (j : ℝ) - (2 * m + 1 : ℕ)) * Real.pi * x) *
        ((2 * (j : ℝ) - (2 * m + 1 : ℕ)) * Real.pi))) x := by
    intro j _
    have h1 : HasDerivAt (fun x : ℝ => (2 * (j : ℝ) - (2 * m + 1 : ℕ)) * Real.pi * x) ((2 * (j : ℝ) - (2 * m + 1 : ℕ)) * Real.pi) x := by
      simpa using (hasDerivAt_id x).const_mul ((2 * (j : ℝ) - (2 * m + 1 : ℕ)) * Real.pi)
    exact (h1.cos.sub_const 1).const_mul _
  refine (HasDerivAt.fun_sum h).congr_deriv ?_
  rw [sin_pow_odd, show (2:ℝ) ^ (2 * m) = 4 ^ m by rw [pow_mul]; norm_num]
  rw [show Real.pi * 4 ^ m * (1 / 4 ^ m * ∑ k ∈ Finset.range (m + 1), (-1 : ℝ) ^ (m - k) * ((2 * m + 1).choose k : ℝ) *
      Real.sin (((2 * m + 1 : ℕ) - 2 * (k : ℝ)) * (Real.pi * x))) = Real.pi * ∑ k ∈ Finset.range (m + 1), (-1 : ℝ) ^ (m - k) * ((2 * m + 1).choose k : ℝ) *
      Real.sin (((2 * m + 1 : ℕ) - 2 * (k : ℝ)) * (Real.pi * x)) by
    rw [← mul_assoc]; congr 1; field_simp, Finset.mul_sum]
  refine Finset.sum_congr rfl fun j hj => ?_
  rw [Finset.mem_range] at hj
  rw [sidiCoefficient, if_pos (by omega), ipow_eq, binomial_eq, show (2 * m + 1 - 1) / 2 = m by omega]
  have hn : (2 * (j : ℝ) - (2 * m + 1 : ℕ)) ≠ 0 := by
    rw [sub_ne_zero]; norm_cast; omega
  rw [show ((2 * m + 1 : ℕ) - 2 * (j : ℝ)) * (Real.pi * x) = -((2 * (j : ℝ) - (2 * m + 1 : ℕ)) * Real.pi * x) by ring, Real.sin_neg]
  generalize hc : (2 * (j : ℝ) - (2 * m + 1 : ℕ)) = c at hn
  field_simp

theorem sidi_deriv_even (m : ℕ) (x : ℝ) :
    HasDerivAt (sidiTerm (2 * (m + 1)) m) (Real.pi / 2 * 4 ^ (m + 1) * Real.sin (Real.pi * x) ^ (2 * (m + 1))) x := by
  rw [show sidiTerm (2 * (m + 1)) m = fun x => (∑ j ∈ Finset.range (m + 1),
    sidiCoefficient (2 * (m + 1)) j * Real.sin ((2 * (j : ℝ) - (2 * (m + 1) : ℕ)) * Real.pi * x))
      + 1 / 2 * Real.pi * ((2 * (m + 1)).choose (m + 1) : ℝ) * x from funext fun x => sidiTerm_even (m + 1) m x]
  have h : ∀ j ∈ Finset.range (m + 1), HasDerivAt
      (fun x : ℝ => sidiCoefficient (2 * (m + 1)) j * Real.sin ((2 * (j : ℝ) - (2 * (m + 1) : ℕ)) * Real.pi * x))
      (sidiCoefficient (2 * (m + 1)) j * (Real.cos ((2 * (j : ℝ) - (2 * (m + 1) : ℕ)) * Real.pi * x) *
        ((2 * (j : ℝ) - (2 * (m + 1) : ℕ)) * Real.pi))) x := by
    intro j _
    have h1 : HasDerivAt (fun x : ℝ => (2 * (j : ℝ) - (2 * (m + 1) : ℕ)) * Real.pi * x) ((2 * (j : ℝ) - (2 * (m + 1) : ℕ)) * Real.pi) x := by
      simpa using (hasDerivAt_id x).const_mul ((2 * (j : ℝ) - (2 * (m + 1) : ℕ)) * Real.pi)
    exact h1.sin.const_mul _
  have h2 : HasDerivAt (fun x : ℝ => 1 / 2 * Real.pi * ((2 * (m + 1)).choose (m + 1) : ℝ) * x)
      (1 / 2 * Real.pi * ((2 * (m + 1)).choose (m + 1) : ℝ)) x := by
    simpa using (hasDerivAt_id x).const_mul (1 / 2 * Real.pi * ((2 * (m + 1)).choose (m + 1) : ℝ))
  refine ((HasDerivAt.fun_sum h).add h2).congr_deriv ?_
  rw [sin_pow_even, show (2:ℝ) ^ (2 * (m + 1)) = 4 ^ (m + 1) by rw [pow_mul]; norm_num]
  have e : ∑ j ∈ Finset.range (m + 1), sidiCoefficient (2 * (m + 1)) j * (Real.cos ((2 * (j : ℝ) - (2 * (m + 1) : ℕ)) * Real.pi * x) *
        ((2 * (j : ℝ) - (2 * (m + 1) : ℕ)) * Real.pi)) =
      Real.pi * ∑ k ∈ Finset.range (m + 1), (-1) ^ (m + 1 - k) * ((2 * (m + 1)).choose k : ℝ) *
        Real.cos (((2 * (m + 1) : ℕ) - 2 * (k : ℝ)) * (Real.pi * x)) := by
    rw [Finset.mul_sum]
    refine Finset.sum_congr rfl fun j hj => ?_
    rw [Finset.mem_range] at hj
    rw [sidiCoefficient, if_neg (by omega), ipow_eq, binomial_eq, show 2 * (m + 1) / 2 = m + 1 by omega]
    have hn : (2 * (j : ℝ) - (2 * (m + 1) : ℕ)) ≠ 0 := by
      rw [sub_ne_zero]; norm_cast; omega
    rw [show ((2 * (m + 1) : ℕ) - 2 * (j : ℝ)) * (Real.pi * x) = -((2 * (j : ℝ) - (2 * (m + 1) : ℕ)) * Real.pi * x) by ring, Real.cos_neg]
    generalize hc : (2 * (j : ℝ) - (2 * (m + 1) : ℕ)) = c at hn
    field_simp
  rw [e]
  generalize ∑ k ∈ Finset.range (m + 1), (-1 : ℝ) ^ (m + 1 - k) * ((2 * (m + 1)).choose k : ℝ) *
        Real.cos (((2 * (m + 1) : ℕ) - 2 * (k : ℝ)) * (Real.pi * x)) = S
  generalize ((2 * (m + 1)).choose (m + 1) : ℝ) = C
  have h4 : (4 : ℝ) ^ (m + 1) ≠ 0 := by positivity
  generalize (4 : ℝ) ^ (m + 1) = q at h4
  field_simp
  ring

theorem prod_odd (m : ℕ) : (∏ i ∈ Finset.range m, (2 * (i : ℝ) + 2) / (2 * i + 3)) = 4 ^ m * (m.factorial : ℝ) ^ 2 / (2 * m + 1).factorial := by
  induction m with
  | zero => simp
  | succ m ih =>
    rw [Finset.prod_range_succ, ih, show 2 * (m + 1) + 1 = (2 * m + 1) + 1 + 1 by ring, Nat.factorial_succ (2 * m + 1 + 1),
      Nat.factorial_succ (2 * m + 1), Nat.factorial_succ m]
    push_cast
    field_simp
    ring

theorem prod_even (m : ℕ) : (∏ i ∈ Finset.range m, (2 * (i : ℝ) + 1) / (2 * i + 2)) = ((2 * m).factorial : ℝ) / (4 ^ m * (m.factorial : ℝ) ^ 2) := by
  induction m with
  | zero => simp
  | succ m ih =>
    rw [Finset.prod_range_succ, ih, show 2 * (m + 1) = (2 * m) + 1 + 1 by ring, Nat.factorial_succ (2 * m + 1),
      Nat.factorial_succ (2 * m), Nat.factorial_succ m]
    push_cast
    field_simp
    ring

theorem sidi_integral (r : ℕ) : ∫ x in (0:ℝ)..1, Real.sin (Real.pi * x) ^ r = Real.pi⁻¹ * ∫ x in (0:ℝ)..Real.pi, Real.sin x ^ r := by
  rw [intervalIntegral.integral_comp_mul_left (fun x => Real.sin x ^ r) Real.pi_ne_zero]
  simp

theorem sidi_ends {T : ℝ → ℝ} {c : ℝ} {r : ℕ} (h : ∀ x, HasDerivAt T (c * Real.sin (Real.pi * x) ^ r) x) :
    T 1 - T 0 = c * (Real.pi⁻¹ * ∫ x in (0:ℝ)..Real.pi, Real.sin x ^ r) := by
  have := intervalIntegral.integral_eq_sub_of_hasDerivAt (a := 0) (b := 1) (fun x _ => h x)
    ((by fun_prop : Continuous fun x : ℝ => c * Real.sin (Real.pi * x) ^ r).intervalIntegrable _ _)
  rw [← this, intervalIntegral.integral_const_mul, sidi_integral]

/-- The unclamped value and the weight of the transform of Sidi, in terms of the usual functions. -/
theorem sidi_facts (r : ℕ) (hr : r ≠ 0) : ∃ T : ℝ → ℝ, (∀ x, (sidiStep r).value x = clamp (T x)) ∧
    (∃ c : ℝ, 0 < c ∧ (∀ x, (sidiStep r).weight x = c * Real.sin (Real.pi * x) ^ r)) ∧
    (∀ x, HasDerivAt T ((sidiStep r).weight x) x) ∧ T 0 = 0 ∧ T 1 = 1 := by
  rcases Nat.even_or_odd' r with ⟨m, rfl | rfl⟩
  · obtain ⟨m, rfl⟩ : ∃ k, m = k + 1 := ⟨m - 1, by omega⟩
    have hw : ∀ x, (sidiStep (2 * (m + 1))).weight x =
        (2 ^ (2 * m) * ((2 * (m + 1) : ℕ) : ℝ) * (m.factorial : ℝ) * (m.factorial : ℝ) / ((2 * m + 1).factorial : ℝ)) *
          Real.sin (Real.pi * x) ^ (2 * (m + 1)) := by
      intro x
      simp only [sidiStep, if_neg hr, if_neg (show ¬ (2 * (m + 1)) % 2 ≠ 0 by omega), ipow_eq, factorial_eq,
        show 2 * (m + 1) - 2 = 2 * m by omega, show 2 * (m + 1) / 2 - 1 = m by omega, show 2 * (m + 1) - 1 = 2 * m + 1 by omega]
    set c : ℝ := 2 ^ (2 * m) * ((2 * (m + 1) : ℕ) : ℝ) * (m.factorial : ℝ) * (m.factorial : ℝ) / ((2 * m + 1).factorial : ℝ) with hc
    have hd : ∀ x, HasDerivAt (fun x => (((2 * (m + 1) : ℕ) : ℝ) / 2 / Real.pi * (m.factorial : ℝ) * (m.factorial : ℝ) / ((2 * m + 1).factorial : ℝ))
        * sidiTerm (2 * (m + 1)) m x) (c * Real.sin (Real.pi * x) ^ (2 * (m + 1))) x := by
      intro x
      refine ((sidi_deriv_even m x).const_mul _).congr_deriv ?_
      rw [hc, show (4 : ℝ) ^ (m + 1) = 4 * 2 ^ (2 * m) by rw [pow_succ, pow_mul]; norm_num; ring]
      field_simp
      ring
    refine ⟨_, ?_, ⟨c, by positivity, hw⟩, fun x => (hd x).congr_deriv (hw x).symm, ?_, ?_⟩
    · intro x
      simp only [sidiStep, if_neg hr, if_neg (show ¬ (2 * (m + 1)) % 2 ≠ 0 by omega), factorial_eq,
        show 2 * (m + 1) / 2 - 1 = m by omega, show 2 * (m + 1) - 1 = 2 * m + 1 by omega]
    · simp [sidiTerm_even]
    · have h0 := sidi_ends hd
      simp only [show sidiTerm (2 * (m + 1)) m 0 = 0 by simp [sidiTerm_even], mul_zero, sub_zero] at h0
      rw [h0, integral_sin_pow_even, prod_even, hc, show 2 * (m + 1) = (2 * m + 1) + 1 by ring, Nat.factorial_succ (2 * m + 1),
        Nat.factorial_succ m, show (4 : ℝ) ^ (m + 1) = 4 * 2 ^ (2 * m) by rw [pow_succ, pow_mul]; norm_num; ring]
      push_cast
      field_simp
      ring
  · have hw : ∀ x, (sidiStep (2 * m + 1)).weight x =
        (Real.pi / 2 ^ (2 * m + 1) * ((2 * m + 1).factorial : ℝ) / (m.factorial : ℝ) / (m.factorial : ℝ)) *
          Real.sin (Real.pi * x) ^ (2 * m + 1) := by
      intro x
      simp only [sidiStep, if_neg hr, if_pos (show (2 * m + 1) % 2 ≠ 0 by omega), ipow_eq, factorial_eq,
        show (2 * m + 1 - 1) / 2 = m by omega]
    set c : ℝ := Real.pi / 2 ^ (2 * m + 1) * ((2 * m + 1).factorial : ℝ) / (m.factorial : ℝ) / (m.factorial : ℝ) with hc
    have hd : ∀ x, HasDerivAt (fun x => (1 / 2 ^ (2 * (2 * m + 1) - 1) * ((2 * m + 1).factorial : ℝ) / (m.factorial : ℝ) / (m.factorial : ℝ))
        * sidiTerm (2 * m + 1) m x) (c * Real.sin (Real.pi * x) ^ (2 * m + 1)) x := by
      intro x
      refine ((sidi_deriv_odd m x).const_mul _).congr_deriv ?_
      rw [hc, show 2 * (2 * m + 1) - 1 = (2 * m + 1) + 2 * m by omega, pow_add (2:ℝ) (2 * m + 1), pow_mul (2:ℝ) 2 m]
      norm_num
      field_simp
    refine ⟨_, ?_, ⟨c, by positivity, hw⟩, fun x => (hd x).congr_deriv (hw x).symm, ?_, ?_⟩
    · intro x
      simp only [sidiStep, if_neg hr, if_pos (show (2 * m + 1) % 2 ≠ 0 by omega), ipow_eq, factorial_eq,
        show (2 * m + 1 - 1) / 2 = m by omega]
    · simp [sidiTerm_odd]
    · have h0 := sidi_ends hd
      simp only [show sidiTerm (2 * m + 1) m 0 = 0 by simp [sidiTerm_odd], mul_zero, sub_zero] at h0
      rw [h0, integral_sin_pow_odd, prod_odd, hc, pow_succ (2:ℝ), pow_mul (2:ℝ) 2 m]
      norm_num
      field_simp

theorem range_of_warp {T w : ℝ → ℝ} (hd : ∀ x, HasDerivAt T (w x) x) (hw : ∀ x ∈ Ioo (0:ℝ) 1, 0 < w x) (h0 : T 0 = 0) (h1 : T 1 = 1)
    {x : ℝ} (hx : x ∈ Icc (0:ℝ) 1) : T x ∈ Icc (0:ℝ) 1 := by
  have := (image_of_deriv (fun x _ => hd x) hw h0 h1).2
  rw [← this]
  exact mem_image_of_mem _ hx

theorem sidi_warp (r : ℕ) : Warp (sidiStep r).value (sidiStep r).weight := by
  rcases eq_or_ne r 0 with rfl | hr
  · refine warp_id.congr ?_ ?_ ?_ ?_
    · simp only [sidiStep, if_true]; exact measurable_id
    · simp [sidiStep]
    · intro x _; simp [sidiStep]
    · intro x _; simp [sidiStep]
  · obtain ⟨T, hv, ⟨c, hc, hw⟩, hd, h0, h1⟩ := sidi_facts r hr
    have hT : Continuous T := continuous_iff_continuousAt.2 fun x => (hd x).continuousAt
    have hwm : Measurable (sidiStep r).weight := by
      rw [show (sidiStep r).weight = _ from funext hw]
      exact (by fun_prop : Continuous fun x : ℝ => c * Real.sin (Real.pi * x) ^ r).measurable
    have hp : ∀ x ∈ Ioo (0:ℝ) 1, 0 < (sidiStep r).weight x := by
      intro x hx
      rw [hw]
      have : 0 < Real.sin (Real.pi * x) := Real.sin_pos_of_pos_of_lt_pi (by have := Real.pi_pos; nlinarith [hx.1])
        (by have := Real.pi_pos; nlinarith [hx.2])
      positivity
    have hn : ∀ x ∈ Icc (0:ℝ) 1, 0 ≤ (sidiStep r).weight x := by
      intro x hx
      rw [hw]
      have : 0 ≤ Real.sin (Real.pi * x) := Real.sin_nonneg_of_nonneg_of_le_pi (by have := Real.pi_pos; nlinarith [hx.1])
        (by have := Real.pi_pos; nlinarith [hx.2])
      positivity
    refine (warp_of_deriv hT.measurable hwm (fun x _ => hd x) hn hp h0 h1).congr ?_ hwm ?_ fun _ _ => rfl
    · rw [show (sidiStep r).value = _ from funext hv]
      exact measurable_clamp.comp hT.measurable
    · intro x hx
      rw [hv, clamp_eq (range_of_warp hd hp h0 h1 hx)]

/-! ### Baker -/

theorem baker_warp : Warp bakerStep.value bakerStep.weight := by
  have e : ∀ x ∈ Icc (0:ℝ) 1, bakerStep.value x = Transform.baker.f x := by
    intro x hx
    show clamp (1 - |2 * x - 1|) = if 2*x < 2 - 2*x then 2*x else 2 - 2*x
    rw [clamp_eq ⟨?_, ?_⟩]
    · split
      · rw [abs_of_nonpos (by linarith)]; ring
      · rw [abs_of_nonneg (by linarith)]; ring
    · have : |2 * x - 1| ≤ 1 := abs_le.2 ⟨by linarith [hx.1], by linarith [hx.2]⟩
      linarith
    · have := abs_nonneg (2 * x - 1)
      linarith
  have h : Warp Transform.baker.f Transform.baker.w :=
    ⟨(f_continuous .baker).measurable, (w_continuous .baker).measurable, fun x hx => w_nonneg .baker x hx.1 hx.2,
      fun g hg => lintegral_transform .baker g hg⟩
  refine h.congr (measurable_clamp.comp (by fun_prop : Continuous fun x : ℝ => 1 - |2 * x - 1|).measurable) measurable_const e fun _ _ => rfl

end Transforms
end SecDec
