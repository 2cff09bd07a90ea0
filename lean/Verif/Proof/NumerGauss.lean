import Verif.Proof.NumerTensor
import Mathlib.Analysis.Matrix.PosDef
import Mathlib.Analysis.Matrix.Spectrum
import Mathlib.Analysis.SpecialFunctions.Gaussian.GaussianIntegral
import Mathlib.Analysis.SpecialFunctions.JapaneseBracket
import Mathlib.Analysis.Calculus.LineDeriv.IntegrationByParts
import Mathlib.MeasureTheory.Integral.Pi
import Mathlib.MeasureTheory.Integral.Prod
/-
Gaussian integrals over the loop momenta (proof of property C50).
-/
namespace SecDec
namespace Numer
open scoped BigOperators Matrix
open Misc MeasureTheory
noncomputable section
variable {L d : ℕ}

theorem exists_root (M : Matrix (Fin L) (Fin L) ℝ) (hM : M.PosDef) : ∃ B : Matrix (Fin L) (Fin L) ℝ, M = Bᵀ * B ∧ B.det ≠ 0 := by
  have hs := hM.isHermitian.spectral_theorem
  have hpos := hM.eigenvalues_pos
  set U := (hM.isHermitian.eigenvectorUnitary : Matrix (Fin L) (Fin L) ℝ) with hU
  refine ⟨Matrix.diagonal (fun i => Real.sqrt (hM.isHermitian.eigenvalues i)) * Uᵀ, ?_, ?_⟩
  · rw [Matrix.transpose_mul, Matrix.diagonal_transpose, Matrix.transpose_transpose, Matrix.mul_assoc,
      ← Matrix.mul_assoc (Matrix.diagonal _) (Matrix.diagonal _), Matrix.diagonal_mul_diagonal]
    conv_lhs => rw [hs]
    rw [Unitary.conjStarAlgAut_apply, Matrix.mul_assoc]
    congr 2
    · congr 1
      funext i
      simp [Real.mul_self_sqrt (hpos i).le]
  · intro h
    have h1 : M.det = 0 := by
      have : M = (Matrix.diagonal (fun i => Real.sqrt (hM.isHermitian.eigenvalues i)) * Uᵀ)ᵀ *
          (Matrix.diagonal (fun i => Real.sqrt (hM.isHermitian.eigenvalues i)) * Uᵀ) := by
        rw [Matrix.transpose_mul, Matrix.diagonal_transpose, Matrix.transpose_transpose, Matrix.mul_assoc,
          ← Matrix.mul_assoc (Matrix.diagonal _) (Matrix.diagonal _), Matrix.diagonal_mul_diagonal]
        conv_lhs => rw [hs]
        rw [Unitary.conjStarAlgAut_apply, Matrix.mul_assoc]
        congr 2
        · congr 1
          funext i
          simp [Real.mul_self_sqrt (hpos i).le]
      rw [this, Matrix.det_mul, h, mul_zero]
    exact absurd h1 (ne_of_gt hM.det_pos)

/-- The quadratic form in the exponent. -/
def quad (M : Matrix (Fin L) (Fin L) ℝ) (Q : Fin d → Fin L → ℝ) (J : ℝ) (k : Fin d → Fin L → ℝ) : ℝ :=
  ∑ m, (k m ⬝ᵥ (M *ᵥ k m) - 2 * (Q m ⬝ᵥ k m)) - J

/-- Its minimum. -/
def rmin (M : Matrix (Fin L) (Fin L) ℝ) (Q : Fin d → Fin L → ℝ) (J : ℝ) : ℝ := -∑ m, Q m ⬝ᵥ (M⁻¹ *ᵥ Q m) - J

variable {M B : Matrix (Fin L) (Fin L) ℝ} {Q : Fin d → Fin L → ℝ} {J : ℝ}

theorem root_sq (hB : M = Bᵀ * B) (v : Fin L → ℝ) : (B *ᵥ v) ⬝ᵥ (B *ᵥ v) = v ⬝ᵥ (M *ᵥ v) := by
  rw [hB, ← Matrix.mulVec_mulVec, Matrix.dotProduct_mulVec v, Matrix.vecMul_transpose]

theorem root_symm (hB : M = Bᵀ * B) : Mᵀ = M := by
  rw [hB, Matrix.transpose_mul, Matrix.transpose_transpose]

theorem root_unit (hB : M = Bᵀ * B) (hd : B.det ≠ 0) : IsUnit M.det := by
  rw [hB, Matrix.det_mul, Matrix.det_transpose]; exact isUnit_iff_ne_zero.2 (mul_ne_zero hd hd)

theorem quad_square (hB : M = Bᵀ * B) (hd : B.det ≠ 0) (k : Fin d → Fin L → ℝ) :
    quad M Q J k = ∑ m, (B *ᵥ (k m - M⁻¹ *ᵥ Q m)) ⬝ᵥ (B *ᵥ (k m - M⁻¹ *ᵥ Q m)) + rmin M Q J := by
  unfold quad rmin
  rw [← add_sub_assoc, ← sub_eq_add_neg, ← Finset.sum_sub_distrib]
  congr 1
  refine Finset.sum_congr rfl fun m _ => ?_
  rw [root_sq hB]
  have h1 : M *ᵥ (M⁻¹ *ᵥ Q m) = Q m := by
    rw [Matrix.mulVec_mulVec, Matrix.mul_nonsing_inv _ (root_unit hB hd), Matrix.one_mulVec]
  have h2 : (M⁻¹ *ᵥ Q m) ⬝ᵥ (M *ᵥ k m) = Q m ⬝ᵥ k m := by
    rw [Matrix.dotProduct_mulVec, ← Matrix.mulVec_transpose, root_symm hB, h1]
  rw [Matrix.mulVec_sub, h1, sub_dotProduct, dotProduct_sub, dotProduct_sub, h2, dotProduct_comm (k m) (Q m),
    dotProduct_comm (M⁻¹ *ᵥ Q m) (Q m)]
  ring

theorem dot_self_nonneg (v : Fin L → ℝ) : 0 ≤ v ⬝ᵥ v := by
  unfold dotProduct; exact Finset.sum_nonneg fun i _ => mul_self_nonneg _

theorem rmin_le (hB : M = Bᵀ * B) (hd : B.det ≠ 0) (k : Fin d → Fin L → ℝ) : rmin M Q J ≤ quad M Q J k := by
  rw [quad_square hB hd]
  have := Finset.sum_nonneg fun m (_ : m ∈ Finset.univ) => dot_self_nonneg (B *ᵥ (k m - M⁻¹ *ᵥ Q m))
  linarith

/-- The sum of the squares of the components. -/
def sqs (k : Fin d → Fin L → ℝ) : ℝ := ∑ m, ∑ a, (k m a) ^ 2

theorem root_lower (hd : B.det ≠ 0) : ∃ c, 0 < c ∧ ∀ v : Fin L → ℝ, c * ∑ a, (v a) ^ 2 ≤ (B *ᵥ v) ⬝ᵥ (B *ᵥ v) := by
  set C : ℝ := 1 + ∑ a, ∑ b, (B⁻¹ a b) ^ 2 with hC
  have hC0 : 0 < C := by
    have : 0 ≤ ∑ a, ∑ b, (B⁻¹ a b) ^ 2 := Finset.sum_nonneg fun a _ => Finset.sum_nonneg fun b _ => sq_nonneg _
    linarith
  refine ⟨C⁻¹, inv_pos.2 hC0, fun v => ?_⟩
  rw [inv_mul_le_iff₀ hC0]
  set y := B *ᵥ v with hy
  have hv : v = B⁻¹ *ᵥ y := by
    rw [hy, Matrix.mulVec_mulVec, Matrix.nonsing_inv_mul _ (isUnit_iff_ne_zero.2 hd), Matrix.one_mulVec]
  have h1 : ∑ a, (v a) ^ 2 ≤ ∑ a, (∑ b, (B⁻¹ a b) ^ 2) * (y ⬝ᵥ y) := by
    refine Finset.sum_le_sum fun a _ => ?_
    rw [hv]
    have := Finset.sum_mul_sq_le_sq_mul_sq Finset.univ (fun b => B⁻¹ a b) y
    simp only [Matrix.mulVec, dotProduct] at this ⊢
    refine this.trans (le_of_eq ?_)
    congr 1
    exact Finset.sum_congr rfl fun b _ => by ring
  refine h1.trans ?_
  rw [← Finset.sum_mul]
  refine mul_le_mul_of_nonneg_right ?_ (dot_self_nonneg y)
  linarith

theorem quad_lower (hB : M = Bᵀ * B) (hd : B.det ≠ 0) (Q : Fin d → Fin L → ℝ) (J : ℝ) :
    ∃ c C, 0 < c ∧ ∀ k : Fin d → Fin L → ℝ, c * sqs k - C ≤ quad M Q J k := by
  obtain ⟨c, hc, h⟩ := root_lower hd
  refine ⟨c / 2, c * (∑ m, ∑ a, ((M⁻¹ *ᵥ Q m) a) ^ 2) - rmin M Q J, by linarith, fun k => ?_⟩
  rw [quad_square hB hd]
  have h1 : ∑ m, c * ∑ a, ((k m - M⁻¹ *ᵥ Q m) a) ^ 2 ≤ ∑ m, (B *ᵥ (k m - M⁻¹ *ᵥ Q m)) ⬝ᵥ (B *ᵥ (k m - M⁻¹ *ᵥ Q m)) :=
    Finset.sum_le_sum fun m _ => h _
  have h2 : c / 2 * sqs k - c * (∑ m, ∑ a, ((M⁻¹ *ᵥ Q m) a) ^ 2) ≤ ∑ m, c * ∑ a, ((k m - M⁻¹ *ᵥ Q m) a) ^ 2 := by
    unfold sqs
    simp only [Finset.mul_sum, ← Finset.sum_sub_distrib]
    refine Finset.sum_le_sum fun m _ => Finset.sum_le_sum fun a _ => ?_
    simp only [Pi.sub_apply]
    nlinarith [mul_nonneg hc.le (sq_nonneg (k m a - 2 * (M⁻¹ *ᵥ Q m) a))]
  linarith

/-- The product of components of the loop momenta. -/
def mon (l : List (Fin L × Fin d)) (k : Fin d → Fin L → ℝ) : ℝ := (l.map fun f => k f.2 f.1).prod

theorem mon_cont (l : List (Fin L × Fin d)) : Continuous (mon l) := by
  unfold mon
  induction l with
  | nil => simpa using continuous_const
  | cons f l ih =>
    simp only [List.map_cons, List.prod_cons]
    exact Continuous.mul (f := fun k : Fin d → Fin L → ℝ => k f.2 f.1) (by fun_prop) ih

theorem quad_cont (M : Matrix (Fin L) (Fin L) ℝ) (Q : Fin d → Fin L → ℝ) (J : ℝ) : Continuous (quad M Q J) := by
  unfold quad
  simp only [dotProduct, Matrix.mulVec]
  fun_prop

def wgt (k : Fin d → Fin L → ℝ) : ℝ := ∏ m, ∏ a, (1 + |k m a|)

theorem one_le_prod_real {ι : Type} [DecidableEq ι] (S : Finset ι) (f : ι → ℝ) (h : ∀ i, 1 ≤ f i) : 1 ≤ ∏ i ∈ S, f i :=
  Finset.prod_induction f (fun x => 1 ≤ x) (fun a b ha hb => by nlinarith) le_rfl fun i _ => h i

theorem single_le_prod_real {ι : Type} [DecidableEq ι] [Fintype ι] (f : ι → ℝ) (h : ∀ i, 1 ≤ f i) (i : ι) : f i ≤ ∏ i, f i := by
  rw [← Finset.mul_prod_erase _ f (Finset.mem_univ i)]
  have := one_le_prod_real (Finset.univ.erase i) f h
  nlinarith [h i]

theorem wgt_ge (k : Fin d → Fin L → ℝ) (m : Fin d) (a : Fin L) : 1 + |k m a| ≤ wgt k := by
  unfold wgt
  have h1 : ∀ m a, 1 ≤ 1 + |k m a| := fun m a => by have := abs_nonneg (k m a); linarith
  have h2 : ∀ m, 1 ≤ ∏ a, (1 + |k m a|) := fun m => one_le_prod_real _ _ (h1 m)
  exact (single_le_prod_real (fun a => 1 + |k m a|) (h1 m) a).trans
    (single_le_prod_real (fun m => ∏ a, (1 + |k m a|)) h2 m)

theorem mon_le (l : List (Fin L × Fin d)) (k : Fin d → Fin L → ℝ) : |mon l k| ≤ wgt k ^ l.length := by
  unfold mon
  induction l with
  | nil => simp
  | cons f l ih =>
    rw [List.map_cons, List.prod_cons, abs_mul, List.length_cons, pow_succ, mul_comm]
    have := wgt_ge k f.2 f.1
    have h0 := abs_nonneg (k f.2 f.1)
    exact mul_le_mul ih (by linarith) h0 ((abs_nonneg _).trans ih)

theorem int_one (c : ℝ) (hc : 0 < c) (n : ℕ) : Integrable fun x : ℝ => (1 + |x|) ^ n * Real.exp (-c * x ^ 2) := by
  have h1 : Integrable fun x : ℝ => (2 : ℝ) ^ n * (Real.exp (-c * x ^ 2) + |x ^ (n : ℝ) * Real.exp (-c * x ^ 2)|) :=
    (((integrable_exp_neg_mul_sq hc).add (integrable_rpow_mul_exp_neg_mul_sq hc (s := (n : ℝ))
      (by have : (0 : ℝ) ≤ n := Nat.cast_nonneg n; linarith)).abs)).const_mul _
  refine h1.mono' (by fun_prop) (Filter.Eventually.of_forall fun x => ?_)
  have h0 := abs_nonneg x
  have he := Real.exp_pos (-c * x ^ 2)
  rw [Real.norm_of_nonneg (by positivity), abs_mul, abs_of_pos he, Real.rpow_natCast, abs_pow, ← one_add_mul, ← mul_assoc]
  refine mul_le_mul_of_nonneg_right ?_ he.le
  rcases le_total |x| 1 with h | h
  · calc (1 + |x|) ^ n ≤ 2 ^ n := pow_le_pow_left₀ (by linarith) (by linarith) n
      _ ≤ 2 ^ n * (1 + |x| ^ n) := by
        have : 0 ≤ |x| ^ n := by positivity
        nlinarith [pow_pos (two_pos : (0 : ℝ) < 2) n]
  · calc (1 + |x|) ^ n ≤ (2 * |x|) ^ n := pow_le_pow_left₀ (by linarith) (by linarith) n
      _ = 2 ^ n * |x| ^ n := mul_pow _ _ _
      _ ≤ 2 ^ n * (1 + |x| ^ n) := by nlinarith [pow_pos (two_pos : (0 : ℝ) < 2) n]

theorem integrable_mon (hB : M = Bᵀ * B) (hd : B.det ≠ 0) (Q : Fin d → Fin L → ℝ) (J : ℝ) {α : ℝ} (hα : 0 < α)
    (l : List (Fin L × Fin d)) : Integrable fun k => mon l k * Real.exp (-α * quad M Q J k) := by
  obtain ⟨c, C, hc, h⟩ := quad_lower hB hd Q J
  have h1 : Integrable fun k : Fin d → Fin L → ℝ => Real.exp (α * C) *
      ∏ m, ∏ a, ((1 + |k m a|) ^ l.length * Real.exp (-(α * c) * (k m a) ^ 2)) := by
    refine Integrable.const_mul ?_ _
    exact Integrable.fintype_prod (f := fun _ (x : Fin L → ℝ) => ∏ a, ((1 + |x a|) ^ l.length * Real.exp (-(α * c) * (x a) ^ 2)))
      fun m => Integrable.fintype_prod (f := fun _ x => (1 + |x|) ^ l.length * Real.exp (-(α * c) * x ^ 2))
        fun a => int_one (α * c) (by positivity) _
  refine h1.mono' ?_ (Filter.Eventually.of_forall fun k => ?_)
  · exact ((mon_cont l).mul (Real.continuous_exp.comp (continuous_const.mul (quad_cont M Q J)))).aestronglyMeasurable
  · rw [norm_mul, Real.norm_eq_abs, Real.norm_of_nonneg (Real.exp_pos _).le]
    have e1 : ∏ m, ∏ a, ((1 + |k m a|) ^ l.length * Real.exp (-(α * c) * (k m a) ^ 2)) =
        wgt k ^ l.length * Real.exp (-(α * c) * sqs k) := by
      simp only [Finset.prod_mul_distrib, Finset.prod_pow, ← Real.exp_sum, wgt, sqs, ← Finset.mul_sum]
    rw [e1, mul_left_comm, ← Real.exp_add]
    refine mul_le_mul (mon_le l k) (Real.exp_le_exp.2 ?_) (Real.exp_pos _).le ((abs_nonneg _).trans (mon_le l k))
    have := mul_le_mul_of_nonneg_left (h k) hα.le
    linarith

/-- The Gaussian integral. -/
theorem gauss_integral (hB : M = Bᵀ * B) (hd : B.det ≠ 0) (Q : Fin d → Fin L → ℝ) (J : ℝ) (α : ℝ) :
    ∫ k : Fin d → Fin L → ℝ, Real.exp (-α * quad M Q J k) =
      Real.exp (-α * rmin M Q J) * (|B.det|⁻¹ * Real.sqrt (Real.pi / α) ^ L) ^ d := by
  have h1 : ∀ q : Fin L → ℝ, ∫ x : Fin L → ℝ, Real.exp (-α * ((B *ᵥ (x - q)) ⬝ᵥ (B *ᵥ (x - q)))) =
      |B.det|⁻¹ * Real.sqrt (Real.pi / α) ^ L := by
    intro q
    rw [integral_sub_right_eq_self (fun x : Fin L → ℝ => Real.exp (-α * ((B *ᵥ x) ⬝ᵥ (B *ᵥ x)))) q]
    have h2 := Real.map_matrix_volume_pi_eq_smul_volume_pi hd
    have hm : Measurable (Matrix.toLin' B) := (LinearMap.continuous_of_finiteDimensional _).measurable
    have h3 : ∫ x : Fin L → ℝ, Real.exp (-α * ((B *ᵥ x) ⬝ᵥ (B *ᵥ x))) =
        ∫ y, Real.exp (-α * (y ⬝ᵥ y)) ∂(Measure.map (Matrix.toLin' B) volume) := by
      rw [integral_map hm.aemeasurable]
      · rfl
      · refine Continuous.aestronglyMeasurable ?_
        simp only [dotProduct]; fun_prop
    rw [h3, h2, integral_smul_measure, ENNReal.toReal_ofReal (abs_nonneg _), smul_eq_mul, abs_inv]
    congr 1
    have h4 : (fun y : Fin L → ℝ => Real.exp (-α * (y ⬝ᵥ y))) = fun y => ∏ a, Real.exp (-α * (y a) ^ 2) := by
      funext y
      rw [← Real.exp_sum]
      congr 1
      simp only [dotProduct, Finset.mul_sum]
      exact Finset.sum_congr rfl fun a _ => by ring
    rw [h4, integral_fintype_prod_volume_eq_pow (fun x : ℝ => Real.exp (-α * x ^ 2)), integral_gaussian, Fintype.card_fin]
  have h5 : (fun k : Fin d → Fin L → ℝ => Real.exp (-α * quad M Q J k)) = fun k =>
      Real.exp (-α * rmin M Q J) * ∏ m, Real.exp (-α * ((B *ᵥ (k m - M⁻¹ *ᵥ Q m)) ⬝ᵥ (B *ᵥ (k m - M⁻¹ *ᵥ Q m)))) := by
    funext k
    rw [quad_square hB hd, ← Real.exp_sum, ← Real.exp_add, ← Finset.mul_sum]
    congr 1; ring
  rw [h5, integral_const_mul, integral_fintype_prod_volume_eq_prod
    (f := fun m (x : Fin L → ℝ) => Real.exp (-α * ((B *ᵥ (x - M⁻¹ *ᵥ Q m)) ⬝ᵥ (B *ᵥ (x - M⁻¹ *ᵥ Q m)))))]
  simp only [h1, Finset.prod_const, Finset.card_univ, Fintype.card_fin]
/-! ### Integration by parts -/

/-- the derivative of a product with respect to one component -/
def dmon (a : Fin L) (m : Fin d) (l : List (Fin L × Fin d)) (k : Fin d → Fin L → ℝ) : ℝ :=
  ((picks l).map fun y => if y.1 = (a, m) then mon y.2 k else 0).sum

/-- the direction of one component -/
def dir (a : Fin L) (m : Fin d) : Fin d → Fin L → ℝ := Pi.single m (Pi.single a 1)

theorem dir_apply (a : Fin L) (m : Fin d) (f : Fin L × Fin d) : dir a m f.2 f.1 = if f = (a, m) then 1 else 0 := by
  unfold dir
  by_cases h2 : f.2 = m
  · rw [h2, Pi.single_eq_same]
    by_cases h1 : f.1 = a
    · rw [h1, Pi.single_eq_same, if_pos (Prod.ext h1 h2)]
    · rw [Pi.single_eq_of_ne h1, if_neg (fun h => h1 (by rw [h]))]
  · rw [Pi.single_eq_of_ne h2, if_neg (fun h => h2 (by rw [h]))]; rfl

theorem dmon_cons (a : Fin L) (m : Fin d) (f : Fin L × Fin d) (l : List (Fin L × Fin d)) (k : Fin d → Fin L → ℝ) :
    dmon a m (f :: l) k = (if f = (a, m) then 1 else 0) * mon l k + k f.2 f.1 * dmon a m l k := by
  unfold dmon
  simp only [picks, List.map_cons, List.sum_cons, List.map_map]
  congr 1
  · split_ifs <;> simp
  · rw [← List.sum_map_mul_left]
    congr 1
    refine List.map_congr_left fun y _ => ?_
    simp only [Function.comp_apply]
    split_ifs
    · simp [mon]
    · simp

theorem mon_line (a : Fin L) (m : Fin d) (l : List (Fin L × Fin d)) (k : Fin d → Fin L → ℝ) :
    HasLineDerivAt ℝ (mon l) (dmon a m l k) k (dir a m) := by
  induction l with
  | nil =>
    have : (mon ([] : List (Fin L × Fin d))) = fun _ => 1 := by funext k; simp [mon]
    unfold HasLineDerivAt
    rw [this]
    simpa [dmon, picks] using hasDerivAt_const (0 : ℝ) (1 : ℝ)
  | cons f l ih =>
    unfold HasLineDerivAt at ih ⊢
    have h1 : HasDerivAt (fun t : ℝ => k f.2 f.1 + t * dir a m f.2 f.1) (1 * dir a m f.2 f.1) 0 :=
      (((hasDerivAt_id' (0 : ℝ)).mul_const _).const_add _)
    have h2 := h1.mul ih
    have e : (fun t : ℝ => mon (f :: l) (k + t • dir a m)) =
        (fun t : ℝ => k f.2 f.1 + t * dir a m f.2 f.1) * fun t => mon l (k + t • dir a m) := by
      funext t
      simp [mon]
    rw [e]
    refine h2.congr_deriv ?_
    rw [dmon_cons, dir_apply]
    simp

theorem quad_line (hs : Mᵀ = M) (a : Fin L) (m : Fin d) (k : Fin d → Fin L → ℝ) (t : ℝ) :
    quad M Q J (k + t • dir a m) = quad M Q J k + t * (2 * ((M *ᵥ k m) a) - 2 * Q m a) + t ^ 2 * M a a := by
  unfold quad
  rw [← Finset.add_sum_erase _ _ (Finset.mem_univ m), ← Finset.add_sum_erase _ (fun m => k m ⬝ᵥ (M *ᵥ k m) - 2 * (Q m ⬝ᵥ k m)) (Finset.mem_univ m)]
  have h1 : ∑ x ∈ Finset.univ.erase m, ((k + t • dir a m) x ⬝ᵥ (M *ᵥ (k + t • dir a m) x) - 2 * (Q x ⬝ᵥ (k + t • dir a m) x)) =
      ∑ x ∈ Finset.univ.erase m, (k x ⬝ᵥ (M *ᵥ k x) - 2 * (Q x ⬝ᵥ k x)) := by
    refine Finset.sum_congr rfl fun x hx => ?_
    have hx' : x ≠ m := Finset.ne_of_mem_erase hx
    have : (k + t • dir a m) x = k x := by
      simp [dir, Pi.single_eq_of_ne hx']
    rw [this]
  rw [h1]
  have h2 : (k + t • dir a m) m = k m + t • Pi.single a 1 := by simp [dir]
  have h3 : (M *ᵥ Pi.single a 1) = fun b => M b a := by
    funext b; simp
  have h4 : k m ⬝ᵥ (M *ᵥ Pi.single a 1) = (M *ᵥ k m) a := by
    rw [h3]
    simp only [dotProduct, Matrix.mulVec]
    refine Finset.sum_congr rfl fun b _ => ?_
    have : M b a = M a b := by conv_lhs => rw [← hs, Matrix.transpose_apply]
    rw [this]; ring
  rw [h2, Matrix.mulVec_add, Matrix.mulVec_smul, add_dotProduct, dotProduct_add, dotProduct_add, dotProduct_add,
    dotProduct_smul, dotProduct_smul, smul_dotProduct, smul_dotProduct, dotProduct_smul, h4, single_dotProduct, h3,
    single_dotProduct, dotProduct_single]
  simp only [smul_eq_mul]
  ring

theorem exp_line (hs : Mᵀ = M) (a : Fin L) (m : Fin d) (α : ℝ) (k : Fin d → Fin L → ℝ) :
    HasLineDerivAt ℝ (fun k => Real.exp (-α * quad M Q J k))
      (Real.exp (-α * quad M Q J k) * (-α * (2 * ((M *ᵥ k m) a) - 2 * Q m a))) k (dir a m) := by
  unfold HasLineDerivAt
  simp only [quad_line hs]
  have h1 : HasDerivAt (fun t : ℝ => quad M Q J k + t * (2 * ((M *ᵥ k m) a) - 2 * Q m a) + t ^ 2 * M a a)
      (1 * (2 * ((M *ᵥ k m) a) - 2 * Q m a) + (2 * (0 : ℝ) ^ 1 * 1) * M a a) 0 := by
    have := (((hasDerivAt_id' (0 : ℝ)).mul_const (2 * ((M *ᵥ k m) a) - 2 * Q m a)).const_add (quad M Q J k)).add
      (((hasDerivAt_id' (0 : ℝ)).pow 2).mul_const (M a a))
    exact this.congr_deriv (by simp)
  exact ((h1.const_mul (-α)).exp).congr_deriv (by simp)

def momentI (M : Matrix (Fin L) (Fin L) ℝ) (Q : Fin d → Fin L → ℝ) (J α : ℝ) (l : List (Fin L × Fin d)) : ℝ :=
  ∫ k : Fin d → Fin L → ℝ, mon l k * Real.exp (-α * quad M Q J k)

theorem picks_sum_integral (hB : M = Bᵀ * B) (hd : B.det ≠ 0) {α : ℝ} (hα : 0 < α) (a : Fin L) (m : Fin d)
    (S : List ((Fin L × Fin d) × List (Fin L × Fin d))) :
    Integrable (fun k => (S.map fun y => if y.1 = (a, m) then mon y.2 k else 0).sum * Real.exp (-α * quad M Q J k)) ∧
    ∫ k, (S.map fun y => if y.1 = (a, m) then mon y.2 k else 0).sum * Real.exp (-α * quad M Q J k) =
      (S.map fun y => if y.1 = (a, m) then momentI M Q J α y.2 else 0).sum := by
  induction S with
  | nil => simp
  | cons y S ih =>
    simp only [List.map_cons, List.sum_cons, add_mul]
    have h1 : Integrable (fun k : Fin d → Fin L → ℝ => (if y.1 = (a, m) then mon y.2 k else 0) * Real.exp (-α * quad M Q J k)) := by
      split_ifs
      · exact integrable_mon hB hd Q J hα y.2
      · simp
    refine ⟨h1.add ih.1, ?_⟩
    rw [integral_add h1 ih.1, ih.2]
    congr 1
    split_ifs
    · rfl
    · simp

theorem moments_parts (hB : M = Bᵀ * B) (hd : B.det ≠ 0) {α : ℝ} (hα : 0 < α) (a : Fin L) (m : Fin d)
    (l : List (Fin L × Fin d)) :
    ((picks l).map fun y => if y.1 = (a, m) then momentI M Q J α y.2 else 0).sum -
      2 * α * ((∑ b, M a b * momentI M Q J α ((b, m) :: l)) - Q m a * momentI M Q J α l) = 0 := by
  have i1 := picks_sum_integral (M := M) (Q := Q) (J := J) hB hd hα a m (picks l)
  have e0 : ∀ k : Fin d → Fin L → ℝ, mon l k * (Real.exp (-α * quad M Q J k) * (-α * (2 * ((M *ᵥ k m) a) - 2 * Q m a))) =
      (-2 * α) * (∑ b, M a b * (mon ((b, m) :: l) k * Real.exp (-α * quad M Q J k))) +
        (2 * α * Q m a) * (mon l k * Real.exp (-α * quad M Q J k)) := by
    intro k
    have : ∑ b, M a b * (mon ((b, m) :: l) k * Real.exp (-α * quad M Q J k)) =
        (M *ᵥ k m) a * (mon l k * Real.exp (-α * quad M Q J k)) := by
      simp only [Matrix.mulVec, dotProduct, Finset.sum_mul, mon, List.map_cons, List.prod_cons]
      exact Finset.sum_congr rfl fun b _ => by ring
    rw [this]; ring
  have i2 : Integrable fun k : Fin d → Fin L → ℝ => ∑ b, M a b * (mon ((b, m) :: l) k * Real.exp (-α * quad M Q J k)) :=
    integrable_finsetSum _ fun b _ => (integrable_mon hB hd Q J hα _).const_mul _
  have i3 := integrable_mon hB hd Q J hα l
  have h := integral_bilinear_hasLineDerivAt_right_eq_neg_left_of_integrable (μ := (volume : Measure (Fin d → Fin L → ℝ)))
    (f := mon l) (f' := dmon a m l) (g := fun k => Real.exp (-α * quad M Q J k))
    (g' := fun k => Real.exp (-α * quad M Q J k) * (-α * (2 * ((M *ᵥ k m) a) - 2 * Q m a))) (v := dir a m)
    (B := ContinuousLinearMap.mul ℝ ℝ) (by simpa [dmon] using i1.1) (by
      simp only [ContinuousLinearMap.mul_apply', e0]
      exact (i2.const_mul _).add (i3.const_mul _)) (by simpa using i3)
    (fun k _ => mon_line a m l k) (fun k _ => exp_line (root_symm hB) a m α k)
  simp only [ContinuousLinearMap.mul_apply', e0] at h
  rw [integral_add (i2.const_mul _) (i3.const_mul _), integral_const_mul, integral_const_mul,
    integral_finsetSum _ fun b _ => (integrable_mon hB hd Q J hα _).const_mul _] at h
  simp only [integral_const_mul] at h
  have e1 : ∫ k : Fin d → Fin L → ℝ, dmon a m l k * Real.exp (-α * quad M Q J k) =
      ((picks l).map fun y => if y.1 = (a, m) then momentI M Q J α y.2 else 0).sum := i1.2
  rw [e1] at h
  simp only [momentI] at h ⊢
  linarith

/-- The mean values of the Gaussian weight. -/
theorem gauss_moments (hB : M = Bᵀ * B) (hd : B.det ≠ 0) {α : ℝ} (hα : 0 < α) :
    Moments (fun _ : Fin d => (-1 : ℂ)) (fun a b => ((M a b : ℝ) : ℂ)) (fun a m => ((Q m a : ℝ) : ℂ)) α
      (fun l => ((momentI M Q J α l / momentI M Q J α [] : ℝ) : ℂ)) := by
  have hZ : momentI M Q J α [] ≠ 0 := by
    have : momentI M Q J α [] = ∫ k : Fin d → Fin L → ℝ, Real.exp (-α * quad M Q J k) := by simp [momentI, mon]
    rw [this, gauss_integral hB hd]
    have h1 : 0 < |B.det|⁻¹ := by positivity
    have h2 : 0 < Real.sqrt (Real.pi / α) := Real.sqrt_pos.2 (div_pos Real.pi_pos hα)
    positivity
  refine ⟨by rw [div_self hZ]; simp, ?_, ?_⟩
  · intro l l' h
    have : mon (d := d) l = mon l' := by funext k; exact (h.map _).prod_eq
    simp only [momentI, this]
  · intro a m l
    have h := moments_parts (M := M) (Q := Q) (J := J) hB hd hα a m l
    have e1 : (∑ j : Fin l.length, if l[j] = (a, m) then ((momentI M Q J α (l.eraseIdx j) / momentI M Q J α [] : ℝ) : ℂ) else 0) =
        (((picks l).map fun y => if y.1 = (a, m) then momentI M Q J α y.2 else 0).sum / momentI M Q J α [] : ℝ) := by
      rw [sum_picks_fin l (fun y B => if y = (a, m) then ((momentI M Q J α B / momentI M Q J α [] : ℝ) : ℂ) else 0)]
      generalize picks l = S
      induction S with
      | nil => simp
      | cons y S ih =>
        rw [List.map_cons, List.sum_cons, ih, List.map_cons, List.sum_cons, add_div]
        push_cast
        congr 1
        split_ifs <;> simp
    rw [e1]
    have e2 := congrArg (fun x : ℝ => ((x / momentI M Q J α [] : ℝ) : ℂ)) h
    simp only [zero_div, Complex.ofReal_zero] at e2
    rw [← e2]
    push_cast
    have e3 : ∑ x, (M a x : ℂ) * ((momentI M Q J α ((x, m) :: l) : ℂ) / (momentI M Q J α [] : ℂ)) =
        (∑ x, (M a x : ℂ) * (momentI M Q J α ((x, m) :: l) : ℂ)) / (momentI M Q J α [] : ℂ) := by
      rw [Finset.sum_div]
      exact Finset.sum_congr rfl fun b _ => by ring
    rw [e3]
    ring
end
end Numer
end SecDec
