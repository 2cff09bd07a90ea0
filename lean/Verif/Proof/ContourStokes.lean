import Mathlib.MeasureTheory.Integral.DivergenceTheorem
import Mathlib.Analysis.Calculus.FDeriv.Symmetric
import Mathlib.LinearAlgebra.Matrix.Determinant.Basic
import Mathlib.Analysis.Calculus.ContDiff.Basic
import Mathlib.Analysis.Calculus.FDeriv.Mul
import Mathlib.Analysis.Calculus.ContDiff.Operations
import Mathlib.Analysis.Complex.Basic
/-
Stokes' theorem for `f dz_1 ∧ … ∧ dz_n` on the unit cube of dimension `n+1`.
-/
namespace SecDec
namespace Contour
open MeasureTheory Set

variable {n m : ℕ}

/-- Derivative of a determinant. -/
theorem det_fderiv {E : Type*} [NormedAddCommGroup E] [NormedSpace ℝ E] (a : Fin n → Fin n → E → ℂ) (a' : Fin n → Fin n → E →L[ℝ] ℂ) (y : E)
    (h : ∀ k c, HasFDerivAt (a k c) (a' k c) y) :
    ∃ D : E →L[ℝ] ℂ, HasFDerivAt (fun y => (Matrix.of fun k c => a k c y).det) D y ∧
      ∀ v, D v = ∑ k, ((Matrix.of fun k c => a k c y).updateRow k (fun c => a' k c v)).det := by
  have h1 : ∀ σ : Equiv.Perm (Fin n), HasFDerivAt (fun y => ∏ k, a k (σ k) y)
      (∑ k, (∏ j ∈ Finset.univ.erase k, a j (σ j) y) • a' k (σ k)) y := by
    intro σ
    have := HasFDerivAt.finset_prod (u := Finset.univ) (g := fun k => a k (σ k)) (g' := fun k => a' k (σ k)) (x := y) (fun k _ => h k (σ k))
    simpa only [Finset.prod_fn, Finset.prod_apply] using this
  refine ⟨∑ σ : Equiv.Perm (Fin n), (Equiv.Perm.sign σ : ℤ) • (∑ k, (∏ j ∈ Finset.univ.erase k, a j (σ j) y) • a' k (σ k)), ?_, ?_⟩
  · have h2 : (fun y => (Matrix.of fun k c => a k c y).det) = fun y => ∑ σ : Equiv.Perm (Fin n), (Equiv.Perm.sign σ : ℤ) • ∏ k, a k (σ k) y := by
      funext y
      rw [← Matrix.det_transpose, Matrix.det_apply]
      rfl
    rw [h2]
    refine HasFDerivAt.fun_sum (fun σ _ => ?_)
    exact ((h1 σ).const_smul ((Equiv.Perm.sign σ : ℤ)))
  · intro v
    have h3 : ∀ k, ((Matrix.of fun k c => a k c y).updateRow k (fun c => a' k c v)).det =
        ∑ σ : Equiv.Perm (Fin n), (Equiv.Perm.sign σ : ℤ) • ((∏ j ∈ Finset.univ.erase k, a j (σ j) y) * a' k (σ k) v) := by
      intro k
      rw [← Matrix.det_transpose, Matrix.det_apply]
      refine Finset.sum_congr rfl (fun σ _ => ?_)
      congr 1
      rw [← Finset.mul_prod_erase _ _ (Finset.mem_univ k), mul_comm]
      congr 1
      · refine Finset.prod_congr rfl (fun j hj => ?_)
        simp [Matrix.updateRow_ne (Finset.ne_of_mem_erase hj)]
      · simp
    simp only [h3]
    rw [Finset.sum_comm]
    simp [sum_apply, Finset.smul_sum]

/-- A determinant with two rows from a symmetric matrix. -/
theorem det_symm (G : Matrix (Fin n) (Fin (n+1)) ℂ) (k : Fin n) (H : Fin (n+1) → Fin (n+1) → ℂ) (hH : ∀ i c, H i c = H c i) :
    ∑ i : Fin (n+1), (-1 : ℂ) ^ (i : ℕ) * ((G.submatrix id i.succAbove).updateRow k (fun c => H i (i.succAbove c))).det = 0 := by
  classical
  let N : Matrix (Fin (n+1)) (Fin (n+1)) ℂ := Matrix.of (Fin.cons 0 G)
  let D : (Fin (n+1) → ℂ) → (Fin (n+1) → ℂ) → ℂ := fun u v => ((N.updateRow 0 u).updateRow k.succ v).det
  have h0 : (k.succ : Fin (n+1)) ≠ 0 := Fin.succ_ne_zero k
  have h1 : ∀ i : Fin (n+1), (-1 : ℂ) ^ (i : ℕ) * ((G.submatrix id i.succAbove).updateRow k (fun c => H i (i.succAbove c))).det = D (Pi.single i 1) (H i) := by
    intro i
    show _ = ((N.updateRow 0 (Pi.single i 1)).updateRow k.succ (H i)).det
    rw [Matrix.det_succ_row_zero, Finset.sum_eq_single i]
    · rw [Matrix.updateRow_ne h0.symm, Matrix.updateRow_self, Pi.single_eq_same, mul_one]
      congr 2
      ext r c
      by_cases hr : r = k
      · subst hr
        simp [Matrix.submatrix_apply]
      · rw [Matrix.updateRow_ne hr, Matrix.submatrix_apply, Matrix.submatrix_apply, Matrix.updateRow_ne (by simpa using hr),
          Matrix.updateRow_ne (Fin.succ_ne_zero r)]
        rfl
    · intro c _ hc
      rw [Matrix.updateRow_ne h0.symm, Matrix.updateRow_self, Pi.single_eq_of_ne hc]
      ring
    · simp
  have hlin : ∀ u v, D u v = ∑ c, v c * D u (Pi.single c 1) := by
    intro u v
    have : D u v = (Matrix.detRowAlternating.toMultilinearMap.toLinearMap (N.updateRow 0 u) k.succ) v := rfl
    rw [this]
    conv_lhs => rw [pi_eq_sum_univ v]
    rw [map_sum]
    refine Finset.sum_congr rfl (fun c _ => ?_)
    rw [map_smul, smul_eq_mul]
    congr 1
    have : (fun j => if c = j then (1 : ℂ) else 0) = Pi.single c 1 := by
      funext j
      by_cases h : c = j
      · subst h; simp
      · simp [h]
    rw [this]; rfl
  have hanti : ∀ u v, D u v = - D v u := by
    intro u v
    have := Matrix.det_permute (Equiv.swap 0 k.succ) ((N.updateRow 0 u).updateRow k.succ v)
    have e : ((N.updateRow 0 u).updateRow k.succ v).submatrix (Equiv.swap 0 k.succ) id = (N.updateRow 0 v).updateRow k.succ u := by
      ext r c
      simp only [Matrix.submatrix_apply, id]
      by_cases hr : r = k.succ
      · subst hr
        rw [Equiv.swap_apply_right, Matrix.updateRow_ne h0.symm, Matrix.updateRow_self, Matrix.updateRow_self]
      · by_cases hr0 : r = 0
        · subst hr0
          rw [Equiv.swap_apply_left, Matrix.updateRow_self, Matrix.updateRow_ne h0.symm, Matrix.updateRow_self]
        · rw [Equiv.swap_apply_of_ne_of_ne hr0 hr, Matrix.updateRow_ne hr, Matrix.updateRow_ne hr0, Matrix.updateRow_ne hr, Matrix.updateRow_ne hr0]
    rw [e, Equiv.Perm.sign_swap h0.symm] at this
    show ((N.updateRow 0 u).updateRow k.succ v).det = - ((N.updateRow 0 v).updateRow k.succ u).det
    rw [this]; simp
  simp only [h1]
  have h2 : ∑ i, D (Pi.single i 1) (H i) = ∑ i, ∑ c, H i c * D (Pi.single i 1) (Pi.single c 1) :=
    Finset.sum_congr rfl fun i _ => hlin _ _
  have h3 : ∑ i, ∑ c, H i c * D (Pi.single i 1) (Pi.single c 1) = - ∑ i, ∑ c, H i c * D (Pi.single i 1) (Pi.single c 1) := by
    conv_lhs => rw [Finset.sum_comm]
    rw [← Finset.sum_neg_distrib]
    refine Finset.sum_congr rfl (fun i _ => ?_)
    rw [← Finset.sum_neg_distrib]
    refine Finset.sum_congr rfl (fun c _ => ?_)
    rw [hanti, hH]; ring
  rw [h2]
  exact self_eq_neg.1 h3

/-- Linearly dependent rows. -/
theorem det_dep (G : Matrix (Fin n) (Fin (n+1)) ℂ) (L : Fin n → ℂ) :
    ∑ i : Fin (n+1), (-1 : ℂ) ^ (i : ℕ) * (∑ k, L k * G k i) * (G.submatrix id i.succAbove).det = 0 := by
  have h : ∀ k, ∑ i : Fin (n+1), (-1 : ℂ) ^ (i : ℕ) * G k i * (G.submatrix id i.succAbove).det = 0 := by
    intro k
    have h1 : (Matrix.of (Fin.cons (G k) G : Fin (n+1) → Fin (n+1) → ℂ)).det = 0 :=
      Matrix.det_zero_of_row_eq (i := 0) (j := k.succ) (Fin.succ_ne_zero k).symm rfl
    rw [Matrix.det_succ_row_zero] at h1
    exact h1
  calc _ = ∑ k, L k * ∑ i : Fin (n+1), (-1 : ℂ) ^ (i : ℕ) * G k i * (G.submatrix id i.succAbove).det := by
        simp only [Finset.mul_sum, Finset.sum_mul]
        rw [Finset.sum_comm]
        refine Finset.sum_congr rfl fun k _ => Finset.sum_congr rfl fun i _ => by ring
    _ = 0 := by simp [h]

/-- Partial derivative. -/
noncomputable def pd (z : (Fin m → ℝ) → Fin n → ℂ) (k : Fin n) (c : Fin m) (y : Fin m → ℝ) : ℂ :=
  fderiv ℝ (fun y => z y k) y (Pi.single c 1)

/-- The minor of the Jacobian matrix without the column `i`. -/
noncomputable def minorJ (z : (Fin (n+1) → ℝ) → Fin n → ℂ) (i : Fin (n+1)) (y : Fin (n+1) → ℝ) : ℂ :=
  (Matrix.of fun k c => pd z k (i.succAbove c) y).det

theorem pd_contDiff {z : (Fin m → ℝ) → Fin n → ℂ} (hz : ∀ k, ContDiff ℝ 2 (fun y => z y k)) (k : Fin n) (c : Fin m) :
    ContDiff ℝ 1 (pd z k c) :=
  ((hz k).fderiv_right (m := 1) (by norm_num)).clm_apply contDiff_const

theorem pd_comm {z : (Fin m → ℝ) → Fin n → ℂ} (hz : ∀ k, ContDiff ℝ 2 (fun y => z y k)) (k : Fin n) (c d : Fin m) (y : Fin m → ℝ) :
    fderiv ℝ (pd z k c) y (Pi.single d 1) = fderiv ℝ (pd z k d) y (Pi.single c 1) := by
  have hs := (hz k).contDiffAt (x := y) |>.isSymmSndFDerivAt (by simp)
  have hd : DifferentiableAt ℝ (fderiv ℝ (fun y => z y k)) y :=
    ((hz k).fderiv_right (m := 1) (by norm_num)).differentiable one_ne_zero y
  have e : ∀ c d, fderiv ℝ (pd z k c) y (Pi.single d 1) = fderiv ℝ (fderiv ℝ (fun y => z y k)) y (Pi.single d 1) (Pi.single c 1) := by
    intro c d
    unfold pd
    rw [fderiv_clm_apply hd (differentiableAt_const _)]
    simp
  rw [e, e]
  exact hs _ _

/-- Stokes' theorem for `φ dz_1 ∧ … ∧ dz_n` if `φ` is locally a function of `z`. -/
theorem stokes (z : (Fin (n+1) → ℝ) → Fin n → ℂ) (hz : ∀ k, ContDiff ℝ 2 (fun y => z y k)) (φ : (Fin (n+1) → ℝ) → ℂ)
    (hφ : ContinuousOn φ (Icc 0 1))
    (hd : ∀ y ∈ Set.pi univ (fun _ : Fin (n+1) => Ioo (0 : ℝ) 1), ∃ L : Fin n → ℂ, HasFDerivAt φ (∑ k, L k • fderiv ℝ (fun y => z y k) y) y) :
    ∑ i : Fin (n+1), (-1 : ℂ) ^ (i : ℕ) * ((∫ x in Icc (0 : Fin n → ℝ) 1, φ (i.insertNth 1 x) * minorJ z i (i.insertNth 1 x)) -
      ∫ x in Icc (0 : Fin n → ℝ) 1, φ (i.insertNth 0 x) * minorJ z i (i.insertNth 0 x)) = 0 := by
  classical
  have hM : ∀ i y, ∃ D : (Fin (n+1) → ℝ) →L[ℝ] ℂ, HasFDerivAt (minorJ z i) D y ∧ ∀ v, D v =
      ∑ k, ((Matrix.of fun k c => pd z k (i.succAbove c) y).updateRow k (fun c => fderiv ℝ (pd z k (i.succAbove c)) y v)).det := by
    intro i y
    exact det_fderiv (fun k c => pd z k (i.succAbove c)) _ y fun k c =>
      ((pd_contDiff hz k (i.succAbove c)).differentiable one_ne_zero y).hasFDerivAt
  have hMc : ∀ i, Continuous (minorJ z i) := fun i => continuous_iff_continuousAt.2 fun y => (hM i y).choose_spec.1.continuousAt
  let f : Fin (n+1) → (Fin (n+1) → ℝ) → ℂ := fun i y => (-1 : ℂ) ^ (i : ℕ) * (φ y * minorJ z i y)
  let f' : Fin (n+1) → (Fin (n+1) → ℝ) → (Fin (n+1) → ℝ) →L[ℝ] ℂ := fun i y =>
    if y ∈ Set.pi univ (fun _ : Fin (n+1) => Ioo (0 : ℝ) 1) then fderiv ℝ (f i) y else 0
  have key : ∀ y, ∑ i, f' i y (Pi.single i 1) = 0 := by
    intro y
    by_cases hy : y ∈ Set.pi univ (fun _ : Fin (n+1) => Ioo (0 : ℝ) 1)
    swap
    · simp only [f', if_neg hy]; simp
    simp only [f', if_pos hy]
    obtain ⟨L, hL⟩ := hd y hy
    have h1 : ∀ i, fderiv ℝ (f i) y (Pi.single i 1) = φ y * ∑ k, (-1 : ℂ) ^ (i : ℕ) *
        (((Matrix.of fun k c => pd z k c y).submatrix id i.succAbove).updateRow k (fun c => fderiv ℝ (pd z k i) y (Pi.single (i.succAbove c) 1))).det +
        (-1 : ℂ) ^ (i : ℕ) * (∑ k, L k * (Matrix.of fun k c => pd z k c y) k i) * ((Matrix.of fun k c => pd z k c y).submatrix id i.succAbove).det := by
      intro i
      obtain ⟨D, hD, hD'⟩ := hM i y
      have := ((hL.mul hD).const_mul ((-1 : ℂ) ^ (i : ℕ))).fderiv
      have e : fderiv ℝ (f i) y = (-1 : ℂ) ^ (i : ℕ) • (φ y • D + minorJ z i y • ∑ k, L k • fderiv ℝ (fun y => z y k) y) := this
      rw [e]
      simp only [smul_apply, add_apply, smul_eq_mul, sum_apply, hD', mul_add]
      congr 1
      · rw [← mul_assoc, mul_comm ((-1 : ℂ) ^ (i : ℕ)), mul_assoc, Finset.mul_sum]
        congr 1
        refine Finset.sum_congr rfl fun k _ => ?_
        congr 3
        funext c
        exact pd_comm hz k _ _ y
      · show (-1 : ℂ) ^ (i : ℕ) * (minorJ z i y * _) = (-1 : ℂ) ^ (i : ℕ) * _ * minorJ z i y
        rw [mul_comm (minorJ z i y), mul_assoc]
        rfl
    rw [Finset.sum_congr rfl fun i _ => h1 i, Finset.sum_add_distrib, det_dep, add_zero, ← Finset.mul_sum, Finset.sum_comm]
    rw [Finset.sum_eq_zero, mul_zero]
    intro k _
    exact det_symm _ k (fun i c => fderiv ℝ (pd z k i) y (Pi.single c 1)) fun i c => pd_comm hz k i c y
  have hdiv := integral_divergence_of_hasFDerivAt_off_countable' (E := ℂ) (n := n) 0 1 zero_le_one f f' ∅ countable_empty
    (fun i => continuousOn_const.mul (hφ.mul (hMc i).continuousOn))
    (fun y hy i => by
      have hy' : y ∈ Set.pi univ (fun _ : Fin (n+1) => Ioo (0 : ℝ) 1) := hy.1
      simp only [f', if_pos hy']
      obtain ⟨L, hL⟩ := hd y hy'
      obtain ⟨D, hD, -⟩ := hM i y
      exact ((hL.mul hD).const_mul ((-1 : ℂ) ^ (i : ℕ))).differentiableAt.hasFDerivAt)
    (by simp only [key]; exact integrableOn_zero)
  simp only [key, integral_zero] at hdiv
  rw [eq_comm]
  convert hdiv using 1
  refine Finset.sum_congr rfl fun i _ => ?_
  rw [mul_sub, ← integral_const_mul, ← integral_const_mul]
  rfl

end Contour
end SecDec
