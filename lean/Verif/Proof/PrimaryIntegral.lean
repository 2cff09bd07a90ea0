import Mathlib.MeasureTheory.Function.Jacobian
import Mathlib.LinearAlgebra.Matrix.SchurComplement
import Mathlib.Analysis.Calculus.FDeriv.Mul
import Mathlib.Analysis.Calculus.FDeriv.Pi
import Mathlib.Analysis.Calculus.Deriv.Inv
import Mathlib.Analysis.Calculus.Deriv.Comp
import Verif.Proof.DecompIntegral
/- The change of variables behind the primary decomposition. -/
namespace SecDec.Decomp
open MeasureTheory

variable {n : Nat} {V : Type} [NormedAddCommGroup V] [NormedSpace ℝ V]

/-- open positive orthant -/
def pos (n : Nat) : Set (Fin n → ℝ) := {w | ∀ k, 0 < w k}
/-- open simplex -/
def osimplex (n : Nat) : Set (Fin n → ℝ) := {z | (∀ k, 0 < z k) ∧ ∑ k, z k < 1}

theorem measurableSet_pos : MeasurableSet (pos n) := by
  have : pos n = Set.univ.pi (fun _ => Set.Ioi (0:ℝ)) := by ext; simp [pos]
  rw [this]
  exact MeasurableSet.univ_pi fun _ => measurableSet_Ioi

/-! ### simplex to orthant -/

noncomputable def gMap (w : Fin n → ℝ) : Fin n → ℝ := fun k => w k * (1 + ∑ j, w j)⁻¹

noncomputable def gMap' (w : Fin n → ℝ) : (Fin n → ℝ) →L[ℝ] (Fin n → ℝ) :=
  ContinuousLinearMap.pi (fun k =>
    w k • (-((1 + ∑ j, w j) ^ 2)⁻¹ • ∑ j, (ContinuousLinearMap.proj j : (Fin n → ℝ) →L[ℝ] ℝ)) +
    (1 + ∑ j, w j)⁻¹ • ContinuousLinearMap.proj k)

theorem hasFDerivAt_gMap (w : Fin n → ℝ) (hw : 1 + ∑ j, w j ≠ 0) :
    HasFDerivAt gMap (gMap' w) w := by
  rw [hasFDerivAt_pi']
  intro k
  have h2 : (ContinuousLinearMap.proj k).comp (gMap' w) =
      w k • (-((1 + ∑ j, w j) ^ 2)⁻¹ • ∑ j, (ContinuousLinearMap.proj j : (Fin n → ℝ) →L[ℝ] ℝ)) +
      (1 + ∑ j, w j)⁻¹ • ContinuousLinearMap.proj k := by
    ext v; simp [gMap']
  rw [h2]
  have hs : HasFDerivAt (fun w : Fin n → ℝ => 1 + ∑ j, w j)
      (∑ j, (ContinuousLinearMap.proj j : (Fin n → ℝ) →L[ℝ] ℝ)) w := by
    have := (HasFDerivAt.fun_sum (u := Finset.univ) (fun j (_ : j ∈ Finset.univ) =>
      hasFDerivAt_apply (𝕜 := ℝ) (j : Fin n) w)).const_add (1:ℝ)
    exact this
  have hi : HasFDerivAt (fun w : Fin n → ℝ => (1 + ∑ j, w j)⁻¹)
      (-((1 + ∑ j, w j) ^ 2)⁻¹ • ∑ j, (ContinuousLinearMap.proj j : (Fin n → ℝ) →L[ℝ] ℝ)) w :=
    (hasDerivAt_inv hw).comp_hasFDerivAt w hs
  exact (hasFDerivAt_apply (𝕜 := ℝ) k w).mul hi

theorem det_gMap' (w : Fin n → ℝ) (hw : 1 + ∑ j, w j ≠ 0) :
    (gMap' w).det = ((1 + ∑ j, w j) ^ (n + 1))⁻¹ := by
  set s := 1 + ∑ j, w j with hs
  let u : Fin n → ℝ := fun k => - (w k * s⁻¹)
  let A : Matrix (Fin n) (Fin n) ℝ := s⁻¹ • (1 + Matrix.of (fun i j => u i * 1))
  have hlin : ((gMap' w : (Fin n → ℝ) →L[ℝ] (Fin n → ℝ)) : (Fin n → ℝ) →ₗ[ℝ] (Fin n → ℝ)) =
      Matrix.toLin' A := by
    apply LinearMap.ext
    intro v
    funext i
    rw [Matrix.toLin'_apply]
    simp only [A, Matrix.smul_mulVec, Matrix.add_mulVec, Matrix.one_mulVec, Pi.smul_apply,
      Pi.add_apply, smul_eq_mul]
    have : (Matrix.of (fun i j => u i * 1) : Matrix (Fin n) (Fin n) ℝ).mulVec v i = u i * ∑ j, v j := by
      simp [Matrix.mulVec, dotProduct, Finset.mul_sum]
    rw [this]
    simp [gMap', u, ← hs]
    field_simp
    ring
  show LinearMap.det _ = _
  rw [hlin, LinearMap.det_toLin']
  have hA : A = s⁻¹ • (1 + (Matrix.of (fun i (_ : Unit) => u i)) * (Matrix.of (fun (_ : Unit) (_ : Fin n) => (1:ℝ)))) := by
    ext i j
    simp [A, Matrix.mul_apply, mul_add]
  rw [hA, Matrix.det_smul, Matrix.det_one_add_mul_comm]
  have : (1 + (Matrix.of (fun (_ : Unit) (_ : Fin n) => (1:ℝ))) * (Matrix.of (fun i (_ : Unit) => u i))).det
      = 1 + ∑ i, u i := by
    rw [Matrix.det_unique]
    simp [Matrix.mul_apply]
  rw [this, Fintype.card_fin]
  have h2 : 1 + ∑ i, u i = s⁻¹ := by
    simp only [u, Finset.sum_neg_distrib, ← Finset.sum_mul]
    have : ∑ j, w j = s - 1 := by rw [hs]; ring
    rw [this]
    field_simp
    ring
  rw [h2, pow_succ, mul_inv, inv_pow]

theorem one_add_sum_pos {w : Fin n → ℝ} (hw : w ∈ pos n) : 0 < 1 + ∑ j, w j := by
  have : 0 ≤ ∑ j, w j := Finset.sum_nonneg (fun j _ => (hw j).le)
  linarith

theorem sum_gMap (w : Fin n → ℝ) : ∑ k, gMap w k = (∑ k, w k) * (1 + ∑ j, w j)⁻¹ := by
  simp [gMap, Finset.sum_mul]

theorem one_sub_sum_gMap {w : Fin n → ℝ} (hw : w ∈ pos n) :
    1 - ∑ k, gMap w k = (1 + ∑ j, w j)⁻¹ := by
  rw [sum_gMap]
  have := (one_add_sum_pos hw).ne'
  field_simp
  ring

theorem gMap_image : gMap '' pos n = osimplex n := by
  ext z
  constructor
  · rintro ⟨w, hw, rfl⟩
    refine ⟨fun k => mul_pos (hw k) (inv_pos.2 (one_add_sum_pos hw)), ?_⟩
    have h1 := one_sub_sum_gMap hw
    have h2 := inv_pos.2 (one_add_sum_pos hw)
    linarith
  · rintro ⟨h1, h2⟩
    have hd : 0 < 1 - ∑ k, z k := by linarith
    refine ⟨fun k => z k * (1 - ∑ k, z k)⁻¹, fun k => mul_pos (h1 k) (inv_pos.2 hd), ?_⟩
    funext k
    simp only [gMap, ← Finset.sum_mul]
    have := hd.ne'
    have e : 1 + (∑ i, z i) * (1 - ∑ k, z k)⁻¹ = (1 - ∑ k, z k)⁻¹ := by field_simp; ring
    rw [e, inv_inv]
    field_simp

theorem gMap_injOn : Set.InjOn gMap (pos n) := by
  intro w hw v hv h
  have h1 := one_sub_sum_gMap hw
  have h2 := one_sub_sum_gMap hv
  rw [h, h2] at h1
  funext k
  have := congrFun h k
  simp only [gMap, h1] at this
  exact mul_right_cancel₀ (inv_pos.2 (one_add_sum_pos hw)).ne' this

theorem simplex_integral (g : (Fin n → ℝ) → V) :
    ∫ z in osimplex n, g z = ∫ w in pos n, ((1 + ∑ j, w j) ^ (n + 1))⁻¹ • g (gMap w) := by
  rw [← gMap_image, integral_image_eq_integral_abs_det_fderiv_smul volume measurableSet_pos
    (fun y hy => (hasFDerivAt_gMap y (one_add_sum_pos hy).ne').hasFDerivWithinAt) gMap_injOn]
  apply setIntegral_congr_fun measurableSet_pos
  intro y hy
  simp only
  rw [det_gMap' y (one_add_sum_pos hy).ne', abs_of_pos (inv_pos.2 (pow_pos (one_add_sum_pos hy) _))]

theorem simplex_integrable (g : (Fin n → ℝ) → V) :
    IntegrableOn g (osimplex n) ↔
      IntegrableOn (fun w => ((1 + ∑ j, w j) ^ (n + 1))⁻¹ • g (gMap w)) (pos n) := by
  rw [← gMap_image, integrableOn_image_iff_integrableOn_abs_det_fderiv_smul volume measurableSet_pos
    (fun y hy => (hasFDerivAt_gMap y (one_add_sum_pos hy).ne').hasFDerivWithinAt) gMap_injOn]
  apply integrableOn_congr_fun _ measurableSet_pos
  intro y hy
  simp only
  rw [det_gMap' y (one_add_sum_pos hy).ne', abs_of_pos (inv_pos.2 (pow_pos (one_add_sum_pos hy) _))]

/-! ### orthant to cubes -/

noncomputable def hMap (i : Fin n) (y : Fin n → ℝ) : Fin n → ℝ :=
  fun k => (if k = i then 1 else y k) * (y i)⁻¹

noncomputable def hMap' (i : Fin n) (y : Fin n → ℝ) : (Fin n → ℝ) →L[ℝ] (Fin n → ℝ) :=
  ContinuousLinearMap.pi (fun k =>
    (if k = i then 1 else y k) • (-((y i) ^ 2)⁻¹ • (ContinuousLinearMap.proj i : (Fin n → ℝ) →L[ℝ] ℝ)) +
    (y i)⁻¹ • (if k = i then 0 else ContinuousLinearMap.proj k))

theorem hasFDerivAt_hMap (i : Fin n) (y : Fin n → ℝ) (hy : y i ≠ 0) :
    HasFDerivAt (hMap i) (hMap' i y) y := by
  rw [hasFDerivAt_pi']
  intro k
  have h2 : (ContinuousLinearMap.proj k).comp (hMap' i y) =
      (if k = i then 1 else y k) • (-((y i) ^ 2)⁻¹ • (ContinuousLinearMap.proj i : (Fin n → ℝ) →L[ℝ] ℝ)) +
      (y i)⁻¹ • (if k = i then 0 else ContinuousLinearMap.proj k) := by
    ext v; by_cases h : k = i <;> simp [hMap', h]
  rw [h2]
  have hi : HasFDerivAt (fun y : Fin n → ℝ => (y i)⁻¹)
      (-((y i) ^ 2)⁻¹ • (ContinuousLinearMap.proj i : (Fin n → ℝ) →L[ℝ] ℝ)) y :=
    (hasDerivAt_inv hy).comp_hasFDerivAt y (hasFDerivAt_apply (𝕜 := ℝ) i y)
  have hn : HasFDerivAt (fun y : Fin n → ℝ => if k = i then (1:ℝ) else y k)
      (if k = i then 0 else ContinuousLinearMap.proj k : (Fin n → ℝ) →L[ℝ] ℝ) y := by
    by_cases h : k = i
    · simp only [h, if_true]; exact hasFDerivAt_const _ _
    · simp only [h, if_false]; exact hasFDerivAt_apply (𝕜 := ℝ) k y
  exact hn.mul hi

theorem det_hMap' (i : Fin n) (y : Fin n → ℝ) (hy : y i ≠ 0) :
    (hMap' i y).det = - ((y i) ^ (n + 1))⁻¹ := by
  let d : Fin n → ℝ := fun k => if k = i then -((y i) ^ 2)⁻¹ else (y i)⁻¹
  let c : Fin n → ℝ := fun k => if k = i then 0 else y k
  let B : Matrix (Fin n) (Fin n) ℝ := Matrix.diagonal d
  let A : Matrix (Fin n) (Fin n) ℝ := Matrix.of (fun k j => B k j + c k * B i j)
  have hA : A.det = B.det :=
    Matrix.det_eq_of_forall_row_eq_smul_add_const (A := A) (B := B) c i (by simp [c])
      (fun i j => rfl)
  have hlin : ((hMap' i y : (Fin n → ℝ) →L[ℝ] (Fin n → ℝ)) : (Fin n → ℝ) →ₗ[ℝ] (Fin n → ℝ)) =
      Matrix.toLin' A := by
    apply LinearMap.ext
    intro v
    funext k
    rw [Matrix.toLin'_apply]
    simp only [Matrix.mulVec, dotProduct, A, Matrix.of_apply, add_mul, Finset.sum_add_distrib, B,
      Matrix.diagonal_apply]
    have e1 : ∑ j, (if k = j then d k else 0) * v j = d k * v k := by
      rw [Finset.sum_eq_single k] <;> simp +contextual [eq_comm]
    have e2 : ∑ j, c k * (if i = j then d i else 0) * v j = c k * d i * v i := by
      rw [Finset.sum_eq_single i] <;> simp +contextual [eq_comm]
    rw [e1, e2]
    by_cases h : k = i
    · subst h; simp [hMap', d, c]
    · simp [hMap', h, d, c]; ring
  show LinearMap.det _ = _
  rw [hlin, LinearMap.det_toLin', hA, Matrix.det_diagonal]
  rw [← Finset.mul_prod_erase _ _ (Finset.mem_univ i)]
  have : ∏ x ∈ Finset.univ.erase i, d x = ((y i)⁻¹) ^ (n - 1) := by
    rw [Finset.prod_congr rfl (g := fun _ => (y i)⁻¹)]
    · simp
    · intro k hk
      simp [d, Finset.ne_of_mem_erase hk]
  rw [this]
  simp only [d, if_true]
  have hn : n - 1 + 2 = n + 1 := by have := i.pos; omega
  rw [← hn, pow_add, mul_inv, inv_pow]
  ring

/-- the region where variable `i` dominates all others and `1` -/
def region (i : Fin n) : Set (Fin n → ℝ) := {w | w ∈ pos n ∧ 1 < w i ∧ ∀ k, k ≠ i → w k < w i}

theorem hMap_image (i : Fin n) : hMap i '' oc n = region i := by
  ext w
  constructor
  · rintro ⟨y, hy, rfl⟩
    rw [mem_oc] at hy
    have hpos : 0 < (y i)⁻¹ := inv_pos.2 (hy i).1
    refine ⟨fun k => ?_, ?_, fun k hk => ?_⟩
    · refine mul_pos ?_ hpos
      split_ifs
      · exact one_pos
      · exact (hy k).1
    · simp only [hMap, if_true, one_mul]
      exact (one_lt_inv₀ (hy i).1).2 (hy i).2
    · simp only [hMap, if_true, hk, if_false]
      exact mul_lt_mul_of_pos_right (hy k).2 hpos
  · rintro ⟨h1, h2, h3⟩
    refine ⟨fun k => (if k = i then 1 else w k) * (w i)⁻¹, mem_oc.2 fun k => ?_, ?_⟩
    · have hpos : 0 < (w i)⁻¹ := inv_pos.2 (h1 i)
      by_cases hk : k = i
      · subst hk
        simp only [if_true, one_mul]
        exact ⟨hpos, inv_lt_one_of_one_lt₀ h2⟩
      · simp only [hk, if_false]
        refine ⟨mul_pos (h1 k) hpos, ?_⟩
        rw [← div_eq_mul_inv, div_lt_one (h1 i)]
        exact h3 k hk
    · funext k
      have := (h1 i).ne'
      by_cases hk : k = i
      · subst hk; simp [hMap]
      · simp only [hMap, if_true, hk, if_false, one_mul, inv_inv]
        field_simp

theorem hMap_injOn (i : Fin n) : Set.InjOn (hMap i) (oc n) := by
  intro y hy z hz h
  rw [mem_oc] at hy hz
  have hi : y i = z i := by
    have := congrFun h i
    simpa [hMap] using this
  funext k
  by_cases hk : k = i
  · rw [hk, hi]
  · have := congrFun h k
    simp only [hMap, hk, if_false, hi] at this
    exact mul_right_cancel₀ (inv_pos.2 (hz i).1).ne' this

theorem region_integral (i : Fin n) (g : (Fin n → ℝ) → V) :
    ∫ w in region i, g w = ∫ y in oc n, ((y i) ^ (n + 1))⁻¹ • g (hMap i y) := by
  rw [← hMap_image, integral_image_eq_integral_abs_det_fderiv_smul volume measurableSet_oc
    (fun y hy => (hasFDerivAt_hMap i y (mem_oc.1 hy i).1.ne').hasFDerivWithinAt) (hMap_injOn i)]
  apply setIntegral_congr_fun measurableSet_oc
  intro y hy
  simp only
  rw [det_hMap' i y (mem_oc.1 hy i).1.ne', abs_neg,
    abs_of_pos (inv_pos.2 (pow_pos (mem_oc.1 hy i).1 _))]

theorem region_integrable (i : Fin n) (g : (Fin n → ℝ) → V) :
    IntegrableOn g (region i) ↔ IntegrableOn (fun y => ((y i) ^ (n + 1))⁻¹ • g (hMap i y)) (oc n) := by
  rw [← hMap_image, integrableOn_image_iff_integrableOn_abs_det_fderiv_smul volume measurableSet_oc
    (fun y hy => (hasFDerivAt_hMap i y (mem_oc.1 hy i).1.ne').hasFDerivWithinAt) (hMap_injOn i)]
  apply integrableOn_congr_fun _ measurableSet_oc
  intro y hy
  simp only
  rw [det_hMap' i y (mem_oc.1 hy i).1.ne', abs_neg,
    abs_of_pos (inv_pos.2 (pow_pos (mem_oc.1 hy i).1 _))]

theorem measurableSet_region (i : Fin n) : MeasurableSet (region i) := by
  have : region i = pos n ∩ ({w | 1 < w i} ∩ ⋂ k ∈ {k : Fin n | k ≠ i}, {w | w k < w i}) := by
    ext x; simp [region]; tauto
  rw [this]
  refine measurableSet_pos.inter (MeasurableSet.inter ?_ (MeasurableSet.biInter (Set.to_countable _) fun b _ => ?_))
  · exact measurableSet_lt measurable_const (measurable_pi_apply i)
  · exact measurableSet_lt (measurable_pi_apply b) (measurable_pi_apply i)

theorem one_null (a : Fin n) : volume {x : Fin n → ℝ | x a = 1} = 0 := by
  have h : {x : Fin n → ℝ | x a = 1} = Function.eval a ⁻¹' {1} := by ext; simp
  rw [h, volume_pi]
  exact Measure.pi_hyperplane (fun _ : Fin n => (volume : Measure ℝ)) a 1

/-- The positive orthant is the union of the unit cube and the regions. -/
theorem orthant_split (g : (Fin n → ℝ) → V) (hg : IntegrableOn g (pos n)) :
    ∫ w in pos n, g w = (∫ w in oc n, g w) + ∑ i, ∫ w in region i, g w := by
  classical
  let T : Option (Fin n) → Set (Fin n → ℝ) := fun o => o.elim (oc n) region
  have hTpos : ∀ o, T o ⊆ pos n := by
    intro o x hx
    cases o with
    | none => exact fun k => (mem_oc.1 hx k).1
    | some i => exact hx.1
  have hunion : pos n =ᵐ[volume] ⋃ o ∈ (Finset.univ : Finset (Option (Fin n))), T o := by
    have hsub : (⋃ o ∈ (Finset.univ : Finset (Option (Fin n))), T o) ⊆ pos n := by
      intro x hx
      simp only [Set.mem_iUnion] at hx
      obtain ⟨o, _, hx⟩ := hx
      exact hTpos o hx
    have hties : volume ((⋃ a : Fin n, ⋃ b : Fin n, {x : Fin n → ℝ | a ≠ b ∧ x a = x b}) ∪
        (⋃ a : Fin n, {x : Fin n → ℝ | x a = 1})) = 0 := by
      rw [measure_union_null_iff]
      constructor
      · rw [measure_iUnion_null_iff]
        intro a
        rw [measure_iUnion_null_iff]
        intro b
        by_cases hab : a = b
        · simp [hab]
        · exact measure_mono_null (fun x hx => hx.2) (tie_null a b hab)
      · rw [measure_iUnion_null_iff]
        exact one_null
    refine (Filter.EventuallyLE.antisymm ?_ hsub.eventuallyLE)
    rw [ae_le_set]
    refine measure_mono_null ?_ hties
    rintro x ⟨hx, hnot⟩
    by_contra hno
    apply hnot
    simp only [Set.mem_union, Set.mem_iUnion, not_or, not_exists] at hno
    obtain ⟨hno1, hno2⟩ := hno
    simp only [Set.mem_iUnion]
    by_cases hall : ∀ k, x k < 1
    · exact ⟨none, Finset.mem_univ _, mem_oc.2 fun k => ⟨hx k, hall k⟩⟩
    · push Not at hall
      obtain ⟨k0, hk0⟩ := hall
      obtain ⟨i, _, hmax⟩ := Finset.exists_max_image (Finset.univ : Finset (Fin n)) x ⟨k0, Finset.mem_univ _⟩
      refine ⟨some i, Finset.mem_univ _, hx, ?_, ?_⟩
      · refine lt_of_le_of_ne (hk0.trans (hmax k0 (Finset.mem_univ _))) ?_
        intro h
        exact hno2 i h.symm
      · intro k hk
        refine lt_of_le_of_ne (hmax k (Finset.mem_univ _)) ?_
        intro h
        exact hno1 k i ⟨hk, h⟩
  rw [setIntegral_congr_set hunion, integral_biUnion_finset]
  · rw [Fintype.sum_option]; rfl
  · intro o _
    cases o with
    | none => exact measurableSet_oc
    | some i => exact measurableSet_region i
  · intro o _ o' _ hne
    rw [Function.onFun, Set.disjoint_left]
    intro x hx hx'
    cases o with
    | none =>
      cases o' with
      | none => exact hne rfl
      | some i => exact lt_asymm (mem_oc.1 hx i).2 hx'.2.1
    | some j =>
      cases o' with
      | none => exact lt_asymm (mem_oc.1 hx' j).2 hx.2.1
      | some i =>
        have hij : i ≠ j := fun h => hne (by rw [h])
        exact lt_asymm (hx.2.2 i hij) (hx'.2.2 j hij.symm)
  · intro o _
    exact hg.mono_set (hTpos o)

end SecDec.Decomp
