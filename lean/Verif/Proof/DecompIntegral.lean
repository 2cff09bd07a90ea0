import Mathlib.MeasureTheory.Function.Jacobian
import Mathlib.LinearAlgebra.Matrix.Determinant.Basic
import Mathlib.Analysis.Calculus.FDeriv.Mul
import Mathlib.Analysis.Calculus.FDeriv.Pi
import Mathlib.MeasureTheory.Measure.Lebesgue.EqHaar
import Verif.Spec.Decomp
namespace SecDec.Decomp
open MeasureTheory

variable {n : Nat} {V : Type} [NormedAddCommGroup V] [NormedSpace ℝ V]

/-- the open unit cube -/
def oc (n : Nat) : Set (Fin n → ℝ) := Set.univ.pi (fun _ => Set.Ioo (0:ℝ) 1)

theorem mem_oc {x : Fin n → ℝ} : x ∈ oc n ↔ ∀ i, 0 < x i ∧ x i < 1 := by
  simp [oc]

theorem oc_ae : oc n =ᵐ[volume] Set.Icc (0 : Fin n → ℝ) 1 := by
  have := Measure.univ_pi_Ioo_ae_eq_Icc (μ := fun _ : Fin n => (volume : Measure ℝ))
    (f := (0 : Fin n → ℝ)) (g := 1)
  exact this

theorem measurableSet_oc : MeasurableSet (oc n) := MeasurableSet.univ_pi fun _ => measurableSet_Ioo

/-- the variable transformation of the subsector with distinguished parameter `a` -/
noncomputable def phi (a : Fin n) (rest : List (Fin n)) (y : Fin n → ℝ) : Fin n → ℝ :=
  fun i => if i ∈ rest then y a * y i else y i

noncomputable def phi' (a : Fin n) (rest : List (Fin n)) (y : Fin n → ℝ) :
    (Fin n → ℝ) →L[ℝ] (Fin n → ℝ) :=
  ContinuousLinearMap.pi (fun i => if i ∈ rest then
    y a • ContinuousLinearMap.proj i + y i • ContinuousLinearMap.proj a
    else ContinuousLinearMap.proj i)

theorem hasFDerivAt_phi (a : Fin n) (rest : List (Fin n)) (y : Fin n → ℝ) :
    HasFDerivAt (phi a rest) (phi' a rest y) y := by
  rw [hasFDerivAt_pi']
  intro i
  by_cases h : i ∈ rest
  · have h1 : (fun y => phi a rest y i) = fun y : Fin n → ℝ => y a * y i := by
      funext y; simp [phi, h]
    have h2 : (ContinuousLinearMap.proj i).comp (phi' a rest y) =
        y a • ContinuousLinearMap.proj i + y i • (ContinuousLinearMap.proj a :
          (Fin n → ℝ) →L[ℝ] ℝ) := by
      ext v; simp [phi', h]
    rw [h1, h2]
    exact (hasFDerivAt_apply (𝕜 := ℝ) a y).mul (hasFDerivAt_apply i y)
  · have h1 : (fun y => phi a rest y i) = fun y : Fin n → ℝ => y i := by
      funext y; simp [phi, h]
    have h2 : (ContinuousLinearMap.proj i).comp (phi' a rest y) =
        (ContinuousLinearMap.proj i : (Fin n → ℝ) →L[ℝ] ℝ) := by
      ext v; simp [phi', h]
    rw [h1, h2]
    exact hasFDerivAt_apply i y

theorem det_phi' (a : Fin n) (rest : List (Fin n)) (ha : a ∉ rest) (hnd : rest.Nodup)
    (y : Fin n → ℝ) : (phi' a rest y).det = y a ^ rest.length := by
  let d : Fin n → ℝ := fun i => if i ∈ rest then y a else 1
  let c : Fin n → ℝ := fun i => if i ∈ rest then y i else 0
  let B : Matrix (Fin n) (Fin n) ℝ := Matrix.diagonal d
  let A : Matrix (Fin n) (Fin n) ℝ := Matrix.of (fun i j => B i j + c i * B a j)
  have hA : A.det = B.det :=
    Matrix.det_eq_of_forall_row_eq_smul_add_const (A := A) (B := B) c a (by simp [c, ha])
      (fun i j => rfl)
  have hlin : ((phi' a rest y : (Fin n → ℝ) →L[ℝ] (Fin n → ℝ)) : (Fin n → ℝ) →ₗ[ℝ] (Fin n → ℝ)) =
      Matrix.toLin' A := by
    apply LinearMap.ext
    intro v
    funext i
    rw [Matrix.toLin'_apply]
    simp only [Matrix.mulVec, dotProduct, A, Matrix.of_apply, add_mul, Finset.sum_add_distrib, B,
      Matrix.diagonal_apply]
    have e1 : ∑ j, (if i = j then d i else 0) * v j = d i * v i := by
      rw [Finset.sum_eq_single i] <;> simp +contextual [eq_comm]
    have e2 : ∑ j, c i * (if a = j then d a else 0) * v j = c i * d a * v a := by
      rw [Finset.sum_eq_single a] <;> simp +contextual [eq_comm]
    rw [e1, e2]
    by_cases h : i ∈ rest
    · simp [phi', h, d, c, ha]
    · simp [phi', h, d, c]
  show LinearMap.det _ = _
  rw [hlin, LinearMap.det_toLin', hA, Matrix.det_diagonal]
  simp only [d]
  rw [Finset.prod_ite]
  simp only [Finset.prod_const_one, mul_one, Finset.prod_const]
  congr 1
  rw [← List.toFinset_card_of_nodup hnd]
  congr 1
  ext i; simp

/-- the domain of the subsector with the largest parameter `a` -/
def dom (a : Fin n) (rest : List (Fin n)) : Set (Fin n → ℝ) := {x | x ∈ oc n ∧ ∀ b ∈ rest, x b < x a}

theorem phi_injOn (a : Fin n) (rest : List (Fin n)) (ha : a ∉ rest) :
    Set.InjOn (phi a rest) (oc n) := by
  intro y hy z hz h
  have hya : y a = z a := by
    have := congrFun h a; simpa [phi, ha] using this
  funext i
  have := congrFun h i
  by_cases hi : i ∈ rest
  · simp only [phi, hi, if_true] at this
    rw [hya] at this
    exact mul_left_cancel₀ (ne_of_gt (mem_oc.1 hz a).1) this
  · simpa [phi, hi] using this

theorem phi_image (a : Fin n) (rest : List (Fin n)) (ha : a ∉ rest) :
    phi a rest '' oc n = dom a rest := by
  ext x
  constructor
  · rintro ⟨y, hy, rfl⟩
    rw [mem_oc] at hy
    refine ⟨mem_oc.2 fun i => ?_, fun b hb => ?_⟩
    · by_cases hi : i ∈ rest
      · simp only [phi, hi, if_true]
        exact ⟨mul_pos (hy a).1 (hy i).1,
          mul_lt_one_of_nonneg_of_lt_one_left (hy a).1.le (hy a).2 (hy i).2.le⟩
      · simp only [phi, hi, if_false]; exact hy i
    · simp only [phi, hb, ha, if_true, if_false]
      exact mul_lt_of_lt_one_right (hy a).1 (hy b).2
  · rintro ⟨hx, hlt⟩
    rw [mem_oc] at hx
    refine ⟨fun i => if i ∈ rest then x i / x a else x i, mem_oc.2 fun i => ?_, ?_⟩
    · by_cases hi : i ∈ rest
      · simp only [hi, if_true]
        exact ⟨div_pos (hx i).1 (hx a).1, (div_lt_one (hx a).1).2 (hlt i hi)⟩
      · simp only [hi, if_false]; exact hx i
    · funext i
      by_cases hi : i ∈ rest
      · simp only [phi, hi, ha, if_true, if_false]
        rw [mul_div_cancel₀ _ (ne_of_gt (hx a).1)]
      · simp [phi, hi]

theorem integral_dom (a : Fin n) (rest : List (Fin n)) (ha : a ∉ rest) (hnd : rest.Nodup)
    (f : (Fin n → ℝ) → V) :
    ∫ x in dom a rest, f x = ∫ y in oc n, y a ^ rest.length • f (phi a rest y) := by
  rw [← phi_image a rest ha]
  rw [integral_image_eq_integral_abs_det_fderiv_smul volume measurableSet_oc
    (fun y _ => (hasFDerivAt_phi a rest y).hasFDerivWithinAt) (phi_injOn a rest ha)]
  apply setIntegral_congr_fun measurableSet_oc
  intro y hy
  simp only [det_phi' a rest ha hnd]
  rw [abs_of_pos (pow_pos (mem_oc.1 hy a).1 _)]

theorem integrable_dom_iff (a : Fin n) (rest : List (Fin n)) (ha : a ∉ rest) (hnd : rest.Nodup)
    (f : (Fin n → ℝ) → V) :
    IntegrableOn f (dom a rest) ↔ IntegrableOn (fun y => y a ^ rest.length • f (phi a rest y)) (oc n) := by
  rw [← phi_image a rest ha]
  rw [integrableOn_image_iff_integrableOn_abs_det_fderiv_smul volume measurableSet_oc
    (fun y _ => (hasFDerivAt_phi a rest y).hasFDerivWithinAt) (phi_injOn a rest ha)]
  apply integrableOn_congr_fun _ measurableSet_oc
  intro y hy
  simp only [det_phi' a rest ha hnd]
  rw [abs_of_pos (pow_pos (mem_oc.1 hy a).1 _)]

theorem measurableSet_dom (a : Fin n) (rest : List (Fin n)) : MeasurableSet (dom a rest) := by
  have : dom a rest = oc n ∩ ⋂ b ∈ rest, {x | x b < x a} := by
    ext x; simp [dom]
  rw [this]
  refine measurableSet_oc.inter (MeasurableSet.biInter rest.finite_toSet.countable fun b _ => ?_)
  exact measurableSet_lt (measurable_pi_apply b) (measurable_pi_apply a)

theorem tie_null (a b : Fin n) (h : a ≠ b) : volume {x : Fin n → ℝ | x a = x b} = 0 := by
  let L : (Fin n → ℝ) →ₗ[ℝ] ℝ :=
    (LinearMap.proj a : (Fin n → ℝ) →ₗ[ℝ] ℝ) - (LinearMap.proj b : (Fin n → ℝ) →ₗ[ℝ] ℝ)
  have hset : {x : Fin n → ℝ | x a = x b} = (LinearMap.ker L : Set (Fin n → ℝ)) := by
    ext x; simp [L, sub_eq_zero]
  rw [hset]
  apply Measure.addHaar_submodule
  intro htop
  have : (Pi.single a 1 : Fin n → ℝ) ∈ LinearMap.ker L := by rw [htop]; trivial
  rw [LinearMap.mem_ker] at this
  simp [L, Pi.single_apply, h.symm] at this

/-- Sector decomposition of the open cube: for each set `S` of parameters the cube splits according
to which of them is largest. -/
theorem cube_split (S : List (Fin n)) (hne : S ≠ []) (f : (Fin n → ℝ) → V)
    (hnd : S.Nodup) (hf : IntegrableOn f (oc n)) :
    ∫ x in oc n, f x = (S.map (fun a => ∫ x in dom a (S.erase a), f x)).sum := by
  classical
  have hunion : oc n =ᵐ[volume] ⋃ a ∈ S.toFinset, dom a (S.erase a) := by
    -- the difference is contained in the ties
    have hsub : (⋃ a ∈ S.toFinset, dom a (S.erase a)) ⊆ oc n := by
      intro x hx
      simp only [Set.mem_iUnion] at hx
      obtain ⟨a, _, hx⟩ := hx
      exact hx.1
    have hties : volume (⋃ a : Fin n, ⋃ b : Fin n, {x : Fin n → ℝ | a ≠ b ∧ x a = x b}) = 0 := by
      rw [measure_iUnion_null_iff]
      intro a
      rw [measure_iUnion_null_iff]
      intro b
      by_cases hab : a = b
      · simp [hab]
      · refine measure_mono_null ?_ (tie_null a b hab)
        intro x hx; exact hx.2
    have hsup : oc n ⊆ (⋃ a ∈ S.toFinset, dom a (S.erase a)) ∪
        (⋃ a : Fin n, ⋃ b : Fin n, {x : Fin n → ℝ | a ≠ b ∧ x a = x b}) := by
      intro x hx
      by_cases ht : ∃ a b : Fin n, a ≠ b ∧ x a = x b
      · right
        obtain ⟨a, b, h⟩ := ht
        simp only [Set.mem_iUnion]
        exact ⟨a, b, h⟩
      · left
        obtain ⟨a, ha, hmax⟩ := Finset.exists_max_image S.toFinset x
          (by rw [List.toFinset_nonempty_iff]; exact hne)
        simp only [Set.mem_iUnion]
        refine ⟨a, ha, hx, fun b hb => ?_⟩
        have hb' := hmax b (by simpa using List.mem_of_mem_erase hb)
        refine lt_of_le_of_ne hb' ?_
        intro he
        apply ht
        refine ⟨b, a, ?_, he⟩
        rintro rfl
        exact hnd.not_mem_erase hb
    refine (Filter.EventuallyLE.antisymm ?_ hsub.eventuallyLE)
    rw [ae_le_set]
    refine measure_mono_null ?_ hties
    intro x hx
    rcases hsup hx.1 with h | h
    · exact absurd h hx.2
    · exact h
  rw [setIntegral_congr_set hunion, integral_biUnion_finset]
  · rw [List.sum_toFinset _ hnd]
  · intro a _; exact measurableSet_dom a _
  · intro a ha b hb hab
    rw [Function.onFun, Set.disjoint_left]
    intro x hxa hxb
    have h1 := hxa.2 b ((List.mem_erase_of_ne (Ne.symm hab)).2 (by simpa using hb))
    have h2 := hxb.2 a ((List.mem_erase_of_ne hab).2 (by simpa using ha))
    exact lt_asymm h1 h2
  · intro a _
    exact hf.mono_set (fun x hx => hx.1)

end SecDec.Decomp
