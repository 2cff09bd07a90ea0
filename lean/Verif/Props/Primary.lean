import Verif.Model.Primary
import Verif.Spec.Primary
import Verif.Proof.PrimaryIntegral
/-
Property C17 (primary decomposition) and the Cheng-Wu part of C19.
-/
set_option linter.unusedSectionVars false
namespace SecDec.Decomp
open SecDec SecDec.Squash MeasureTheory

variable {n : Nat} {R E : Type}
variable {V : Type} [NormedAddCommGroup V] [NormedSpace ℝ V]

/-! ### values -/

theorem mono_deleteCol {K : Type} [Field K] (i : Fin (n+1)) (y : Fin n → K) (e : Expo (n+1)) :
    Poly.mono y (deleteCol i e) = Poly.mono (i.insertNth (1:K) y) e := by
  unfold Poly.mono deleteCol
  rw [Fin.prod_univ_succAbove _ i]
  simp

theorem mono_zeroCol {K : Type} [Field K] (i : Fin n) (y : Fin n → K) (e : Expo n) :
    Poly.mono y (zeroCol i e) = Poly.mono (Function.update y i (1:K)) e := by
  unfold Poly.mono zeroCol
  apply Finset.prod_congr rfl
  intro k _
  by_cases h : k = i
  · subst h; simp
  · simp [h]

theorem value_mapExpo {K : Type} [Field K] {m : Nat} (f : Expo n → Expo m) (x : Fin n → K)
    (y : Fin m → K) (h : ∀ e, Poly.mono y (f e) = Poly.mono x e) (s : Sector n K E) :
    (Sector.mapExpo f s).value y = s.value x := by
  have hp : ∀ (terms : List (Expo n × K)) (ex : Option E),
      (⟨terms.map (fun t => (f t.1, t.2)), ex⟩ : SPoly m K E).eval y = (⟨terms, ex⟩ : SPoly n K E).eval x := by
    intro terms ex
    unfold SPoly.eval Poly.eval
    simp only [List.map_map]
    congr 1
    apply List.map_congr_left
    intro t _
    simp [Function.comp, h]
  unfold Sector.value Sector.mapExpo
  simp only [List.map_map, h]
  congr 1
  · apply List.map_congr_left
    intro p _
    simp only [Function.comp, hp, h]
  · apply List.map_congr_left
    intro p _
    simp only [Function.comp, hp]

/-- C17: for every selection of variables, the primary decomposition yields one sector per selected
variable, in order; in the sector of variable `i` all polynomials and the Jacobian have the value of
the original ones with variable `i` set to one (and the other variables in their original order). -/
theorem C17_primary_sectors {K : Type} [Field K] (s : Sector (n+1) K E) (indices : List (Fin (n+1))) :
    List.Forall₂ (fun i t => t.jac.2 = s.jac.2 ∧ ∀ y : Fin n → K, t.value y = s.value (i.insertNth (1:K) y))
      indices (primaryDecomposition s indices) := by
  unfold primaryDecomposition
  rw [List.forall₂_map_right_iff, List.forall₂_same]
  intro i _
  exact ⟨rfl, fun y => value_mapExpo _ _ _ (mono_deleteCol i y) s⟩

/-- C17: with a single index, one sector with the same number of variables in which the selected
variable is set to one. -/
theorem C17_primary_sectors_single {K : Type} [Field K] (s : Sector n K E) (i : Fin n) :
    ∃ t, primaryDecompositionSingle s i = [t] ∧ t.jac.2 = s.jac.2 ∧
      ∀ y : Fin n → K, t.value y = s.value (Function.update y i (1:K)) :=
  ⟨_, rfl, rfl, fun y => value_mapExpo _ _ _ (mono_zeroCol i y) s⟩

/-! ### integrals -/

theorem pos_perm_integral (π : Equiv.Perm (Fin n)) (A : Set (Fin n → ℝ))
    (hA : ∀ x, x ∘ π ∈ A ↔ x ∈ A) (f : (Fin n → ℝ) → V) :
    (∫ x in A, f (x ∘ π) = ∫ x in A, f x) ∧
    (IntegrableOn (fun x => f (x ∘ π)) A ↔ IntegrableOn f A) := by
  have hmp := volume_measurePreserving_piCongrLeft (fun _ : Fin n => ℝ) π.symm
  have happ : ∀ x, MeasurableEquiv.piCongrLeft (fun _ : Fin n => ℝ) π.symm x = x ∘ π := by
    intro x
    funext i
    simp [MeasurableEquiv.coe_piCongrLeft, Equiv.piCongrLeft_apply]
  have hpre : (MeasurableEquiv.piCongrLeft (fun _ : Fin n => ℝ) π.symm) ⁻¹' A = A := by
    ext x
    rw [Set.mem_preimage, happ, hA]
  constructor
  · have := hmp.setIntegral_preimage_emb (MeasurableEquiv.measurableEmbedding _) f A
    rw [hpre] at this
    rw [← this]
    congr 1
    funext x
    rw [happ]
  · have := hmp.integrableOn_comp_preimage (MeasurableEquiv.measurableEmbedding _) (f := f) (s := A)
    rw [hpre] at this
    rw [← this]
    apply iff_of_eq
    congr 1
    funext x
    rw [Function.comp, happ]

/-- the permutation which relates the order of variables -/
theorem exists_sigma (i : Fin n) : ∃ σ : Equiv.Perm (Fin n), ∀ y : Fin n → ℝ,
    (Fin.snoc (fun k => if k = i then 1 else y k) (y i) : Fin (n+1) → ℝ) =
      (i.castSucc).insertNth (1:ℝ) (y ∘ σ) := by
  have hne : ∀ k, Equiv.swap i.castSucc (Fin.last n) (i.castSucc.succAbove k) ≠ Fin.last n := by
    intro k h
    have := (Equiv.swap i.castSucc (Fin.last n)).injective (h.trans (Equiv.swap_apply_left _ _).symm)
    exact Fin.succAbove_ne _ _ this
  let σ0 : Fin n → Fin n := fun k => (Equiv.swap i.castSucc (Fin.last n) (i.castSucc.succAbove k)).castPred (hne k)
  have hinj : Function.Injective σ0 := by
    intro k l h
    have h1 := congrArg Fin.castSucc h
    simp only [σ0, Fin.castSucc_castPred] at h1
    exact Fin.succAbove_right_injective ((Equiv.swap i.castSucc (Fin.last n)).injective h1)
  refine ⟨Equiv.ofBijective σ0 (Finite.injective_iff_bijective.1 hinj), fun y => ?_⟩
  have hQ : (Fin.snoc (fun k => if k = i then 1 else y k) (y i) : Fin (n+1) → ℝ) =
      fun x => (Fin.snoc y 1 : Fin (n+1) → ℝ) (Equiv.swap i.castSucc (Fin.last n) x) := by
    funext x
    refine Fin.lastCases ?_ (fun k => ?_) x
    · simp
    · by_cases hk : k = i
      · subst hk; simp
      · have h1 : k.castSucc ≠ i.castSucc := fun h => hk (Fin.castSucc_injective _ h)
        have h2 : k.castSucc ≠ Fin.last n := (Fin.castSucc_lt_last k).ne
        rw [Equiv.swap_apply_of_ne_of_ne h1 h2]
        simp [hk]
  rw [hQ]
  funext x
  refine Fin.succAboveCases i.castSucc ?_ (fun k => ?_) x
  · simp
  · rw [Fin.insertNth_apply_succAbove]
    simp only [Function.comp, Equiv.ofBijective_apply, σ0]
    have : Equiv.swap i.castSucc (Fin.last n) (i.castSucc.succAbove k) =
        ((Equiv.swap i.castSucc (Fin.last n) (i.castSucc.succAbove k)).castPred (hne k)).castSucc := by simp
    conv_lhs => rw [this]
    rw [Fin.snoc_castSucc]

theorem delta_eq_orthant {f : (Fin (n+1) → ℝ) → V} (hf : Projective f) :
    (deltaIntegral f = ∫ w in pos n, f (Fin.snoc w 1)) ∧
    (DeltaIntegrable f ↔ IntegrableOn (fun w => f (Fin.snoc w 1)) (pos n)) := by
  have key : ∀ w ∈ pos n, ((1 + ∑ j, w j) ^ (n + 1))⁻¹ •
      f (Fin.snoc (gMap w) (1 - ∑ k, gMap w k)) = f (Fin.snoc w 1) := by
    intro w hw
    have hs := one_add_sum_pos hw
    have h1 : (Fin.snoc (gMap w) (1 - ∑ k, gMap w k) : Fin (n+1) → ℝ) =
        fun k => (1 + ∑ j, w j)⁻¹ * (Fin.snoc w 1 : Fin (n+1) → ℝ) k := by
      rw [one_sub_sum_gMap hw]
      funext x
      refine Fin.lastCases ?_ (fun k => ?_) x
      · simp
      · simp [gMap, mul_comm]
    rw [h1, hf _ _ (inv_pos.2 hs), smul_smul, inv_pow, inv_inv, inv_mul_cancel₀ (pow_pos hs _).ne',
      one_smul]
    intro k
    refine Fin.lastCases ?_ (fun k => ?_) k
    · simp
    · simpa using hw k
  constructor
  · unfold deltaIntegral
    change ∫ z in osimplex n, _ = _
    rw [simplex_integral]
    exact setIntegral_congr_fun measurableSet_pos key
  · unfold DeltaIntegrable
    change IntegrableOn _ (osimplex n) ↔ _
    rw [simplex_integrable]
    exact integrableOn_congr_fun key measurableSet_pos

theorem inversion_value {f : (Fin (n+1) → ℝ) → V} (hf : Projective f) (i : Fin n) (y : Fin n → ℝ)
    (hy : y ∈ pos n) : ((y i) ^ (n + 1))⁻¹ • f (Fin.snoc (hMap i y) 1) =
      f (Fin.snoc (fun k => if k = i then 1 else y k) (y i)) := by
  have h1 : (Fin.snoc (hMap i y) 1 : Fin (n+1) → ℝ) =
      fun k => (y i)⁻¹ * (Fin.snoc (fun k => if k = i then 1 else y k) (y i) : Fin (n+1) → ℝ) k := by
    funext x
    refine Fin.lastCases ?_ (fun k => ?_) x
    · simp [(hy i).ne']
    · simp [hMap, mul_comm]
  rw [h1, hf _ _ (inv_pos.2 (hy i)), smul_smul, inv_pow, inv_inv,
    inv_mul_cancel₀ (pow_pos (hy i) _).ne', one_smul]
  intro k
  refine Fin.lastCases ?_ (fun k => ?_) k
  · simpa using hy i
  · simp only [Fin.snoc_castSucc]
    split_ifs
    · exact one_pos
    · exact hy k

theorem oc_comp (π : Equiv.Perm (Fin n)) (x : Fin n → ℝ) : x ∘ π ∈ oc n ↔ x ∈ oc n := by
  rw [mem_oc, mem_oc]
  exact π.forall_congr_left.trans (by simp)

theorem pos_comp (π : Equiv.Perm (Fin n)) (x : Fin n → ℝ) : x ∘ π ∈ pos n ↔ x ∈ pos n := by
  exact π.forall_congr_left.trans (by simp [pos])

/-- The mathematical content of the primary decomposition. -/
theorem primary_integral {f : (Fin (n+1) → ℝ) → V} (hf : Projective f) (hint : DeltaIntegrable f) :
    (∀ i : Fin (n+1), IntegrableOn (fun y => f (i.insertNth (1:ℝ) y)) (oc n)) ∧
    ∑ i : Fin (n+1), ∫ y in oc n, f (i.insertNth (1:ℝ) y) = deltaIntegral f := by
  obtain ⟨h1, h2⟩ := delta_eq_orthant hf
  rw [h2] at hint
  have hlast : ∀ y : Fin n → ℝ, ((Fin.last n).insertNth (1:ℝ) y : Fin (n+1) → ℝ) = Fin.snoc y 1 := by
    intro y; rw [Fin.insertNth_last']
  have hregion : ∀ i : Fin n, IntegrableOn (fun y => f (i.castSucc.insertNth (1:ℝ) y)) (oc n) ∧
      ∫ w in region i, f (Fin.snoc w 1) = ∫ y in oc n, f (i.castSucc.insertNth (1:ℝ) y) := by
    intro i
    obtain ⟨σ, hσ⟩ := exists_sigma i
    have hval : ∀ y ∈ oc n, ((y i) ^ (n + 1))⁻¹ • f (Fin.snoc (hMap i y) 1) =
        f (i.castSucc.insertNth (1:ℝ) (y ∘ σ)) := by
      intro y hy
      rw [inversion_value hf i y (fun k => (mem_oc.1 hy k).1), hσ]
    obtain ⟨p1, p2⟩ := pos_perm_integral σ (oc n) (oc_comp σ) (fun y => f (i.castSucc.insertNth (1:ℝ) y))
    constructor
    · rw [← p2, ← integrableOn_congr_fun hval measurableSet_oc, ← region_integrable i (fun w => f (Fin.snoc w 1))]
      exact hint.mono_set (fun x hx => hx.1)
    · rw [region_integral, setIntegral_congr_fun measurableSet_oc hval, p1]
  constructor
  · intro i
    refine Fin.lastCases ?_ (fun k => ?_) i
    · simp only [hlast]
      exact hint.mono_set (fun x hx k => (mem_oc.1 hx k).1)
    · exact (hregion k).1
  · rw [h1, orthant_split _ hint, Fin.sum_univ_castSucc, add_comm]
    congr 1
    · simp only [hlast]
    · exact Finset.sum_congr rfl (fun i _ => (hregion i).2.symm)

/-- C17: the primary decomposition over all variables.  If the sector's integrand is homogeneous of
degree minus the number of variables and the integral with the Dirac delta exists, then the integrals
of the primary sectors over the unit hypercube exist and add up to it. -/
theorem C17_primary_decomposition_integral (s : Sector (n+1) ℝ E)
    (F : List (ℝ × Option E) → List (ℝ × Option E) → V)
    (hhom : Projective (integrand F s)) (hint : DeltaIntegrable (integrand F s)) :
    (∀ t ∈ primaryDecomposition s (List.finRange (n+1)), CubeIntegrable (integrand F t)) ∧
    ((primaryDecomposition s (List.finRange (n+1))).map (fun t => cubeIntegral (integrand F t))).sum =
      deltaIntegral (integrand F s) := by
  have hval : ∀ i : Fin (n+1), integrand F (Sector.mapExpo (deleteCol i) s) =
      fun y => integrand F s (i.insertNth (1:ℝ) y) := by
    intro i
    funext y
    unfold integrand
    rw [value_mapExpo _ _ _ (mono_deleteCol i y) s]
    rfl
  obtain ⟨h1, h2⟩ := primary_integral hhom hint
  constructor
  · intro t ht
    obtain ⟨i, _, rfl⟩ := List.mem_map.1 ht
    rw [hval]
    exact (integrableOn_congr_set_ae oc_ae).1 (h1 i)
  · rw [← h2]
    unfold primaryDecomposition
    rw [List.map_map, ← List.ofFn_eq_map, List.sum_ofFn]
    apply Finset.sum_congr rfl
    intro i _
    simp only [Function.comp, hval]
    exact (setIntegral_congr_set oc_ae).symm

/-- C17 for a sector with a single variable: the integral with the Dirac delta is the value at one,
and so is the integral of the single primary sector (which keeps the variable). -/
theorem C17_primary_decomposition_integral_single [CompleteSpace V] (s : Sector 1 ℝ E)
    (F : List (ℝ × Option E) → List (ℝ × Option E) → V) :
    ((primaryDecompositionSingle s 0).map (fun t => cubeIntegral (integrand F t))).sum =
      deltaIntegral (integrand F s) := by
  have hval : integrand F (Sector.mapExpo (zeroCol 0) s) = fun _ => integrand F s (fun _ => 1) := by
    funext y
    unfold integrand
    rw [value_mapExpo _ _ _ (mono_zeroCol 0 y) s]
    have : Function.update y 0 1 = fun _ : Fin 1 => (1:ℝ) := by
      funext k
      have : k = 0 := Subsingleton.elim _ _
      subst this; simp
    rw [this]
    rfl
  have hS : Simplex 0 = Set.univ := by ext; simp [Simplex]
  unfold primaryDecompositionSingle deltaIntegral
  simp only [List.map_cons, List.map_nil, List.sum_cons, List.sum_nil, add_zero, hval, hS]
  have hpt : ∀ z : Fin 0 → ℝ, (Fin.snoc z (1 - ∑ k, z k) : Fin 1 → ℝ) = fun _ => 1 := by
    intro z
    funext k
    refine Fin.lastCases ?_ (fun k => k.elim0) k
    rw [Fin.snoc_last]
    simp
  simp only [hpt]
  unfold cubeIntegral
  rw [setIntegral_const, setIntegral_const]
  have hv : (volume : Measure (Fin 0 → ℝ)) Set.univ = 1 := by
    rw [volume_pi, Measure.pi_univ]; simp
  simp [Measure.real, Real.volume_Icc_pi, hv]

/-! ### C19: Cheng-Wu -/

theorem hMap_image_pos (i : Fin n) : hMap i '' pos n = pos n := by
  have hm : ∀ y ∈ pos n, hMap i y ∈ pos n := by
    intro y hy k
    refine mul_pos ?_ (inv_pos.2 (hy i))
    split_ifs
    · exact one_pos
    · exact hy k
  ext w
  constructor
  · rintro ⟨y, hy, rfl⟩
    exact hm y hy
  · intro hw
    refine ⟨hMap i w, hm w hw, ?_⟩
    funext k
    have := (hw i).ne'
    by_cases hk : k = i
    · subst hk; simp [hMap]
    · simp only [hMap, if_true, hk, if_false, one_mul, inv_inv]
      field_simp

theorem hMap_injOn_pos (i : Fin n) : Set.InjOn (hMap i) (pos n) := by
  intro y hy z hz h
  have hi : y i = z i := by
    have := congrFun h i
    simpa [hMap] using this
  funext k
  by_cases hk : k = i
  · rw [hk, hi]
  · have := congrFun h k
    simp only [hMap, hk, if_false, hi] at this
    exact mul_right_cancel₀ (inv_pos.2 (hz i)).ne' this

/-- C19: the Cheng-Wu theorem for `Cheng_Wu(sector, index)`.  In the resulting sector variable `index`
is set to one in all polynomials; for a homogeneous integrand the integral of the result over the
positive orthant is the integral with the Dirac delta, whichever variable is chosen. -/
theorem C19_cheng_wu (s : Sector (n+1) ℝ E) (index : Fin (n+1))
    (F : List (ℝ × Option E) → List (ℝ × Option E) → V)
    (hhom : Projective (integrand F s)) :
    (∀ y, integrand F (chengWu s index) y = integrand F s (index.insertNth (1:ℝ) y)) ∧
    orthantIntegral (integrand F (chengWu s index)) = deltaIntegral (integrand F s) := by
  have hval : ∀ y, integrand F (chengWu s index) y = integrand F s (index.insertNth (1:ℝ) y) := by
    intro y
    unfold integrand chengWu
    rw [value_mapExpo _ _ _ (mono_deleteCol index y) s]
    rfl
  refine ⟨hval, ?_⟩
  have hfun : integrand F (chengWu s index) = fun y => integrand F s (index.insertNth (1:ℝ) y) :=
    funext hval
  rw [hfun, (delta_eq_orthant hhom).1]
  change ∫ w in pos n, _ = _
  refine Fin.lastCases ?_ (fun i => ?_) index
  · simp only [Fin.insertNth_last']
  · obtain ⟨σ, hσ⟩ := exists_sigma i
    rw [← (pos_perm_integral σ (pos n) (pos_comp σ)
      (fun y => integrand F s (i.castSucc.insertNth (1:ℝ) y))).1]
    have hset : ∫ w in pos n, integrand F s (Fin.snoc w 1) =
        ∫ w in hMap i '' pos n, integrand F s (Fin.snoc w 1) := by rw [hMap_image_pos]
    rw [hset, integral_image_eq_integral_abs_det_fderiv_smul volume measurableSet_pos
      (fun y hy => (hasFDerivAt_hMap i y (hy i).ne').hasFDerivWithinAt) (hMap_injOn_pos i)]
    apply setIntegral_congr_fun measurableSet_pos
    intro y hy
    simp only
    rw [det_hMap' i y (hy i).ne', abs_neg, abs_of_pos (inv_pos.2 (pow_pos (hy i) _)),
      inversion_value hhom i y hy, hσ]

/-! ### non-vacuity -/

/-- A one-loop like sector in two variables: `U = x₀ + x₁` with integrand `U⁻²`, homogeneous of degree
`-2`. -/
def bubble : Sector 2 ℝ ℤ :=
  { jac := (fun _ => 0, 1)
    cast := [⟨(fun _ => 0, 1), ⟨[(![1, 0], 1), (![0, 1], 1)], some (-2)⟩⟩]
    other := [] }

/-- product of powers -/
noncomputable def prodPow (c _o : List (ℝ × Option ℤ)) : ℝ := (c.map (fun p => p.1 ^ (p.2.getD 1))).prod

theorem bubble_integrand : integrand prodPow bubble = fun x => (x 0 + x 1) ^ (-2 : ℤ) := by
  funext x
  simp [integrand, bubble, prodPow, Sector.value, SPoly.eval, Poly.eval, Poly.mono, Fin.prod_univ_two]

example : Projective (integrand prodPow bubble) ∧ DeltaIntegrable (integrand prodPow bubble) := by
  rw [bubble_integrand]
  constructor
  · intro c x hc hx
    have h : c * x 0 + c * x 1 = c * (x 0 + x 1) := by ring
    simp only [h, mul_zpow, smul_eq_mul]
    congr 1
  · have hone : ∀ z : Fin 1 → ℝ, (((Fin.snoc z (1 - ∑ k, z k) : Fin 2 → ℝ) 0 +
        (Fin.snoc z (1 - ∑ k, z k) : Fin 2 → ℝ) 1) ^ (-2 : ℤ) : ℝ) = 1 := by
      intro z
      have h0 : (Fin.snoc z (1 - ∑ k, z k) : Fin 2 → ℝ) 0 = z 0 := Fin.snoc_castSucc (α := fun _ => ℝ) _ z 0
      have h1 : (Fin.snoc z (1 - ∑ k, z k) : Fin 2 → ℝ) 1 = 1 - ∑ k, z k := Fin.snoc_last (α := fun _ => ℝ) _ z
      rw [h0, h1]
      simp
    unfold DeltaIntegrable
    simp only [hone]
    apply integrableOn_const
    · refine ne_top_of_le_ne_top ?_ (measure_mono (t := Set.Icc (0 : Fin 1 → ℝ) 1) ?_)
      · rw [Real.volume_Icc_pi]; simp
      · rintro z ⟨h1, h2⟩
        refine ⟨fun k => (h1 k).le, fun k => ?_⟩
        have : k = 0 := Subsingleton.elim _ _
        subst this
        simp at h2
        exact h2.le
    · simp

end SecDec.Decomp
