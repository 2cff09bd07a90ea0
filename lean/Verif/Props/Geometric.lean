import Mathlib.Analysis.SpecialFunctions.ExpDeriv
import Mathlib.Analysis.SpecialFunctions.Log.Deriv
import Mathlib.LinearAlgebra.Matrix.NonsingularInverse
import Verif.Model.Geometric
import Verif.Spec.Geometric
import Verif.Props.Primary
import Verif.Proof.Decomp
/-
Property C19: variable transformations of the geometric decomposition.
-/
set_option linter.unusedSectionVars false
namespace SecDec.Geometric
open SecDec SecDec.Squash SecDec.Decomp MeasureTheory

variable {n m : Nat} {E : Type} {K : Type} [Field K]

theorem mono_transform (T : Matrix (Fin n) (Fin m) Int) (e : Expo n) (y : Fin m → K)
    (hy : ∀ j, y j ≠ 0) :
    Poly.mono y (transformExpo T e) = Poly.mono (fun i => ∏ j, y j ^ (T i j)) e := by
  unfold Poly.mono transformExpo Matrix.vecMul dotProduct
  have h1 : ∀ j, y j ^ (∑ i, e i * T i j) = ∏ i, y j ^ (e i * T i j) := by
    intro j
    induction (Finset.univ : Finset (Fin n)) using Finset.induction_on with
    | empty => simp
    | insert a s ha ih => rw [Finset.sum_insert ha, Finset.prod_insert ha, zpow_add₀ (hy j), ih]
  simp only [h1]
  rw [Finset.prod_comm]
  apply Finset.prod_congr rfl
  intro i _
  rw [← Finset.prod_zpow]
  apply Finset.prod_congr rfl
  intro j _
  rw [mul_comm, zpow_mul]

/-- C19: `transform_variables(p, T)` at `y` is `p` at `x_i = ∏_j y_j^(T_ij)` (for non-zero `y`), and the
coefficients are unchanged. -/
theorem C19_transform_variables (T : Matrix (Fin n) (Fin m) Int) (p : Poly n K) (y : Fin m → K)
    (hy : ∀ j, y j ≠ 0) :
    (transformVariables T p).eval y = p.eval (fun i => ∏ j, y j ^ (T i j)) ∧
    (transformVariables T p).coeffs = p.coeffs := by
  constructor
  · unfold transformVariables Poly.eval
    simp only [List.map_map]
    congr 1
    apply List.map_congr_left
    intro t _
    simp only [Function.comp, mono_transform T t.1 y hy]
  · simp [transformVariables, Poly.coeffs]

/-! ### the change of variables -/

variable {V : Type} [NormedAddCommGroup V] [NormedSpace ℝ V]

noncomputable def tau (T : Matrix (Fin n) (Fin n) Int) (y : Fin n → ℝ) : Fin n → ℝ :=
  fun i => Real.exp (∑ j, (T i j : ℝ) * Real.log (y j))

theorem tau_eq (T : Matrix (Fin n) (Fin n) Int) (y : Fin n → ℝ) (hy : ∀ j, 0 < y j) (i : Fin n) :
    tau T y i = ∏ j, y j ^ (T i j) := by
  unfold tau
  rw [Real.exp_sum]
  apply Finset.prod_congr rfl
  intro j _
  rw [← Real.log_zpow, Real.exp_log (zpow_pos (hy j) _)]

noncomputable def tau' (T : Matrix (Fin n) (Fin n) Int) (y : Fin n → ℝ) :
    (Fin n → ℝ) →L[ℝ] (Fin n → ℝ) :=
  ContinuousLinearMap.pi (fun i => Real.exp (∑ j, (T i j : ℝ) * Real.log (y j)) •
    ∑ j, (T i j : ℝ) • ((y j)⁻¹ • (ContinuousLinearMap.proj j : (Fin n → ℝ) →L[ℝ] ℝ)))

theorem hasFDerivAt_tau (T : Matrix (Fin n) (Fin n) Int) (y : Fin n → ℝ) (hy : ∀ j, 0 < y j) :
    HasFDerivAt (tau T) (tau' T y) y := by
  rw [hasFDerivAt_pi']
  intro i
  have h2 : (ContinuousLinearMap.proj i).comp (tau' T y) =
      Real.exp (∑ j, (T i j : ℝ) * Real.log (y j)) •
        ∑ j, (T i j : ℝ) • ((y j)⁻¹ • (ContinuousLinearMap.proj j : (Fin n → ℝ) →L[ℝ] ℝ)) := by
    ext v; simp [tau']
  rw [h2]
  have hl : ∀ j ∈ (Finset.univ : Finset (Fin n)), HasFDerivAt (fun y : Fin n → ℝ => (T i j : ℝ) * Real.log (y j))
      ((T i j : ℝ) • ((y j)⁻¹ • (ContinuousLinearMap.proj j : (Fin n → ℝ) →L[ℝ] ℝ))) y := by
    intro j _
    exact ((hasFDerivAt_apply (𝕜 := ℝ) j y).log (hy j).ne').const_mul _
  exact (HasFDerivAt.fun_sum hl).exp

theorem det_tau' (T : Matrix (Fin n) (Fin n) Int) (y : Fin n → ℝ) (hy : ∀ j, 0 < y j) :
    (tau' T y).det = (T.det : ℝ) * Poly.mono y (jacExpo T) := by
  let A : Matrix (Fin n) (Fin n) ℝ := Matrix.diagonal (tau T y) * (T.map (fun k => (k : ℝ))) *
    Matrix.diagonal (fun j => (y j)⁻¹)
  have hlin : ((tau' T y : (Fin n → ℝ) →L[ℝ] (Fin n → ℝ)) : (Fin n → ℝ) →ₗ[ℝ] (Fin n → ℝ)) =
      Matrix.toLin' A := by
    apply LinearMap.ext
    intro v
    funext i
    rw [Matrix.toLin'_apply]
    simp only [A, Matrix.mulVec, dotProduct, Matrix.mul_diagonal, Matrix.diagonal_mul, Matrix.map_apply]
    simp [tau', tau, Finset.mul_sum, mul_assoc]
  show LinearMap.det _ = _
  rw [hlin, LinearMap.det_toLin', Matrix.det_mul, Matrix.det_mul, Matrix.det_diagonal, Matrix.det_diagonal]
  have hT : (T.map (fun k => (k : ℝ))).det = (T.det : ℝ) := by
    have := (Int.castRingHom ℝ).map_det T
    simpa [RingHom.mapMatrix_apply] using this.symm
  rw [hT]
  have hx : ∏ i, tau T y i = ∏ j, y j ^ (∑ i, T i j) := by
    simp only [tau_eq T y hy]
    rw [Finset.prod_comm]
    apply Finset.prod_congr rfl
    intro j _
    induction (Finset.univ : Finset (Fin n)) using Finset.induction_on with
    | empty => simp
    | insert a s ha ih => rw [Finset.sum_insert ha, Finset.prod_insert ha, zpow_add₀ (hy j).ne', ih]
  rw [hx]
  have hm : Poly.mono y (jacExpo T) = (∏ j, y j ^ (∑ i, T i j)) * ∏ j, (y j)⁻¹ := by
    unfold Poly.mono jacExpo
    rw [← Finset.prod_mul_distrib]
    apply Finset.prod_congr rfl
    intro j _
    rw [zpow_sub₀ (hy j).ne', zpow_one, div_eq_mul_inv]
  rw [hm]
  ring

theorem log_tau (T : Matrix (Fin n) (Fin n) Int) (y : Fin n → ℝ) (i : Fin n) :
    Real.log (tau T y i) = ∑ j, (T i j : ℝ) * Real.log (y j) := by
  unfold tau; rw [Real.log_exp]

theorem tau_injOn (T : Matrix (Fin n) (Fin n) Int) (hT : T.det ≠ 0) : Set.InjOn (tau T) (oc n) := by
  intro y hy z hz h
  have hTR : (T.map (fun k => (k : ℝ))).det ≠ 0 := by
    have := (Int.castRingHom ℝ).map_det T
    have h2 : (T.map (fun k => (k : ℝ))).det = (T.det : ℝ) := by
      simpa [RingHom.mapMatrix_apply] using this.symm
    rw [h2]; exact_mod_cast hT
  have h1 : (T.map (fun k => (k : ℝ))).mulVec (fun j => Real.log (y j)) =
      (T.map (fun k => (k : ℝ))).mulVec (fun j => Real.log (z j)) := by
    funext i
    have := congrArg Real.log (congrFun h i)
    rw [log_tau, log_tau] at this
    simpa [Matrix.mulVec, dotProduct] using this
  have h2 := Matrix.mulVec_injective_iff_isUnit.2 ((Matrix.isUnit_iff_isUnit_det _).2 (isUnit_iff_ne_zero.2 hTR)) h1
  funext j
  exact Real.log_injOn_pos (mem_oc.1 hy j).1 (mem_oc.1 hz j).1 (congrFun h2 j)

theorem tau_image (T : Matrix (Fin n) (Fin n) Int) : tau T '' oc n = coneRegion T := by
  ext x
  constructor
  · rintro ⟨y, hy, rfl⟩
    rw [mem_oc] at hy
    exact ⟨fun i => Real.exp_pos _, fun j => Real.log (y j), fun j => Real.log_neg (hy j).1 (hy j).2,
      fun i => log_tau T y i⟩
  · rintro ⟨hx, u, hu, h⟩
    refine ⟨fun j => Real.exp (u j), mem_oc.2 fun j => ⟨Real.exp_pos _, Real.exp_lt_one_iff.2 (hu j)⟩, ?_⟩
    funext i
    unfold tau
    simp only [Real.log_exp]
    rw [← h i, Real.exp_log (hx i)]

theorem measurableSet_coneRegion (T : Matrix (Fin n) (Fin n) Int) (hT : T.det ≠ 0) :
    MeasurableSet (coneRegion T) := by
  rw [← tau_image]
  exact measurable_image_of_fderivWithin measurableSet_oc
    (fun y hy => (hasFDerivAt_tau T y (fun j => (mem_oc.1 hy j).1)).hasFDerivWithinAt) (tau_injOn T hT)

theorem cone_integral (T : Matrix (Fin n) (Fin n) Int) (hT : T.det ≠ 0) (f : (Fin n → ℝ) → V) :
    (∫ x in coneRegion T, f x =
      ∫ y in oc n, (((|T.det| : Int) : ℝ) * Poly.mono y (jacExpo T)) • f (tau T y)) ∧
    (IntegrableOn f (coneRegion T) ↔
      IntegrableOn (fun y => (((|T.det| : Int) : ℝ) * Poly.mono y (jacExpo T)) • f (tau T y)) (oc n)) := by
  have habs : ∀ y ∈ oc n, |(tau' T y).det| = ((|T.det| : Int) : ℝ) * Poly.mono y (jacExpo T) := by
    intro y hy
    have hpos : ∀ j, 0 < y j := fun j => (mem_oc.1 hy j).1
    rw [det_tau' T y hpos, abs_mul, Int.cast_abs, abs_of_pos (a := Poly.mono y _)]
    exact Finset.prod_pos (fun j _ => zpow_pos (hpos j) _)
  rw [← tau_image]
  constructor
  · rw [integral_image_eq_integral_abs_det_fderiv_smul volume measurableSet_oc
      (fun y hy => (hasFDerivAt_tau T y (fun j => (mem_oc.1 hy j).1)).hasFDerivWithinAt) (tau_injOn T hT)]
    apply setIntegral_congr_fun measurableSet_oc
    intro y hy
    simp only [habs y hy]
  · rw [integrableOn_image_iff_integrableOn_abs_det_fderiv_smul volume measurableSet_oc
      (fun y hy => (hasFDerivAt_tau T y (fun j => (mem_oc.1 hy j).1)).hasFDerivWithinAt) (tau_injOn T hT)]
    apply integrableOn_congr_fun _ measurableSet_oc
    intro y hy
    simp only [habs y hy]

/-! ### sectors -/

theorem refactorizeProd_value {p q : SProd n K E} (h : refactorizeProd p = some q) (y : Fin n → K)
    (hy : ∀ i, y i ≠ 0) :
    (q.mono.2 * Poly.mono y q.mono.1 * q.poly.eval y, q.poly.exponent) =
    (p.mono.2 * Poly.mono y p.mono.1 * p.poly.eval y, p.poly.exponent) := by
  unfold refactorizeProd at h
  generalize List.finRange n = l at h
  induction l generalizing p with
  | nil => simp at h; subst h; rfl
  | cons i l ih =>
    rw [List.foldlM_cons, Option.bind_eq_bind, Option.bind_eq_some_iff] at h
    obtain ⟨r, hr, h⟩ := h
    rw [ih h]
    obtain ⟨h1, h2⟩ := refactorizeAt_value hr y hy
    rw [h1, h2]

theorem refactorizeProd_isSome (p : SProd n K E) (h : p.poly.terms ≠ []) :
    ∃ q, refactorizeProd p = some q := by
  unfold refactorizeProd
  generalize List.finRange n = l
  induction l generalizing p with
  | nil => exact ⟨p, rfl⟩
  | cons i l ih =>
    have hne : (p.poly.terms.map (fun t => t.1 i)) ≠ [] := by simpa using h
    obtain ⟨m, hm⟩ := Option.isSome_iff_exists.1 (List.isSome_min?_of_ne_nil hne)
    rw [List.foldlM_cons]
    have : refactorizeAt i p = some { mono := (Function.update p.mono.1 i (p.mono.1 i + m), p.mono.2), poly := { p.poly with terms := p.poly.terms.map (fun t => (Function.update t.1 i (t.1 i - m), t.2)) } } := by
      unfold refactorizeAt; rw [hm]; rfl
    rw [this, Option.bind_eq_bind, Option.bind_some]
    exact ih _ (by simpa using h)

theorem makeSectorKu_integrand {s t : Sector n ℝ E} {T : Matrix (Fin n) (Fin n) Int}
    (h : makeSectorKu s T = some t) (F : List (ℝ × Option E) → List (ℝ × Option E) → V)
    (y : Fin n → ℝ) (hy : y ∈ oc n) :
    integrand F t y = (((|T.det| : Int) : ℝ) * Poly.mono y (jacExpo T)) • integrand F s (tau T y) := by
  have hne : ∀ j, y j ≠ 0 := fun j => (mem_oc.1 hy j).1.ne'
  have htau : tau T y = fun i => ∏ j, y j ^ (T i j) := funext (tau_eq T y (fun j => (mem_oc.1 hy j).1))
  unfold makeSectorKu at h
  simp only [Option.map_eq_some_iff] at h
  obtain ⟨cast, hc, rfl⟩ := h
  replace hc := mapM_option_forall₂ hc
  have hv := value_mapExpo (transformExpo T) (tau T y) y
    (fun e => by rw [mono_transform T e y hne, htau]) s
  have hcast : cast.map (fun p => (p.mono.2 * Poly.mono y p.mono.1 * p.poly.eval y, p.poly.exponent)) =
      (s.value (tau T y)).cast := by
    rw [← hv]
    unfold Sector.value
    simp only
    generalize (Sector.mapExpo (transformExpo T) s).cast = l at hc
    induction hc with
    | nil => rfl
    | cons h _ ih => rw [List.map_cons, List.map_cons, ih, refactorizeProd_value h y hne]
  have hother := congrArg Value.other hv
  have hjac := congrArg Value.jac hv
  unfold integrand
  unfold Sector.value at hother hjac ⊢
  unfold Sector.value at hcast
  simp only at hother hjac hcast ⊢
  rw [hcast, hother, smul_smul]
  congr 1
  have hadd : Poly.mono y ((Sector.mapExpo (transformExpo T) s).jac.1 + jacExpo T) =
      Poly.mono y (Sector.mapExpo (transformExpo T) s).jac.1 * Poly.mono y (jacExpo T) :=
    Poly.mono_add y _ _ (fun i hi => absurd hi (hne i)) (fun i hi => absurd hi (hne i))
  rw [hadd, hjac]
  have : (Sector.mapExpo (transformExpo T) s).jac.2 = s.jac.2 := rfl
  rw [this]
  ring

/-- C19: the sector built for a (simplicial) cone.  The integral of the sector over the unit hypercube
is the integral of the original integrand over the region that belongs to the cone, and one exists
iff the other does. -/
theorem C19_cone_sector (s t : Sector n ℝ E) (cone : Matrix (Fin n) (Fin n) Int) (hdet : cone.det ≠ 0)
    (h : makeSectorKu s cone = some t) (F : List (ℝ × Option E) → List (ℝ × Option E) → V) :
    cubeIntegral (integrand F t) = ∫ x in coneRegion cone, integrand F s x ∧
    (CubeIntegrable (integrand F t) ↔ IntegrableOn (integrand F s) (coneRegion cone)) := by
  obtain ⟨h1, h2⟩ := cone_integral cone hdet (integrand F s)
  have heq := makeSectorKu_integrand h F
  constructor
  · rw [h1, ← setIntegral_congr_fun measurableSet_oc heq]
    exact (setIntegral_congr_set oc_ae).symm
  · rw [h2, ← integrableOn_congr_fun heq measurableSet_oc]
    exact (integrableOn_congr_set_ae oc_ae).symm

theorem mapExpo_mapExpo {R : Type} {k : Nat} (f : Expo n → Expo m) (g : Expo m → Expo k) (s : Sector n R E) :
    Sector.mapExpo g (Sector.mapExpo f s) = Sector.mapExpo (fun e => g (f e)) s := by
  simp [Sector.mapExpo, List.map_map, Function.comp_def]

/-- C19: `make_sector` of `geometric_decomposition`, which first introduces one variable per facet and
then keeps those of the cone, is the transformation with the rays of the cone. -/
theorem C19_make_sector_eq_cone_sector {R : Type} [CommRing R] (s : Sector n R E)
    (T : Matrix (Fin n) (Fin m) Int) (coneIndices : Fin n → Fin m) :
    makeSector s T coneIndices = makeSectorKu s (T.submatrix id coneIndices) := by
  unfold makeSector makeSectorKu
  simp only
  have h1 : ∀ e : Expo n, (fun j => transformExpo T e (coneIndices j)) =
      transformExpo (T.submatrix id coneIndices) e := by
    intro e
    funext j
    simp [transformExpo, Matrix.vecMul, dotProduct]
  have h2 : Sector.mapExpo (fun e j => e (coneIndices j)) (Sector.mapExpo (transformExpo T) s) =
      Sector.mapExpo (transformExpo (T.submatrix id coneIndices)) s := by
    rw [mapExpo_mapExpo]
    congr 1
  have hc : (Sector.mapExpo (fun e j => e (coneIndices j)) { Sector.mapExpo (transformExpo T) s with
      jac := ((Sector.mapExpo (transformExpo T) s).jac.1 + jacExpo T,
        (Sector.mapExpo (transformExpo T) s).jac.2) }).cast =
      (Sector.mapExpo (transformExpo (T.submatrix id coneIndices)) s).cast := by rw [← h2]; rfl
  have ho : (Sector.mapExpo (fun e j => e (coneIndices j)) { Sector.mapExpo (transformExpo T) s with
      jac := ((Sector.mapExpo (transformExpo T) s).jac.1 + jacExpo T,
        (Sector.mapExpo (transformExpo T) s).jac.2) }).other =
      (Sector.mapExpo (transformExpo (T.submatrix id coneIndices)) s).other := by rw [← h2]; rfl
  have hj : (Sector.mapExpo (transformExpo (T.submatrix id coneIndices)) s).jac.1 +
      jacExpo (T.submatrix id coneIndices) =
      fun j => ((Sector.mapExpo (transformExpo T) s).jac.1 + jacExpo T) (coneIndices j) := by
    funext j
    have := congrFun (h1 s.jac.1) j
    simp only [Sector.mapExpo, Pi.add_apply, jacExpo, Matrix.submatrix_apply, id] at this ⊢
    rw [this]
  rw [hc, ho, Matrix.det_transpose, hj]
  rfl

/-- C19: the geometric decomposition.  If the regions of the cones (delivered by normaliz) are pairwise
disjoint and cover the integration domain `D` up to a null set, then the integrals of the sectors over
the unit hypercube exist and add up to the integral over `D`. -/
theorem C19_geometric_decomposition (s : Sector n ℝ E) (cones : List (Matrix (Fin n) (Fin n) Int))
    (hdet : ∀ c ∈ cones, c.det ≠ 0) (D : Set (Fin n → ℝ))
    (hdisj : cones.Pairwise (fun a b => Disjoint (coneRegion a) (coneRegion b)))
    (hcover : D =ᵐ[volume] ⋃ c ∈ cones, coneRegion c)
    (sectors : List (Sector n ℝ E)) (h : cones.mapM (makeSectorKu s) = some sectors)
    (F : List (ℝ × Option E) → List (ℝ × Option E) → V) (hint : IntegrableOn (integrand F s) D) :
    (∀ t ∈ sectors, CubeIntegrable (integrand F t)) ∧
    (sectors.map (fun t => cubeIntegral (integrand F t))).sum = ∫ x in D, integrand F s x := by
  replace h := mapM_option_forall₂ h
  have hint' : IntegrableOn (integrand F s) (⋃ c ∈ cones, coneRegion c) :=
    (integrableOn_congr_set_ae hcover).1 hint
  rw [setIntegral_congr_set hcover]
  clear hcover hint
  induction h with
  | nil => simp
  | @cons c t cs ts hct _ ih =>
    have hsplit : (⋃ d ∈ c :: cs, coneRegion d) = coneRegion c ∪ ⋃ d ∈ cs, coneRegion d := by
      ext x; simp
    rw [hsplit] at hint' ⊢
    obtain ⟨h1, h2⟩ := List.pairwise_cons.1 hdisj
    obtain ⟨a1, a2⟩ := ih (fun d hd => hdet d (by simp [hd])) h2 (hint'.mono_set Set.subset_union_right)
    obtain ⟨b1, b2⟩ := C19_cone_sector s t c (hdet c (by simp)) hct F
    constructor
    · intro u hu
      rcases List.mem_cons.1 hu with rfl | hu
      · exact b2.2 (hint'.mono_set Set.subset_union_left)
      · exact a1 u hu
    · rw [List.map_cons, List.sum_cons, a2, b1, setIntegral_union]
      · rw [Set.disjoint_iUnion₂_right]
        exact fun d hd => h1 d hd
      · exact MeasurableSet.biUnion (List.finite_toSet cs).countable
          (fun d hd => measurableSet_coneRegion d (hdet d (by simp [show d ∈ cs from hd])))
      · exact hint'.mono_set Set.subset_union_left
      · exact hint'.mono_set Set.subset_union_right

/-- hypotheses of C19: the two cones `{x < y}` and `{x > y}` of the unit square. -/
example : (Matrix.of ![![1, 1], ![0, 1]] : Matrix (Fin 2) (Fin 2) Int).det ≠ 0 ∧
    (Matrix.of ![![1, 0], ![1, 1]] : Matrix (Fin 2) (Fin 2) Int).det ≠ 0 ∧
    Disjoint (coneRegion (Matrix.of ![![1, 1], ![0, 1]] : Matrix (Fin 2) (Fin 2) Int))
      (coneRegion (Matrix.of ![![1, 0], ![1, 1]])) := by
  refine ⟨by simp [Matrix.det_fin_two], by simp [Matrix.det_fin_two], ?_⟩
  rw [Set.disjoint_left]
  rintro x ⟨_, u, hu, h⟩ ⟨_, w, hw, h'⟩
  have a0 := h 0; have a1 := h 1; have b0 := h' 0; have b1 := h' 1
  simp [Fin.sum_univ_two] at a0 a1 b0 b1
  have := hu 0; have := hw 0; have := hu 1; have := hw 1
  linarith

end SecDec.Geometric
