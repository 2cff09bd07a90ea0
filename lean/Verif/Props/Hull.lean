import Verif.Proof.HullMain
import Verif.Props.Fan
/-
Property C61: the geometric decomposition with polytopes.
-/
set_option linter.unusedSectionVars false
namespace SecDec.Geometric
open SecDec SecDec.Squash SecDec.Decomp MeasureTheory

variable {n : Nat} {E : Type}

theorem null_log_set {N : Set (Fin n → ℝ)} (hN : volume N = 0) :
    ∀ᵐ x : Fin n → ℝ, (∀ i, 0 < x i) → (fun i => -Real.log (x i)) ∉ N := by
  have h0 : volume ((fun (v : Fin n → ℝ) i => Real.exp (-v i)) '' N) = 0 := by
    apply addHaar_image_eq_zero_of_differentiableOn_of_addHaar_eq_zero
    · apply Differentiable.differentiableOn
      rw [differentiable_pi]
      intro i
      exact (differentiable_apply i).neg.exp
    · exact hN
  rw [ae_iff]
  refine measure_mono_null ?_ h0
  intro x hx
  simp only [Set.mem_ofPred_eq, not_forall, not_not] at hx
  obtain ⟨h1, h2⟩ := hx
  exact ⟨_, h2, funext fun i => by simp only [neg_neg]; exact Real.exp_log (h1 i)⟩

theorem null_log_sets {A : Type} (l : List A) (N : A → Set (Fin n → ℝ)) (hN : ∀ a ∈ l, volume (N a) = 0) :
    ∀ᵐ x : Fin n → ℝ, (∀ i, 0 < x i) → ∀ a ∈ l, (fun i => -Real.log (x i)) ∉ N a := by
  induction l with
  | nil => simp
  | cons a l ih =>
    filter_upwards [ih (fun b hb => hN b (by simp [hb])), null_log_set (hN a (by simp))] with x h1 h2 hx b hb
    rcases List.mem_cons.1 hb with rfl | hb
    · exact h2 hx
    · exact h1 hx b hb

/-- The sectors and the cones they come from. -/
theorem hull_core (s : Sector n ℝ E) (hcast : s.cast ≠ [])
    (hne : ∀ p ∈ s.cast, p.poly.terms ≠ []) (hnd : ∀ p ∈ s.cast, (p.poly.terms.map (·.1)).Nodup)
    (polytope : List (Expo n) → PolytopeData n) (tri : List (Expo n) → List (List (Expo n)))
    (P : PolytopeData n) (hP0 : P = polytope (hullPoints (s.cast.map (fun p => p.poly.terms.map (·.1)))))
    (hP : PolytopeOf (hullPoints (s.cast.map (fun p => p.poly.terms.map (·.1)))) P) (heq : P.equations = [])
    (htri : ∀ v ∈ P.vertices, (incident P v).length ≠ n →
      TriangulatesRays ((incident P v).map (fun k => (P.facets.get k).1))
        (tri ((incident P v).map (fun k => (P.facets.get k).1)))) :
    ∃ sectors, geometricDecomposition polytope tri s = some sectors ∧
      (∀ t ∈ sectors, (Refactorized t ∧ StandardForm (List.finRange n) t) ∧
        ∃ T : Matrix (Fin n) (Fin n) Int, T.det ≠ 0 ∧ makeSectorKu s T = some t) ∧ sectors ≠ [] ∧
      ∀ {V : Type} [NormedAddCommGroup V] [NormedSpace ℝ V]
        (F : List (ℝ × Option E) → List (ℝ × Option E) → V),
        IntegrableOn (integrand F s) {x | ∀ k, 0 < x k} →
        (∀ t ∈ sectors, CubeIntegrable (integrand F t)) ∧
        (sectors.map (fun t => cubeIntegral (integrand F t))).sum = ∫ x in {x | ∀ k, 0 < x k}, integrand F s x := by
  generalize hLdef : s.cast.map (fun p => p.poly.terms.map (·.1)) = L at hP hP0
  have hL0 : L ≠ [] := by rw [← hLdef]; simpa using hcast
  have hL : ∀ l ∈ L, l ≠ [] := by
    intro l hl
    rw [← hLdef] at hl
    obtain ⟨p, hp, rfl⟩ := List.mem_map.1 hl
    simpa using hne p hp
  have hLnd : ∀ l ∈ L, l.Nodup := by
    intro l hl
    rw [← hLdef] at hl
    obtain ⟨p, hp, rfl⟩ := List.mem_map.1 hl
    exact hnd p hp
  have hT : ∀ v ∈ P.vertices, TriangulatesRays (vertexRays P v) (vertexSimplices tri P v) :=
    fun v hv => vertexSimplices_spec hP heq hv (htri v hv)
  have hlen : ∀ v ∈ P.vertices, ∀ t ∈ vertexSimplices tri P v, t.length = n := fun v hv =>
    (hT v hv).full (span_vertexRays hP heq hv)
  have hdetr : ∀ v ∈ P.vertices, ∀ t ∈ vertexSimplices tri P v, ∀ T, rayMatrix t = some T → T.det ≠ 0 :=
    fun v hv t ht T hTT => det_ne_zero_of_rays hTT ((hT v hv).simplicial t ht)
  -- the list of rays and matrices
  have hcones : ∃ cones, P.vertices.mapM (vertexCones tri P) = some cones ∧
      cones.flatten.map (fun idx => idx.map (fun k => (P.facets.get k).1)) = P.vertices.flatMap (vertexSimplices tri P) := by
    have hT' := hT
    generalize P.vertices = vs at hT'
    induction vs with
    | nil => exact ⟨[], rfl, rfl⟩
    | cons v vs ih =>
      obtain ⟨cones, h1, h2⟩ := ih (fun v hv => hT' v (by simp [hv]))
      obtain ⟨idxs, h3, h4⟩ := vertexCones_spec (hT' v (by simp))
      exact ⟨idxs :: cones, by rw [List.mapM_cons, h3, h1]; rfl,
        by rw [List.flatten_cons, List.map_append, h4, h2, List.flatMap_cons]⟩
  obtain ⟨cones, hc1, hc2⟩ := hcones
  generalize hTs : (P.vertices.flatMap (vertexSimplices tri P)).filterMap rayMatrix = Ts
  have hmemTs : ∀ T, T ∈ Ts ↔ ∃ v ∈ P.vertices, ∃ t ∈ vertexSimplices tri P v, rayMatrix t = some T := by
    intro T
    rw [← hTs]
    simp only [List.mem_filterMap, List.mem_flatMap]
    constructor
    · rintro ⟨t, ⟨v, hv, ht⟩, h⟩; exact ⟨v, hv, t, ht, h⟩
    · rintro ⟨v, hv, t, ht, h⟩; exact ⟨t, ⟨v, hv, ht⟩, h⟩
  have hdet : ∀ T ∈ Ts, T.det ≠ 0 := by
    intro T hTm
    obtain ⟨v, hv, t, ht, h⟩ := (hmemTs T).1 hTm
    exact hdetr v hv t ht T h
  have hmodel : cones.flatten.mapM (makeSectorIdx s P) = Ts.mapM (makeSectorKu s) := by
    have h1 : ∀ idx ∈ cones.flatten, (idx.map (fun k => (P.facets.get k).1)).length = n := by
      intro idx hi
      have : idx.map (fun k => (P.facets.get k).1) ∈ P.vertices.flatMap (vertexSimplices tri P) := by
        rw [← hc2]; exact List.mem_map.2 ⟨idx, hi, rfl⟩
      obtain ⟨v, hv, ht⟩ := List.mem_flatMap.1 this
      exact hlen v hv _ ht
    rw [← hTs, ← hc2]
    generalize cones.flatten = l at h1
    clear hc2 hTs
    induction l with
    | nil => rfl
    | cons idx l ih =>
      obtain ⟨T, hTi⟩ := rayMatrix_total (h1 idx (by simp))
      rw [List.mapM_cons, List.map_cons, List.filterMap_cons, hTi, makeSectorIdx_eq, hTi, Option.bind_some,
        List.mapM_cons, ih (fun i hi => h1 i (by simp [hi]))]
  have hsome : ∃ sectors, Ts.mapM (makeSectorKu s) = some sectors := by
    have hone : ∀ T, ∃ t, makeSectorKu s T = some t := by
      intro T
      unfold makeSectorKu
      simp only
      have : ∀ l : List (SProd n ℝ E), (∀ p ∈ l, p.poly.terms ≠ []) → ∃ c, l.mapM refactorizeProd = some c := by
        intro l hl
        induction l with
        | nil => exact ⟨[], rfl⟩
        | cons p l ih =>
          obtain ⟨q, hq⟩ := refactorizeProd_isSome p (hl p (by simp))
          obtain ⟨c, hc⟩ := ih (fun p hp => hl p (by simp [hp]))
          exact ⟨q :: c, by rw [List.mapM_cons, hq, hc]; rfl⟩
      obtain ⟨c, hc⟩ := this (Sector.mapExpo (transformExpo T) s).cast (by
        intro p hp
        simp only [Sector.mapExpo, List.mem_map] at hp
        obtain ⟨q, hq, rfl⟩ := hp
        simpa using hne q hq)
      rw [hc]
      exact ⟨_, rfl⟩
    clear hmodel hdet hmemTs hTs
    induction Ts with
    | nil => exact ⟨[], rfl⟩
    | cons T l ih =>
      obtain ⟨t, ht⟩ := hone T
      obtain ⟨c, hc⟩ := ih
      exact ⟨t :: c, by rw [List.mapM_cons, ht, hc]; rfl⟩
  obtain ⟨sectors, hs⟩ := hsome
  have hcover : {x : Fin n → ℝ | ∀ k, 0 < x k} =ᵐ[volume] ⋃ T ∈ Ts, coneRegion T := by
    have hA := null_log_sets (expoWalls L) (fun p => (p : Set (Fin n → ℝ)))
      (fun p hp => Measure.addHaar_submodule volume p (expoWalls_ne_top p hp))
    have hB := null_log_sets P.vertices (fun v => frontier (rayCone (vertexRays P v)))
      (fun v _ => (convex_rayCone _).addHaar_frontier volume)
    have hC := null_log_sets (P.vertices.flatMap (fun v => (vertexSimplices tri P v).flatMap (fun t =>
        (List.finRange t.length).map (faceSpan t)))) (fun p => (p : Set (Fin n → ℝ))) (by
      intro p hp
      simp only [List.mem_flatMap, List.mem_map, List.mem_finRange, true_and] at hp
      obtain ⟨v, hv, t, ht, j, rfl⟩ := hp
      exact Measure.addHaar_submodule volume _ (faceSpan_ne_top t j (hlen v hv t ht).le))
    filter_upwards [hA, hB, hC] with x h1 h2 h3
    apply propext
    constructor
    · intro hx
      have hx : ∀ k, 0 < x k := hx
      obtain ⟨f, hf, hmin⟩ := generic_min hL (generic_of_walls (h1 hx))
      have huniq := min_unique hmin
      have hpt : f.sum ∈ hullPoints L := (mem_hullPoints hL0 hLnd _).2 ⟨f, hf, rfl, huniq⟩
      have hlt : ∀ e ∈ hullPoints L, e ≠ f.sum → pair f.sum (fun i => -Real.log (x i)) < pair e (fun i => -Real.log (x i)) := by
        intro e he hne
        obtain ⟨g, hg, rfl, _⟩ := (mem_hullPoints hL0 hLnd e).1 he
        exact hmin g hg (fun h => hne (by rw [h]))
      have hv : f.sum ∈ P.vertices := (hP.vertices _).2 ⟨hpt, extreme_of_strict hpt hlt⟩
      obtain ⟨c, hc0, hce⟩ := mem_normal_cone hP heq hv (fun e he => by
        by_cases hne : e = f.sum
        · rw [hne]
        · exact (hlt e he hne).le) (h2 hx _ hv)
      obtain ⟨t, ht, c', hc0', hce'⟩ := (hT _ hv).covers c hc0
      obtain ⟨T, hTT⟩ := rayMatrix_total (hlen _ hv t ht)
      refine Set.mem_iUnion₂.2 ⟨T, (hmemTs T).2 ⟨_, hv, t, ht, hTT⟩, ?_⟩
      refine (mem_coneRegion_iff hTT).2 ⟨hx, c', fun j => lt_of_le_of_ne (hc0' j) (fun h0 => ?_), hce'.trans hce⟩
      refine h3 hx (faceSpan t j) ?_ ?_
      · simp only [List.mem_flatMap, List.mem_map]
        exact ⟨_, hv, t, ht, j, List.mem_finRange _, rfl⟩
      · show (fun i => -Real.log (x i)) ∈ faceSpan t j
        rw [← hce, ← hce']
        exact combine_mem_faceSpan t c' j h0.symm
    · intro hx
      obtain ⟨T, _, hxT⟩ := Set.mem_iUnion₂.1 hx
      exact hxT.1
  refine ⟨sectors, ?_, ?_, ?_, ?_⟩
  · unfold geometricDecomposition
    simp only
    rw [hLdef, ← hP0, if_neg (by simpa using heq), hc1, Option.bind_some, hmodel, hs]
  · intro t ht
    have hf := mapM_option_forall₂ hs
    obtain ⟨i, hi, rfl⟩ := List.mem_iff_getElem.1 ht
    have hi' : i < Ts.length := by rw [hf.length_eq]; exact hi
    have h1 := hf.get (i := i) hi' hi
    obtain ⟨v, hv, r, hr, hTr⟩ := (hmemTs _).1 (List.getElem_mem hi')
    refine ⟨makeSectorKu_standard h1 hne ?_, _, hdet _ (List.getElem_mem hi'), h1⟩
    obtain ⟨f, hf1, hf2⟩ := vertex_minimal hL0 hL hLnd hP heq hv
    intro p hp
    have hpl : p.poly.terms.map (·.1) ∈ L := by rw [← hLdef]; exact List.mem_map.2 ⟨p, hp, rfl⟩
    obtain ⟨k, hk, hke⟩ := List.mem_iff_getElem.1 hpl
    have hkf : k < f.length := by rw [← hf1.length_eq]; exact hk
    have ha := hf1.get (i := k) hk hkf
    simp only [List.get_eq_getElem] at ha
    rw [hke] at ha
    obtain ⟨u, hu, hu2⟩ := List.mem_map.1 ha
    refine ⟨u, hu, fun e he j => ?_⟩
    obtain ⟨hl, hTT⟩ := rayMatrix_some hTr
    have hb := (hf2 (r.get (Fin.cast hl.symm j)) ((hT v hv).sub r hr _ (List.get_mem _ _))).get (i := k) hk hkf
    simp only [List.get_eq_getElem] at hb
    rw [hke, ← hu2] at hb
    have := hb e.1 (List.mem_map.2 ⟨e, he, rfl⟩)
    simp only [List.get_eq_getElem, hTT] at this ⊢
    exact this
  · refine sectors_ne_nil (fun h0 => ?_) hcover hs
    have hsub : Set.univ.pi (fun _ : Fin n => Set.Ioo (0:ℝ) 1) ⊆ {x : Fin n → ℝ | ∀ k, 0 < x k} := fun x hx k => (hx k (Set.mem_univ k)).1
    have h1 := measure_mono_null hsub h0
    rw [Real.volume_pi_Ioo] at h1
    simp at h1
  · intro V _ _ F hint
    refine C19_geometric_decomposition s Ts hdet {x | ∀ k, 0 < x k} ?_ ?_ sectors hs F hint
    · rw [← hTs, List.pairwise_filterMap, List.pairwise_flatMap]
      have hdisj : ∀ {t t' : List (Expo n)}, (¬ ∃ y c c', (∀ j, 0 < c j) ∧ (∀ j, 0 < c' j) ∧
          combine t c = y ∧ combine t' c' = y) → ∀ T, rayMatrix t = some T → ∀ T', rayMatrix t' = some T' →
          Disjoint (coneRegion T) (coneRegion T') := by
        intro t t' hd T hTT T' hTT'
        rw [Set.disjoint_left]
        intro x hx hx'
        obtain ⟨_, c, hc0, hce⟩ := (mem_coneRegion_iff hTT).1 hx
        obtain ⟨_, c', hc0', hce'⟩ := (mem_coneRegion_iff hTT').1 hx'
        exact hd ⟨_, c, c', hc0, hc0', hce, hce'⟩
      constructor
      · intro v hv
        exact (hT v hv).disjoint.imp (fun hd T hTT T' hTT' => hdisj hd T hTT T' hTT')
      · refine List.Pairwise.imp_of_mem ?_ hP.nodup
        intro v v' hv hv' hvv t ht t' ht' T hTT T' hTT'
        refine hdisj ?_ T hTT T' hTT'
        rintro ⟨y, c, c', hc, hc', h1, h2⟩
        exact vertex_disjoint hP heq hv hv' hvv ((hT v hv).sub t ht) ((hT v' hv').sub t' ht') hTT hTT'
          (hdetr v hv t ht T hTT) (hdetr v' hv' t' ht' T' hTT') hc hc' (h1.trans h2.symm)
    · exact hcover

/-- C61: `geometric_decomposition`.  Assume that no polynomial is empty or lists an exponent vector
twice, that `normaliz` finds the vertices and facets of the polytope, that the polytope has full
dimension (otherwise the integral is scaleless and the code raises), and that `normaliz` triangulates
the normal cones with more rays than the dimension.  Then the decomposition succeeds, in every sector each
polynomial is a monomial times (constant plus non-negative powers), and whenever the integral over the
positive orthant exists, the integrals of the sectors over the unit hypercube exist and add up to it. -/
theorem C61_geometric_decomposition (s : Sector n ℝ E) (hcast : s.cast ≠ [])
    (hne : ∀ p ∈ s.cast, p.poly.terms ≠ []) (hnd : ∀ p ∈ s.cast, (p.poly.terms.map (·.1)).Nodup)
    (polytope : List (Expo n) → PolytopeData n) (tri : List (Expo n) → List (List (Expo n)))
    (P : PolytopeData n) (hP0 : P = polytope (hullPoints (s.cast.map (fun p => p.poly.terms.map (·.1)))))
    (hP : PolytopeOf (hullPoints (s.cast.map (fun p => p.poly.terms.map (·.1)))) P) (heq : P.equations = [])
    (htri : ∀ v ∈ P.vertices, (incident P v).length ≠ n →
      TriangulatesRays ((incident P v).map (fun k => (P.facets.get k).1))
        (tri ((incident P v).map (fun k => (P.facets.get k).1)))) :
    ∃ sectors, geometricDecomposition polytope tri s = some sectors ∧
      (∀ t ∈ sectors, Refactorized t ∧ StandardForm (List.finRange n) t) ∧
      ∀ {V : Type} [NormedAddCommGroup V] [NormedSpace ℝ V]
        (F : List (ℝ × Option E) → List (ℝ × Option E) → V),
        IntegrableOn (integrand F s) {x | ∀ k, 0 < x k} →
        (∀ t ∈ sectors, CubeIntegrable (integrand F t)) ∧
        (sectors.map (fun t => cubeIntegral (integrand F t))).sum = ∫ x in {x | ∀ k, 0 < x k}, integrand F s x := by
  obtain ⟨sectors, h1, h2, -, h3⟩ := hull_core s hcast hne hnd polytope tri P hP0 hP heq htri
  exact ⟨sectors, h1, fun t ht => (h2 t ht).1, h3⟩

/-- C61: the strategy `geometric` for loop integrals, `Cheng_Wu` for the last parameter followed by
`geometric_decomposition`.  For an integrand that is projective (homogeneous of degree minus the number
of parameters) and integrable with the Dirac delta, the integrals of the sectors exist and add up to the
integral with the Dirac delta. -/
theorem C61_cheng_wu_geometric (s : Sector (n + 1) ℝ E) (hcast : s.cast ≠ [])
    (hne : ∀ p ∈ s.cast, p.poly.terms ≠ [])
    (hnd : ∀ p ∈ (chengWu s (Fin.last n)).cast, (p.poly.terms.map (·.1)).Nodup)
    (polytope : List (Expo n) → PolytopeData n) (tri : List (Expo n) → List (List (Expo n)))
    (P : PolytopeData n)
    (hP0 : P = polytope (hullPoints ((chengWu s (Fin.last n)).cast.map (fun p => p.poly.terms.map (·.1)))))
    (hP : PolytopeOf (hullPoints ((chengWu s (Fin.last n)).cast.map (fun p => p.poly.terms.map (·.1)))) P)
    (heq : P.equations = [])
    (htri : ∀ v ∈ P.vertices, (incident P v).length ≠ n →
      TriangulatesRays ((incident P v).map (fun k => (P.facets.get k).1))
        (tri ((incident P v).map (fun k => (P.facets.get k).1)))) :
    ∃ sectors, geometricDecomposition polytope tri (chengWu s (Fin.last n)) = some sectors ∧
      (∀ t ∈ sectors, Refactorized t ∧ StandardForm (List.finRange n) t) ∧
      ∀ {V : Type} [NormedAddCommGroup V] [NormedSpace ℝ V]
        (F : List (ℝ × Option E) → List (ℝ × Option E) → V),
        Projective (integrand F s) → DeltaIntegrable (integrand F s) →
        (∀ t ∈ sectors, CubeIntegrable (integrand F t)) ∧
        (sectors.map (fun t => cubeIntegral (integrand F t))).sum = deltaIntegral (integrand F s) := by
  obtain ⟨sectors, h1, h2, h3⟩ := C61_geometric_decomposition (chengWu s (Fin.last n))
    (by unfold chengWu Sector.mapExpo; simpa using hcast) (by
      intro p hp
      unfold chengWu Sector.mapExpo at hp
      obtain ⟨q, hq, rfl⟩ := List.mem_map.1 hp
      simpa using hne q hq) hnd polytope tri P hP0 hP heq htri
  refine ⟨sectors, h1, h2, fun F hproj hint => ?_⟩
  obtain ⟨h4, h5⟩ := C19_cheng_wu s (Fin.last n) F hproj
  have hfun : integrand F (chengWu s (Fin.last n)) = fun y => integrand F s (Fin.snoc y 1) := by
    funext y; rw [h4 y, Fin.insertNth_last']
  have hi : IntegrableOn (integrand F (chengWu s (Fin.last n))) {x | ∀ k, 0 < x k} := by
    rw [hfun]; exact (delta_eq_orthant hproj).2.1 hint
  obtain ⟨h6, h7⟩ := h3 F hi
  exact ⟨h6, h7.trans h5⟩

/-- C61 (defect): if a polynomial lists an exponent vector twice (`1 + 1 + x`, not simplified), then in
a product with another polynomial `convex_hull` drops this vertex of the polytope. -/
theorem C61_duplicate_exponents : (![0] : Expo 1) ∉ hullPoints [[![0], ![0], ![1]], [![0]]] := by
  intro h
  unfold hullPoints at h
  simp only [List.foldl_cons, List.foldl_nil, List.mem_map, List.mem_filter, decide_eq_true_eq] at h
  obtain ⟨t, ⟨ht, h1⟩, h2⟩ := h
  unfold Poly.mul at ht
  have h3 := coeffOf_of_nodup (simplify_nodup _) ht
  rw [Poly.coeffOf_simplify, h2, h1] at h3
  revert h3
  decide

/-! ### the hypotheses are satisfiable -/

/-- the polynomial `1 + x₀ + x₁` -/
def exTriangle : Sector 2 ℝ Unit where
  jac := (0, 1)
  cast := [⟨(0, 1), ⟨[(![0, 0], 1), (![1, 0], 1), (![0, 1], 1)], none⟩⟩]
  other := []

/-- the triangle -/
def exPolytope : PolytopeData 2 where
  vertices := [![0, 0], ![1, 0], ![0, 1]]
  facets := [(![1, 0], 0), (![0, 1], 0), (![-1, -1], 1)]
  equations := []

/-- hypotheses of C61 for `1 + x₀ + x₁`: no triangulation is needed, every vertex lies in two facets. -/
theorem ex_triangle : PolytopeOf (hullPoints (exTriangle.cast.map (fun p => p.poly.terms.map (·.1)))) exPolytope ∧
    exPolytope.equations = [] ∧ ∀ v ∈ exPolytope.vertices, (incident exPolytope v).length = 2 := by
  have hpts : hullPoints (exTriangle.cast.map (fun p => p.poly.terms.map (·.1))) = [![0, 0], ![1, 0], ![0, 1]] := rfl
  rw [hpts]
  refine ⟨⟨?_, ?_, ?_⟩, rfl, ?_⟩
  · intro v
    show v ∈ [![0, 0], ![1, 0], ![0, 1]] ↔ _
    refine ⟨fun hv => ⟨hv, ?_⟩, fun h => h.1⟩
    simp only [List.mem_cons, List.not_mem_nil, or_false] at hv
    rcases hv with rfl | rfl | rfl
    · refine extreme_of_strict (by simp) (y := ![1, 1]) ?_
      intro s hs hne
      simp only [List.mem_cons, List.not_mem_nil, or_false] at hs
      rcases hs with rfl | rfl | rfl
      · exact absurd rfl hne
      · simp [pair, Fin.sum_univ_two]
      · simp [pair, Fin.sum_univ_two]
    · refine extreme_of_strict (by simp) (y := ![-1, 0]) ?_
      intro s hs hne
      simp only [List.mem_cons, List.not_mem_nil, or_false] at hs
      rcases hs with rfl | rfl | rfl
      · simp [pair, Fin.sum_univ_two]
      · exact absurd rfl hne
      · simp [pair, Fin.sum_univ_two]
    · refine extreme_of_strict (by simp) (y := ![0, -1]) ?_
      intro s hs hne
      simp only [List.mem_cons, List.not_mem_nil, or_false] at hs
      rcases hs with rfl | rfl | rfl
      · simp [pair, Fin.sum_univ_two]
      · simp [pair, Fin.sum_univ_two]
      · exact absurd rfl hne
  · show ([![0, 0], ![1, 0], ![0, 1]] : List (Expo 2)).Nodup
    decide
  · intro _ z
    constructor
    · intro hz f hf
      have h1 : ∀ s ∈ ([![0, 0], ![1, 0], ![0, 1]] : List (Expo 2)), -(f.2 : ℝ) ≤ pair s (point f.1) := by
        intro s hs
        simp only [List.mem_cons, List.not_mem_nil, or_false] at hs
        simp only [exPolytope, List.mem_cons, List.not_mem_nil, or_false] at hf
        rcases hf with rfl | rfl | rfl <;> rcases hs with rfl | rfl | rfl <;> simp [pair, point, Fin.sum_univ_two]
      have := hull_ge h1 hz
      rw [pair_eq_dotR]
      linarith
    · intro h
      have h1 := h (![1, 0], 0) (by simp [exPolytope])
      have h2 := h (![0, 1], 0) (by simp [exPolytope])
      have h3 := h (![-1, -1], 1) (by simp [exPolytope])
      simp [pair, Fin.sum_univ_two] at h1 h2 h3
      have hc := convex_convexHull ℝ (point '' {e | e ∈ ([![0, 0], ![1, 0], ![0, 1]] : List (Expo 2))})
      have hm : ∀ e ∈ ([![0, 0], ![1, 0], ![0, 1]] : List (Expo 2)), point e ∈
          convexHull ℝ (point '' {e | e ∈ ([![0, 0], ![1, 0], ![0, 1]] : List (Expo 2))}) :=
        fun e he => subset_convexHull ℝ _ ⟨e, he, rfl⟩
      have := hc.sum_mem (t := (Finset.univ : Finset (Fin 3))) (w := ![1 - z 0 - z 1, z 0, z 1])
        (z := ![point ![0, 0], point ![1, 0], point ![0, 1]]) (by
          intro i _; fin_cases i <;> simp <;> linarith) (by simp [Fin.sum_univ_three]; ring) (by
          intro i _; fin_cases i
          · exact hm _ (by simp)
          · exact hm _ (by simp)
          · exact hm _ (by simp))
      convert this using 1
      funext i
      fin_cases i <;> simp [Fin.sum_univ_three, point]
  · show ∀ v ∈ ([![0, 0], ![1, 0], ![0, 1]] : List (Expo 2)), (incident exPolytope v).length = 2
    decide

end SecDec.Geometric
