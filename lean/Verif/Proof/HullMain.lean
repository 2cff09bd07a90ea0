import Verif.Proof.Hull
/- Vertices, normal cones and their triangulations: helper lemmas for C61. -/
set_option linter.unusedSectionVars false
namespace SecDec.Geometric
open SecDec SecDec.Squash SecDec.Decomp MeasureTheory

variable {n : Nat} {E : Type}

/-- the normals of the facets that contain a vertex -/
def vertexRays (P : PolytopeData n) (v : Expo n) : List (Expo n) := (incident P v).map (fun k => (P.facets.get k).1)

/-- the simplicial cones of a vertex, as lists of rays -/
def vertexSimplices (tri : List (Expo n) → List (List (Expo n))) (P : PolytopeData n) (v : Expo n) :
    List (List (Expo n)) :=
  if (incident P v).length ≠ n then tri (vertexRays P v) else [vertexRays P v]

theorem mem_vertexRays {P : PolytopeData n} {v r : Expo n} :
    r ∈ vertexRays P v ↔ ∃ f ∈ P.facets, f.1 = r ∧ pair f.1 (point v) + (f.2 : ℝ) = 0 := by
  unfold vertexRays incident
  simp only [List.mem_map, List.mem_filter, List.mem_finRange, true_and, decide_eq_true_eq]
  have key : ∀ f : Expo n × Int, ∑ i, v i * f.1 i + f.2 = 0 ↔ pair f.1 (point v) + (f.2 : ℝ) = 0 := by
    intro f
    rw [pair_comm_point, pair_point]
    norm_cast
  constructor
  · rintro ⟨k, hk, rfl⟩
    exact ⟨_, List.get_mem _ k, rfl, (key _).1 hk⟩
  · rintro ⟨f, hf, rfl, h⟩
    obtain ⟨k, hk, rfl⟩ := List.mem_iff_getElem.1 hf
    exact ⟨⟨k, hk⟩, (key _).2 h, rfl⟩

section
variable {pts : List (Expo n)} {P : PolytopeData n} (hP : PolytopeOf pts P) (heq : P.equations = [])
include hP heq

theorem facet_at_vertex {v : Expo n} (hv : v ∈ P.vertices) {f : Expo n × Int} (hf : f ∈ P.facets) :
    0 ≤ pair f.1 (point v) + (f.2 : ℝ) :=
  (hP.facets heq _).1 (subset_convexHull ℝ _ ⟨v, ((hP.vertices v).1 hv).1, rfl⟩) f hf

theorem step_mem {v : Expo n} (hv : v ∈ P.vertices) {d : Fin n → ℝ}
    (hd : ∀ r ∈ vertexRays P v, 0 ≤ dotR (point r) d) :
    ∃ ε > (0:ℝ), ∀ δ : ℝ, 0 ≤ δ → δ ≤ ε → point v + δ • d ∈ convexHull ℝ (point '' {e | e ∈ pts}) := by
  obtain ⟨ε, hε, h⟩ := small_step P.facets (fun f => pair f.1 (point v) + (f.2 : ℝ)) (fun f => dotR (point f.1) d) (by
    intro f hf
    exact ⟨facet_at_vertex hP heq hv hf, fun h0 => hd f.1 (mem_vertexRays.2 ⟨f, hf, rfl, h0⟩)⟩)
  refine ⟨ε, hε, fun δ h0 h1 => (hP.facets heq _).2 fun f hf => ?_⟩
  have := h δ h0 h1 f hf
  rw [pair_eq_dotR, dotR_add, dotR_smul]
  rw [pair_eq_dotR] at this
  linarith

/-- the normal cone of a vertex contains the directions minimal at the vertex -/
theorem mem_normal_cone {v : Expo n} (hv : v ∈ P.vertices) {y : Fin n → ℝ} (hmin : ∀ s ∈ pts, pair v y ≤ pair s y)
    (hf : y ∉ frontier (rayCone (vertexRays P v))) : y ∈ rayCone (vertexRays P v) := by
  by_contra hy
  obtain ⟨d, h1, h2⟩ := separate hf hy
  obtain ⟨ε, hε, h3⟩ := step_mem hP heq hv h1
  have h4 := hull_ge hmin (h3 ε hε.le (le_refl _))
  rw [dotR_add, dotR_smul, dotR_point] at h4
  nlinarith

/-- the normals at a vertex span the space -/
theorem span_vertexRays {v : Expo n} (hv : v ∈ P.vertices) :
    Submodule.span ℝ (point '' {e | e ∈ vertexRays P v}) = ⊤ := by
  by_contra hne
  obtain ⟨f, hf0, hf⟩ := Submodule.exists_le_ker_of_lt_top _ (lt_top_iff_ne_top.2 hne)
  have hz : ∀ r ∈ vertexRays P v, dotR (point r) (fun i => f (Pi.single i 1)) = 0 := by
    intro r hr
    have h1 : point r ∈ LinearMap.ker f := hf (Submodule.subset_span ⟨r, hr, rfl⟩)
    rw [LinearMap.mem_ker, functional_eq] at h1
    rw [dotR_comm]; exact h1
  obtain ⟨ε, hε, h3⟩ := step_mem hP heq hv (d := fun i => f (Pi.single i 1)) (fun r hr => (hz r hr).ge)
  obtain ⟨η, hη, h4⟩ := step_mem hP heq hv (d := -(fun i => f (Pi.single i 1))) (fun r hr => by
    have : dotR (point r) (-(fun i => f (Pi.single i 1))) = - dotR (point r) (fun i => f (Pi.single i 1)) := by
      rw [← neg_one_smul ℝ, dotR_smul]; ring
    rw [this, hz r hr, neg_zero])
  have hm : 0 < min ε η := lt_min hε hη
  have a := h3 (min ε η) hm.le (min_le_left _ _)
  have b := h4 (min ε η) hm.le (min_le_right _ _)
  have hext := ((hP.vertices v).1 hv).2
  rw [mem_extremePoints] at hext
  have := (hext.2 _ a _ b ⟨1/2, 1/2, by norm_num, by norm_num, by norm_num, by
    funext i; simp; ring⟩).1
  have h0 : (min ε η) • (fun i => f (Pi.single i 1)) = 0 := by
    have := add_eq_left.1 this
    exact this
  rcases smul_eq_zero.1 h0 with h | h
  · exact hm.ne' h
  · apply hf0
    refine LinearMap.ext fun z => ?_
    rw [functional_eq, h]
    simp [dotR]

theorem independent_of_span {t : List (Expo n)} (hl : t.length = n)
    (hs : Submodule.span ℝ (point '' {e | e ∈ t}) = ⊤) :
    LinearIndependent ℝ (fun (j : Fin t.length) (i : Fin n) => ((t.get j i : Int) : ℝ)) := by
  apply linearIndependent_of_top_le_span_of_card_eq_finrank
  · rw [← hs]
    refine Submodule.span_mono ?_
    rintro _ ⟨e, he, rfl⟩
    obtain ⟨k, hk, rfl⟩ := List.mem_iff_getElem.1 he
    exact ⟨⟨k, hk⟩, rfl⟩
  · simp [hl]

theorem vertexSimplices_spec {v : Expo n} (hv : v ∈ P.vertices) {tri : List (Expo n) → List (List (Expo n))}
    (htri : (incident P v).length ≠ n → TriangulatesRays (vertexRays P v) (tri (vertexRays P v))) :
    TriangulatesRays (vertexRays P v) (vertexSimplices tri P v) := by
  unfold vertexSimplices
  split
  · rename_i h; exact htri h
  · rename_i h
    have hl : (vertexRays P v).length = n := by unfold vertexRays; rw [List.length_map]; exact not_not.1 h
    refine ⟨?_, ?_, ?_, by simp, ?_⟩
    · intro t ht r hr; rw [List.mem_singleton] at ht; subst ht; exact hr
    · intro t ht; rw [List.mem_singleton] at ht; subst ht
      exact independent_of_span hP heq hl (span_vertexRays hP heq hv)
    · intro _ t ht; rw [List.mem_singleton] at ht; subst ht; exact hl
    · intro c hc; exact ⟨_, List.mem_singleton.2 rfl, c, hc, rfl⟩

/-- the interiors of the cones of different vertices do not meet -/
theorem vertex_disjoint {v v' : Expo n} (hv : v ∈ P.vertices) (hv' : v' ∈ P.vertices) (hne : v ≠ v')
    {t t' : List (Expo n)} (ht : ∀ r ∈ t, r ∈ vertexRays P v) (ht' : ∀ r ∈ t', r ∈ vertexRays P v')
    {T T' : Matrix (Fin n) (Fin n) Int} (hT : rayMatrix t = some T) (hT' : rayMatrix t' = some T')
    (hdet : T.det ≠ 0) (hdet' : T'.det ≠ 0) {c : Fin t.length → ℝ} {c' : Fin t'.length → ℝ}
    (hc : ∀ j, 0 < c j) (hc' : ∀ j, 0 < c' j) : combine t c ≠ combine t' c' := by
  have key : ∀ {u w r : Expo n}, u ∈ P.vertices → w ∈ P.vertices → r ∈ vertexRays P u → 0 ≤ ∑ i, (w - u) i * r i := by
    intro u w r hu hw hr
    obtain ⟨f, hf, rfl, h0⟩ := mem_vertexRays.1 hr
    have h1 := facet_at_vertex hP heq hw hf
    have h2 : (0:ℝ) ≤ pair (w - u) (point f.1) := by
      rw [pair_sub, pair_comm_point w, pair_comm_point u]; linarith
    rw [pair_point] at h2
    exact_mod_cast h2
  intro he
  have a := combine_strict hT hdet (e := v' - v) (sub_ne_zero.2 (Ne.symm hne)) (fun r hr => key hv hv' (ht r hr)) hc
  have b := combine_strict hT' hdet' (e := v - v') (sub_ne_zero.2 hne) (fun r hr => key hv' hv (ht' r hr)) hc'
  rw [← he] at b
  rw [pair_sub] at a b
  linarith

end

/-! ### minimal exponents -/

theorem choices_replace {L : List (List (Expo n))} {f : List (Expo n)} (hf : f ∈ choices L) {l : List (Expo n)}
    {a e : Expo n} (hq : (l, a) ∈ L.zip f) (he : e ∈ l) : ∃ g ∈ choices L, g.sum = f.sum + (e - a) := by
  rw [mem_choices] at hf
  induction hf with
  | nil => simp at hq
  | @cons l' b L f hb hf ih =>
    rw [List.zip_cons_cons, List.mem_cons] at hq
    rcases hq with hq | hq
    · obtain ⟨rfl, rfl⟩ := Prod.mk.inj hq
      refine ⟨e :: f, mem_choices.2 (.cons he hf), ?_⟩
      simp only [List.sum_cons]; abel
    · obtain ⟨g, hg, hs⟩ := ih hq
      refine ⟨b :: g, mem_choices.2 (.cons hb (mem_choices.1 hg)), ?_⟩
      simp only [List.sum_cons, hs]; abel

theorem vertex_minimal {L : List (List (Expo n))} (hL0 : L ≠ []) (hL : ∀ l ∈ L, l ≠ []) (hnd : ∀ l ∈ L, l.Nodup)
    {P : PolytopeData n} (hP : PolytopeOf (hullPoints L) P) (heq : P.equations = []) {v : Expo n} (hv : v ∈ P.vertices) :
    ∃ f, List.Forall₂ (fun l a => a ∈ l) L f ∧ ∀ r ∈ vertexRays P v,
      List.Forall₂ (fun l a => ∀ e ∈ l, 0 ≤ ∑ i, (e - a) i * r i) L f := by
  obtain ⟨f, hf, hs, _⟩ := (mem_hullPoints hL0 hnd v).1 ((hP.vertices v).1 hv).1
  refine ⟨f, mem_choices.1 hf, fun r hr => List.forall₂_iff_zip.2 ⟨(mem_choices.1 hf).length_eq, ?_⟩⟩
  intro l a hq e he
  obtain ⟨g, hg, hgs⟩ := choices_replace hf hq he
  obtain ⟨F, hF, rfl, h0⟩ := mem_vertexRays.1 hr
  obtain ⟨s, hsm, hle⟩ := hull_min hL0 hL hnd (point F.1) hg
  have h1 := (hP.facets heq _).1 (subset_convexHull ℝ _ ⟨s, hsm, rfl⟩) F hF
  rw [pair_comm_point] at h1
  rw [hgs, hs, pair_add] at hle
  rw [pair_comm_point] at h0
  have h2 : (0:ℝ) ≤ pair (e - a) (point F.1) := by linarith
  rw [pair_point] at h2
  exact_mod_cast h2

/-! ### the model in terms of rays -/

theorem columnIndex_spec {P : PolytopeData n} {r : Expo n} (h : ∃ f ∈ P.facets, f.1 = r) :
    ∃ k, columnIndex P r = some k ∧ (P.facets.get k).1 = r := by
  obtain ⟨f, hf, rfl⟩ := h
  obtain ⟨k, hk, rfl⟩ := List.mem_iff_getElem.1 hf
  have hex : (columnIndex P (P.facets[k]).1).isSome := by
    unfold columnIndex
    rw [List.find?_isSome]
    exact ⟨⟨k, hk⟩, List.mem_finRange _, by simp⟩
  obtain ⟨j, hj⟩ := Option.isSome_iff_exists.1 hex
  refine ⟨j, hj, ?_⟩
  unfold columnIndex at hj
  have := List.find?_some hj
  exact (by simpa using this : _ = _).symm

theorem columns_spec {P : PolytopeData n} {t : List (Expo n)} (h : ∀ r ∈ t, ∃ f ∈ P.facets, f.1 = r) :
    ∃ idx, t.mapM (columnIndex P) = some idx ∧ idx.map (fun k => (P.facets.get k).1) = t := by
  induction t with
  | nil => exact ⟨[], rfl, rfl⟩
  | cons r t ih =>
    obtain ⟨k, hk, hr⟩ := columnIndex_spec (h r (by simp))
    obtain ⟨idx, hi, ht⟩ := ih (fun r hr => h r (by simp [hr]))
    exact ⟨k :: idx, by rw [List.mapM_cons, hk, hi]; rfl, by rw [List.map_cons, hr, ht]⟩

theorem vertexCones_spec {tri : List (Expo n) → List (List (Expo n))} {P : PolytopeData n} {v : Expo n}
    (h : TriangulatesRays (vertexRays P v) (vertexSimplices tri P v)) :
    ∃ idxs, vertexCones tri P v = some idxs ∧
      idxs.map (fun idx => idx.map (fun k => (P.facets.get k).1)) = vertexSimplices tri P v := by
  unfold vertexCones vertexSimplices
  unfold vertexSimplices at h
  by_cases hl : (incident P v).length ≠ n
  · rw [if_pos hl] at h ⊢
    rw [if_pos hl]
    have hsub := h.sub
    show ∃ idxs, (tri (vertexRays P v)).mapM _ = some idxs ∧ _ = tri (vertexRays P v)
    generalize tri (vertexRays P v) = ts at hsub
    induction ts with
    | nil => exact ⟨[], rfl, rfl⟩
    | cons t ts ih =>
      obtain ⟨idxs, h1, h2⟩ := ih (fun t ht => hsub t (by simp [ht]))
      obtain ⟨idx, h3, h4⟩ := columns_spec (P := P) (t := t) (fun r hr => by
        obtain ⟨f, hf, he, _⟩ := mem_vertexRays.1 (hsub t (by simp) r hr)
        exact ⟨f, hf, he⟩)
      exact ⟨idx :: idxs, by rw [List.mapM_cons, h3, h1]; rfl, by rw [List.map_cons, h4, h2]⟩
  · rw [if_neg hl, if_neg hl]
    exact ⟨_, rfl, rfl⟩

theorem makeSectorIdx_eq {R : Type} [CommRing R] (s : Sector n R E) (P : PolytopeData n) (idx : List (Fin P.facets.length)) :
    makeSectorIdx s P idx = (rayMatrix (idx.map (fun k => (P.facets.get k).1))).bind (makeSectorKu s) := by
  unfold makeSectorIdx rayMatrix
  rw [List.length_map]
  by_cases h : idx.length = n
  · rw [dif_pos h, if_pos h, C19_make_sector_eq_cone_sector, Option.bind_some]
    congr 1
    ext i j
    have hj : (j : Nat) < (idx.map (fun k => (P.facets.get k).1)).length := by
      rw [List.length_map, h]; exact j.2
    rw [Matrix.of_apply, List.getD_eq_getElem _ _ hj, List.getElem_map]
    rfl
  · rw [dif_neg h, if_neg h]; rfl

end SecDec.Geometric
