import Verif.Proof.FanMeasure
import Mathlib.Data.Fin.VecNotation
/-
Property C60: the geometric decomposition of Kaneko and Ueda.
-/
set_option linter.unusedSectionVars false
namespace SecDec.Geometric
open SecDec SecDec.Squash SecDec.Decomp MeasureTheory

variable {n : Nat} {E : Type}

/-- C60: the cones of `generate_fan`.  Each cone comes from a choice of one exponent vector per polynomial
and, for directions in the cone, this exponent is minimal in its polynomial; a positive direction off
the walls (on which no two exponents of the same polynomial have the same weight) is in the interior
of some cone, and, if no polynomial lists an exponent vector twice, of no two of them. -/
theorem C60_generate_fan (hn : 0 < n) (L fan : List (List (Expo n))) (h : generateFan L = some fan)
    (hL : ∀ l ∈ L, l ≠ []) :
    (∀ cone ∈ fan, ∃ f, List.Forall₂ (fun l a => a ∈ l) L f ∧
      ∀ y : Fin n → ℝ, (∀ g ∈ cone, 0 ≤ pair g y) →
        (∀ i, 0 ≤ y i) ∧ List.Forall₂ (fun l a => ∀ e ∈ l, pair a y ≤ pair e y) L f) ∧
    (∀ y : Fin n → ℝ, (∀ i, 0 < y i) → (∀ l ∈ L, ∀ e ∈ l, ∀ e' ∈ l, e ≠ e' → pair e y ≠ pair e' y) →
      ∃ cone ∈ fan, ∀ g ∈ cone, 0 < pair g y) ∧
    ((∀ l ∈ L, l.Nodup) → fan.Pairwise (fun c c' =>
      ¬ ∃ y : Fin n → ℝ, (∀ g ∈ c, 0 < pair g y) ∧ (∀ g ∈ c', 0 < pair g y))) := by
  have h' := h
  unfold generateFan at h
  split at h
  · exact absurd h (by simp)
  simp only [Option.some.injEq] at h
  refine ⟨?_, ?_, ?_⟩
  · intro cone hc
    rw [← h, List.mem_filter] at hc
    obtain ⟨f, hf, rfl⟩ := List.mem_map.1 hc.1
    refine ⟨f, mem_choices.1 hf, fun y hy => ?_⟩
    have hpos : ∀ i, 0 ≤ y i := by
      intro i
      have := hy _ ((mem_coneRows hn L f _).2 ⟨Or.inr (List.mem_map.2 ⟨i, List.mem_finRange _, rfl⟩),
        identity_not_redundant i⟩)
      simpa [pair, apply_ite] using this
    refine ⟨hpos, List.forall₂_iff_zip.2 ⟨(mem_choices.1 hf).length_eq, ?_⟩⟩
    intro l a hq e he
    have hd : e - a ∈ differenceRows L f := mem_differenceRows.2 ⟨(l, a), hq, e, he, rfl⟩
    have h0 : (0:ℝ) ≤ pair (e - a) y := by
      by_cases hr : redundantRow (e - a) = true
      · rcases redundant_cases hr with hp | hp
        · exact Finset.sum_nonneg (fun i _ => mul_nonneg (by exact_mod_cast (hp i).le) (hpos i))
        · rw [hp]; simp [pair]
      · exact hy _ ((mem_coneRows hn L f _).2 ⟨Or.inl hd, by simpa using hr⟩)
    rw [pair_sub] at h0
    linarith
  · intro y hy hgen
    exact fan_covers hn h' hL hy (fun l hl e he e' he' hne => by
      rw [pair_sub]; exact sub_ne_zero.2 (hgen l hl e he e' he' hne))
  · intro hnd
    rw [← h]
    refine List.Pairwise.filter _ (List.pairwise_map.2 ?_)
    refine List.Pairwise.imp_of_mem ?_ (choices_nodup hnd)
    rintro f g hf hg hne ⟨y, h1, h2⟩
    exact strict_disjoint hn hf hg hne h1 h2

/-- The factor of a cone is minimal along the rays. -/
theorem cone_minimal (hn : 0 < n) {L fan : List (List (Expo n))} (h : generateFan L = some fan)
    {cone : List (Expo n)} (hc : cone ∈ fan) :
    ∃ f, List.Forall₂ (fun l a => a ∈ l) L f ∧ ∀ r : Expo n, (∀ g ∈ cone, 0 ≤ ∑ i, g i * r i) →
      List.Forall₂ (fun l a => ∀ e ∈ l, 0 ≤ ∑ i, (e - a) i * r i) L f := by
  unfold generateFan at h
  split at h
  · exact absurd h (by simp)
  simp only [Option.some.injEq] at h
  rw [← h, List.mem_filter] at hc
  obtain ⟨f, hf, rfl⟩ := List.mem_map.1 hc.1
  refine ⟨f, mem_choices.1 hf, fun r hr => List.forall₂_iff_zip.2 ⟨(mem_choices.1 hf).length_eq, ?_⟩⟩
  intro l a hq e he
  exact ray_diff hn hr (mem_differenceRows.2 ⟨(l, a), hq, e, he, rfl⟩)

theorem mem_fan_ne_zero (hn : 0 < n) {L fan : List (List (Expo n))} (h : generateFan L = some fan)
    {cone : List (Expo n)} (hc : cone ∈ fan) {g : Expo n} (hg : g ∈ cone) : g ≠ 0 := by
  unfold generateFan at h
  split at h
  · exact absurd h (by simp)
  simp only [Option.some.injEq] at h
  rw [← h, List.mem_filter] at hc
  obtain ⟨f, hf, rfl⟩ := List.mem_map.1 hc.1
  exact not_redundant_ne ((mem_coneRows hn L f g).1 hg).2

theorem fan_pos (hn : 0 < n) {L fan : List (List (Expo n))} (h : generateFan L = some fan)
    {cone : List (Expo n)} (hc : cone ∈ fan) {y : Fin n → ℝ} (hy : Strict cone y) (i : Fin n) : 0 < y i := by
  unfold generateFan at h
  split at h
  · exact absurd h (by simp)
  simp only [Option.some.injEq] at h
  rw [← h, List.mem_filter] at hc
  obtain ⟨f, hf, rfl⟩ := List.mem_map.1 hc.1
  exact strict_pos hn hy i

/-- the matrices of the full dimensional simplicial cones -/
def kuCones (tri : List (Expo n) → List (List (Expo n))) (fan : List (List (Expo n))) :
    List (Matrix (Fin n) (Fin n) Int) :=
  fan.flatMap (fun cone => (tri cone).filterMap rayMatrix)

theorem mem_kuCones {tri : List (Expo n) → List (List (Expo n))} {fan : List (List (Expo n))}
    {T : Matrix (Fin n) (Fin n) Int} :
    T ∈ kuCones tri fan ↔ ∃ cone ∈ fan, ∃ t ∈ tri cone, rayMatrix t = some T := by
  unfold kuCones
  simp only [List.mem_flatMap, List.mem_filterMap]

/-- inside a full dimensional simplicial cone the inequalities are strict -/
theorem region_strict (hn : 0 < n) {L fan : List (List (Expo n))} (h : generateFan L = some fan)
    {cone : List (Expo n)} (hc : cone ∈ fan) {ts : List (List (Expo n))} (htri : TriangulatesDual cone ts)
    {t : List (Expo n)} (ht : t ∈ ts) {T : Matrix (Fin n) (Fin n) Int} (hT : rayMatrix t = some T)
    {x : Fin n → ℝ} (hx : x ∈ coneRegion T) : Strict cone (fun i => -Real.log (x i)) := by
  obtain ⟨_, c, hc0, hce⟩ := (mem_coneRegion_iff hT).1 hx
  intro g hg
  rw [← hce]
  exact combine_strict hT (det_ne_zero_of_rays hT (htri.simplicial t ht)) (mem_fan_ne_zero hn h hc hg)
    (fun r hr => htri.rays t ht r hr g hg) hc0

theorem kuCones_disjoint (hn : 0 < n) {L fan : List (List (Expo n))} (h : generateFan L = some fan)
    (hL : ∀ l ∈ L, l ≠ []) (hnd : ∀ l ∈ L, l.Nodup) {tri : List (Expo n) → List (List (Expo n))}
    (htri : ∀ cone ∈ fan, TriangulatesDual cone (tri cone)) :
    (kuCones tri fan).Pairwise (fun a b => Disjoint (coneRegion a) (coneRegion b)) := by
  unfold kuCones
  rw [List.pairwise_flatMap]
  constructor
  · intro cone hc
    rw [List.pairwise_filterMap]
    refine (htri cone hc).disjoint.imp ?_
    intro t t' hd T hT T' hT'
    rw [Set.disjoint_left]
    intro x hx hx'
    obtain ⟨_, c, hc0, hce⟩ := (mem_coneRegion_iff hT).1 hx
    obtain ⟨_, c', hc0', hce'⟩ := (mem_coneRegion_iff hT').1 hx'
    exact hd ⟨_, c, c', hc0, hc0', hce, hce'⟩
  · refine List.Pairwise.imp_of_mem ?_ ((C60_generate_fan hn L fan h hL).2.2 hnd)
    intro c c' hc hc' hd T hT T' hT'
    rw [List.mem_filterMap] at hT hT'
    obtain ⟨t, ht, hT⟩ := hT
    obtain ⟨t', ht', hT'⟩ := hT'
    rw [Set.disjoint_left]
    intro x hx hx'
    exact hd ⟨_, region_strict hn h hc (htri c hc) ht hT hx, region_strict hn h hc' (htri c' hc') ht' hT' hx'⟩

/-- the walls between the cones -/
noncomputable def kuWalls (L fan : List (List (Expo n))) (tri : List (Expo n) → List (List (Expo n))) :
    List (Submodule ℝ (Fin n → ℝ)) :=
  (L.flatMap (fun l => l.flatMap (fun e => (l.filter (fun e' => decide (e ≠ e'))).map (fun e' => wall (e - e'))))) ++
    (fan.flatMap (fun cone => (tri cone).flatMap (fun t =>
      (List.finRange t.length).map (faceSpan t) ++ if t.length < n then [fullSpan t] else [])))

theorem kuCones_cover (hn : 0 < n) {L fan : List (List (Expo n))} (h : generateFan L = some fan)
    (hL : ∀ l ∈ L, l ≠ []) {tri : List (Expo n) → List (List (Expo n))}
    (htri : ∀ cone ∈ fan, TriangulatesDual cone (tri cone)) :
    Set.Icc (0 : Fin n → ℝ) 1 =ᵐ[volume] ⋃ c ∈ kuCones tri fan, coneRegion c := by
  refine Filter.EventuallyEq.trans oc_ae.symm ?_
  have hP : ∀ p ∈ kuWalls L fan tri, p ≠ ⊤ := by
    intro p hp
    unfold kuWalls at hp
    simp only [List.mem_append, List.mem_flatMap, List.mem_map, List.mem_filter, decide_eq_true_eq,
      List.mem_finRange, true_and] at hp
    rcases hp with ⟨l, _, e, _, e', ⟨_, hne⟩, rfl⟩ | ⟨cone, hc, t, ht, hp⟩
    · exact wall_ne_top (sub_ne_zero.2 hne)
    · rcases hp with ⟨j, rfl⟩ | hp
      · exact faceSpan_ne_top t j (length_le_of_independent ((htri cone hc).simplicial t ht))
      · split at hp
        · rename_i hlt
          rw [List.mem_singleton] at hp
          subst hp
          exact fullSpan_ne_top t hlt
        · simp at hp
  filter_upwards [null_log_list (kuWalls L fan tri) hP] with x hx
  apply propext
  constructor
  · intro hxo
    have hxo := mem_oc.1 hxo
    have hpos : ∀ i, 0 < x i := fun i => (hxo i).1
    have hx := hx hpos
    have hlog : ∀ p ∈ kuWalls L fan tri, (fun i => -Real.log (x i)) ∉ p := by
      intro p hp hm
      refine hx p hp ?_
      have h2 := p.neg_mem hm
      have h3 : -(fun i => -Real.log (x i)) = fun i => Real.log (x i) := by funext i; simp
      rwa [h3] at h2
    clear hx
    obtain ⟨cone, hc, hst⟩ := fan_covers hn h hL (y := fun i => -Real.log (x i))
      (fun i => by have := Real.log_neg (hxo i).1 (hxo i).2; linarith) (by
        intro l hl e he e' he' hne h0
        refine hlog (wall (e - e')) ?_ (mem_wall.2 h0)
        unfold kuWalls
        simp only [List.mem_append, List.mem_flatMap, List.mem_map, List.mem_filter, decide_eq_true_eq]
        exact Or.inl ⟨l, hl, e, he, e', ⟨he', hne⟩, rfl⟩)
    obtain ⟨t, ht, c, hc0, hce⟩ := (htri cone hc).covers _ hst
    have hle := length_le_of_independent ((htri cone hc).simplicial t ht)
    have hlen : t.length = n := by
      by_contra hne
      refine hlog (fullSpan t) ?_ (by rw [← hce]; exact combine_mem_fullSpan t c)
      unfold kuWalls
      simp only [List.mem_append, List.mem_flatMap]
      exact Or.inr ⟨cone, hc, t, ht, Or.inr (by rw [if_pos (by omega)]; simp)⟩
    obtain ⟨T, hT⟩ := rayMatrix_total hlen
    have hmem : x ∈ coneRegion T := by
      refine (mem_coneRegion_iff hT).2 ⟨hpos, c, fun j => lt_of_le_of_ne (hc0 j) (fun h0 => ?_), hce⟩
      refine hlog (faceSpan t j) ?_ (by rw [← hce]; exact combine_mem_faceSpan t c j h0.symm)
      unfold kuWalls
      simp only [List.mem_append, List.mem_flatMap, List.mem_map]
      exact Or.inr ⟨cone, hc, t, ht, Or.inl ⟨j, List.mem_finRange _, rfl⟩⟩
    exact Set.mem_iUnion₂.2 ⟨T, mem_kuCones.2 ⟨cone, hc, t, ht, hT⟩, hmem⟩
  · intro hxu
    obtain ⟨T, hT, hxT⟩ := Set.mem_iUnion₂.1 hxu
    obtain ⟨cone, hc, t, ht, hT⟩ := mem_kuCones.1 hT
    have h1 := fan_pos hn h hc (region_strict hn h hc (htri cone hc) ht hT hxT)
    refine mem_oc.2 fun i => ⟨hxT.1 i, ?_⟩
    have h2 : 0 < -Real.log (x i) := h1 i
    exact (Real.log_neg_iff (hxT.1 i)).1 (by linarith)

/-- A set which is not small needs at least one cone. -/
theorem sectors_ne_nil {E : Type} {s : Sector n ℝ E} {cones : List (Matrix (Fin n) (Fin n) Int)} {D : Set (Fin n → ℝ)} (hD : volume D ≠ 0)
    (hcover : D =ᵐ[volume] ⋃ c ∈ cones, coneRegion c) {sectors : List (Sector n ℝ E)} (h : cones.mapM (makeSectorKu s) = some sectors) : sectors ≠ [] := by
  rintro rfl
  have h := mapM_option_forall₂ h
  cases h
  apply hD
  rw [measure_congr hcover]
  simp

/-- The sectors and the cones they come from. -/
theorem ku_core (hn : 0 < n) (s : Sector n ℝ E) (hcast : s.cast ≠ [])
    (hne : ∀ p ∈ s.cast, p.poly.terms ≠ []) (hnd : ∀ p ∈ s.cast, (p.poly.terms.map (·.1)).Nodup)
    (tri : List (Expo n) → List (List (Expo n)))
    (htri : ∀ fan, generateFan (s.cast.map (fun p => p.poly.terms.map (·.1))) = some fan →
      ∀ cone ∈ fan, TriangulatesDual cone (tri cone)) :
    ∃ sectors, geometricKu tri s = some sectors ∧
      (∀ t ∈ sectors, (Refactorized t ∧ StandardForm (List.finRange n) t) ∧
        ∃ T : Matrix (Fin n) (Fin n) Int, T.det ≠ 0 ∧ makeSectorKu s T = some t) ∧ sectors ≠ [] ∧
      ∀ {V : Type} [NormedAddCommGroup V] [NormedSpace ℝ V]
        (F : List (ℝ × Option E) → List (ℝ × Option E) → V), CubeIntegrable (integrand F s) →
        (∀ t ∈ sectors, CubeIntegrable (integrand F t)) ∧
        (sectors.map (fun t => cubeIntegral (integrand F t))).sum = cubeIntegral (integrand F s) := by
  generalize hLdef : s.cast.map (fun p => p.poly.terms.map (·.1)) = L at htri
  have hLne : L ≠ [] := by rw [← hLdef]; simpa using hcast
  have hfan : ∃ fan, generateFan L = some fan := by
    unfold generateFan
    rw [if_neg (by simpa using hLne)]
    exact ⟨_, rfl⟩
  obtain ⟨fan, hfan⟩ := hfan
  have htri := htri fan hfan
  have hL : ∀ l ∈ L, l ≠ [] := by
    intro l hl
    rw [← hLdef] at hl
    obtain ⟨p, hp, rfl⟩ := List.mem_map.1 hl
    simpa using hne p hp
  have hLnd : ∀ l ∈ L, l.Nodup := by
    intro l hl
    rw [← hLdef] at hl
    obtain ⟨p, hp, rfl⟩ := List.mem_map.1 hl
    exact hnd p hp
  have hdet : ∀ c ∈ kuCones tri fan, c.det ≠ 0 := by
    intro T hT
    obtain ⟨cone, hc, t, ht, hT⟩ := mem_kuCones.1 hT
    exact det_ne_zero_of_rays hT ((htri cone hc).simplicial t ht)
  have hsome : ∃ sectors, (kuCones tri fan).mapM (makeSectorKu s) = some sectors := by
    have hone : ∀ T, ∃ t, makeSectorKu s T = some t := by
      intro T
      unfold makeSectorKu
      simp only
      have : ∀ l : List (SProd n ℝ E), (∀ p ∈ l, p.poly.terms ≠ []) → ∃ c, l.mapM refactorizeProd = some c := by
        intro l hl
        induction l with
        | nil => exact ⟨[], rfl⟩
        | cons p l ih =>
          obtain ⟨q, hq⟩ := refactorizeProd_isSome p (hl p (by simp))
          obtain ⟨c, hc⟩ := ih (fun p hp => hl p (by simp [hp]))
          exact ⟨q :: c, by rw [List.mapM_cons, hq, hc]; rfl⟩
      obtain ⟨c, hc⟩ := this (Sector.mapExpo (transformExpo T) s).cast (by
        intro p hp
        simp only [Sector.mapExpo, List.mem_map] at hp
        obtain ⟨q, hq, rfl⟩ := hp
        simpa using hne q hq)
      rw [hc]
      exact ⟨_, rfl⟩
    generalize kuCones tri fan = l
    induction l with
    | nil => exact ⟨[], rfl⟩
    | cons T l ih =>
      obtain ⟨t, ht⟩ := hone T
      obtain ⟨c, hc⟩ := ih
      exact ⟨t :: c, by rw [List.mapM_cons, ht, hc]; rfl⟩
  obtain ⟨sectors, hs⟩ := hsome
  refine ⟨sectors, ?_, ?_, ?_, ?_⟩
  · unfold geometricKu
    rw [hLdef, hfan]
    exact hs
  · intro t ht
    have hf := mapM_option_forall₂ hs
    obtain ⟨i, hi, rfl⟩ := List.mem_iff_getElem.1 ht
    have hi' : i < (kuCones tri fan).length := by rw [hf.length_eq]; exact hi
    have h1 := hf.get (i := i) hi' hi
    obtain ⟨cone, hc, r, hr, hT⟩ := mem_kuCones.1 (List.getElem_mem hi')
    refine ⟨makeSectorKu_standard h1 hne ?_, _, hdet _ (List.getElem_mem hi'), h1⟩
    obtain ⟨f, hf1, hf2⟩ := cone_minimal hn hfan hc
    intro p hp
    have hpl : p.poly.terms.map (·.1) ∈ L := by rw [← hLdef]; exact List.mem_map.2 ⟨p, hp, rfl⟩
    obtain ⟨k, hk, hke⟩ := List.mem_iff_getElem.1 hpl
    have hkf : k < f.length := by rw [← hf1.length_eq]; exact hk
    have ha := hf1.get (i := k) hk hkf
    simp only [List.get_eq_getElem] at ha
    rw [hke] at ha
    obtain ⟨u, hu, hu2⟩ := List.mem_map.1 ha
    refine ⟨u, hu, fun e he j => ?_⟩
    obtain ⟨hl, hT⟩ := rayMatrix_some hT
    have hray := hf2 (r.get (Fin.cast hl.symm j)) (fun g hg => (htri cone hc).rays r hr _ (List.get_mem _ _) g hg)
    have hb := hray.get (i := k) hk hkf
    simp only [List.get_eq_getElem] at hb
    rw [hke, ← hu2] at hb
    have := hb e.1 (List.mem_map.2 ⟨e, he, rfl⟩)
    simp only [List.get_eq_getElem, hT] at this ⊢
    exact this
  · exact sectors_ne_nil (by simp [Real.volume_Icc_pi]) (kuCones_cover hn hfan hL htri) hs
  · intro V _ _ F hint
    exact C19_geometric_decomposition s (kuCones tri fan) hdet (Set.Icc 0 1)
      (kuCones_disjoint hn hfan hL hLnd htri) (kuCones_cover hn hfan hL htri) sectors hs F hint

/-- C60: `geometric_decomposition_ku`.  Assume that no polynomial is empty or lists an exponent vector
twice, and that `normaliz` triangulates the cones it is given.  Then the decomposition succeeds, in
every sector each polynomial is a monomial times (constant plus non-negative powers), and whenever
the integral over the unit hypercube exists, the integrals of the sectors exist and add up to it. -/
theorem C60_ku_decomposition (hn : 0 < n) (s : Sector n ℝ E) (hcast : s.cast ≠ [])
    (hne : ∀ p ∈ s.cast, p.poly.terms ≠ []) (hnd : ∀ p ∈ s.cast, (p.poly.terms.map (·.1)).Nodup)
    (tri : List (Expo n) → List (List (Expo n)))
    (htri : ∀ fan, generateFan (s.cast.map (fun p => p.poly.terms.map (·.1))) = some fan →
      ∀ cone ∈ fan, TriangulatesDual cone (tri cone)) :
    ∃ sectors, geometricKu tri s = some sectors ∧
      (∀ t ∈ sectors, Refactorized t ∧ StandardForm (List.finRange n) t) ∧
      ∀ {V : Type} [NormedAddCommGroup V] [NormedSpace ℝ V]
        (F : List (ℝ × Option E) → List (ℝ × Option E) → V), CubeIntegrable (integrand F s) →
        (∀ t ∈ sectors, CubeIntegrable (integrand F t)) ∧
        (sectors.map (fun t => cubeIntegral (integrand F t))).sum = cubeIntegral (integrand F s) := by
  obtain ⟨sectors, h1, h2, -, h3⟩ := ku_core hn s hcast hne hnd tri htri
  exact ⟨sectors, h1, fun t ht => (h2 t ht).1, h3⟩

/-! ### the hypotheses are satisfiable; a duplicate exponent counts a region twice -/

/-- the polynomial `x₀ + x₁` -/
def exSector : Sector 2 ℝ Unit where
  jac := (0, 1)
  cast := [⟨(0, 1), ⟨[(![1, 0], 1), (![0, 1], 1)], none⟩⟩]
  other := []

/-- The triangulations for the two cones `y₁ ≥ y₀` and `y₀ ≥ y₁`. -/
def exTri (cone : List (Expo 2)) : List (List (Expo 2)) :=
  if ![-1, 1] ∈ cone then [[![0, 1], ![1, 1]]] else [[![1, 0], ![1, 1]]]

/-- hypotheses of C60 for `x₀ + x₁`: the triangulation of both cones. -/
example : ∀ fan, generateFan (exSector.cast.map (fun p => p.poly.terms.map (·.1))) = some fan →
    ∀ cone ∈ fan, TriangulatesDual cone (exTri cone) := by
  intro fan h cone hc
  have hL : exSector.cast.map (fun p => p.poly.terms.map (·.1)) = [[![1, 0], ![0, 1]]] := rfl
  rw [hL] at h
  unfold generateFan at h
  simp only [List.isEmpty_cons, Bool.false_eq_true, if_false, Option.some.injEq] at h
  rw [← h, List.mem_filter] at hc
  obtain ⟨f, hf, rfl⟩ := List.mem_map.1 hc.1
  have hf : f = [![1, 0]] ∨ f = [![0, 1]] := by simpa [choices] using hf
  have hind : ∀ a b : Expo 2, a 0 * b 1 - a 1 * b 0 ≠ 0 →
      LinearIndependent ℝ (fun (j : Fin [a, b].length) (i : Fin 2) => (([a, b].get j i : Int) : ℝ)) := by
    intro a b hd
    rw [Fintype.linearIndependent_iff]
    intro g hg
    have h0 := congrFun hg 0
    have h1 := congrFun hg 1
    simp [Fin.sum_univ_two] at h0 h1
    have hd' : (a 0 * b 1 - a 1 * b 0 : ℝ) ≠ 0 := by exact_mod_cast hd
    intro j
    have e0 : g 0 * (a 0 * b 1 - a 1 * b 0 : ℝ) = 0 := by linear_combination (b 1 : ℝ) * h0 - (b 0 : ℝ) * h1
    have e1 : g 1 * (a 0 * b 1 - a 1 * b 0 : ℝ) = 0 := by linear_combination (a 0 : ℝ) * h1 - (a 1 : ℝ) * h0
    fin_cases j
    · exact (mul_eq_zero.1 e0).resolve_right hd'
    · exact (mul_eq_zero.1 e1).resolve_right hd'
  rcases hf with rfl | rfl
  · have hrows : ∀ g, g ∈ coneRows [[![1, 0], ![0, 1]]] [(![1, 0] : Expo 2)] ↔
        g = ![-1, 1] ∨ g = ![1, 0] ∨ g = ![0, 1] := by
      intro g
      rw [mem_coneRows (by norm_num)]
      constructor
      · rintro ⟨h1, h2⟩
        have h1 : (g = ![0, 0] ∨ g = ![-1, 1]) ∨ g ∈ identityRows 2 := by
          simpa [differenceRows] using h1
        rcases h1 with (rfl | rfl) | h1
        · exact absurd h2 (by decide)
        · left; decide
        · obtain ⟨i, _, rfl⟩ := List.mem_map.1 h1
          fin_cases i
          · right; left; decide
          · right; right; decide
      · rintro (rfl | rfl | rfl)
        · exact ⟨Or.inl (by decide), by decide⟩
        · exact ⟨Or.inr (by decide), by decide⟩
        · exact ⟨Or.inr (by decide), by decide⟩
    have ht : exTri (coneRows [[![1, 0], ![0, 1]]] [(![1, 0] : Expo 2)]) = [[![0, 1], ![1, 1]]] := by
      unfold exTri; rw [if_pos ((hrows _).2 (Or.inl rfl))]
    rw [ht]
    refine ⟨?_, ?_, by simp, ?_⟩
    · intro t htm r hr g hg
      rw [hrows] at hg
      simp only [List.mem_singleton] at htm
      subst htm
      simp only [List.mem_cons, List.not_mem_nil, or_false] at hr
      rcases hg with rfl | rfl | rfl <;> rcases hr with rfl | rfl <;> decide
    · intro t htm
      simp only [List.mem_singleton] at htm
      subst htm
      exact hind _ _ (by decide)
    · intro y hy
      have h1 := hy _ ((hrows _).2 (Or.inl rfl))
      have h2 := hy _ ((hrows _).2 (Or.inr (Or.inl rfl)))
      simp [pair, Fin.sum_univ_two] at h1 h2
      refine ⟨[![0, 1], ![1, 1]], by simp, (![y 1 - y 0, y 0] : Fin 2 → ℝ), ?_, ?_⟩
      · intro j; fin_cases j <;> simp <;> linarith
      · funext i; fin_cases i <;> simp [combine, Fin.sum_univ_two]
  · have hrows : ∀ g, g ∈ coneRows [[![1, 0], ![0, 1]]] [(![0, 1] : Expo 2)] ↔
        g = ![1, -1] ∨ g = ![1, 0] ∨ g = ![0, 1] := by
      intro g
      rw [mem_coneRows (by norm_num)]
      constructor
      · rintro ⟨h1, h2⟩
        have h1 : (g = ![1, -1] ∨ g = ![0, 0]) ∨ g ∈ identityRows 2 := by
          simpa [differenceRows] using h1
        rcases h1 with (rfl | rfl) | h1
        · left; decide
        · exact absurd h2 (by decide)
        · obtain ⟨i, _, rfl⟩ := List.mem_map.1 h1
          fin_cases i
          · right; left; decide
          · right; right; decide
      · rintro (rfl | rfl | rfl)
        · exact ⟨Or.inl (by decide), by decide⟩
        · exact ⟨Or.inr (by decide), by decide⟩
        · exact ⟨Or.inr (by decide), by decide⟩
    have ht : exTri (coneRows [[![1, 0], ![0, 1]]] [(![0, 1] : Expo 2)]) = [[![1, 0], ![1, 1]]] := by
      unfold exTri; rw [if_neg (by rw [hrows]; decide)]
    rw [ht]
    refine ⟨?_, ?_, by simp, ?_⟩
    · intro t htm r hr g hg
      rw [hrows] at hg
      simp only [List.mem_singleton] at htm
      subst htm
      simp only [List.mem_cons, List.not_mem_nil, or_false] at hr
      rcases hg with rfl | rfl | rfl <;> rcases hr with rfl | rfl <;> decide
    · intro t htm
      simp only [List.mem_singleton] at htm
      subst htm
      exact hind _ _ (by decide)
    · intro y hy
      have h1 := hy _ ((hrows _).2 (Or.inl rfl))
      have h2 := hy _ ((hrows _).2 (Or.inr (Or.inr rfl)))
      simp [pair, Fin.sum_univ_two] at h1 h2
      refine ⟨[![1, 0], ![1, 1]], by simp, (![y 0 - y 1, y 1] : Fin 2 → ℝ), ?_, ?_⟩
      · intro j; fin_cases j <;> simp <;> linarith
      · funext i; fin_cases i <;> simp [combine, Fin.sum_univ_two]

/-- The other hypotheses of C60. -/
example : exSector.cast ≠ [] ∧ (∀ p ∈ exSector.cast, p.poly.terms ≠ []) ∧
    ∀ p ∈ exSector.cast, (p.poly.terms.map (·.1)).Nodup := by
  refine ⟨by simp [exSector], ?_, ?_⟩
  · intro p hp; simp [exSector] at hp; subst hp; simp
  · intro p hp
    simp only [exSector, List.mem_singleton] at hp
    subst hp
    show ([![1, 0], ![0, 1]] : List (Expo 2)).Nodup
    decide

/-- C60 (defect): a polynomial that lists an exponent vector twice (`x + x`, not simplified) makes
`generate_fan` return the same cone twice, so that the region is counted twice. -/
theorem C60_duplicate_exponents : ∃ cone : List (Expo 1),
    generateFan [[![1], ![1]]] = some [cone, cone] ∧ ∀ g ∈ cone, g = ![1] := by
  have hrows : ∀ g, g ∈ coneRows [[![1], ![1]]] [(![1] : Expo 1)] ↔ g = ![1] := by
    intro g
    rw [mem_coneRows (by norm_num)]
    constructor
    · rintro ⟨h1, h2⟩
      have h1 : g = ![0] ∨ g ∈ identityRows 1 := by
        simpa [differenceRows] using h1
      rcases h1 with rfl | h1
      · exact absurd h2 (by decide)
      · obtain ⟨i, _, rfl⟩ := List.mem_map.1 h1
        fin_cases i
        decide
    · rintro rfl
      exact ⟨Or.inr (by decide), by decide⟩
  refine ⟨coneRows [[![1], ![1]]] [(![1] : Expo 1)], ?_, fun g hg => (hrows g).1 hg⟩
  unfold generateFan
  simp only [List.isEmpty_cons, Bool.false_eq_true, if_false, Option.some.injEq]
  have hc : choices [[(![1] : Expo 1), ![1]]] = [[![1]], [![1]]] := rfl
  have hk : keepCone (coneRows [[![1], ![1]]] [(![1] : Expo 1)]) = true := by
    unfold keepCone
    simp only [Bool.and_eq_true, decide_eq_true_eq, Bool.not_eq_true', List.any_eq_false, hrows]
    refine ⟨⟨List.length_pos_of_mem ((hrows _).2 rfl), ?_⟩, ?_⟩
    · rintro g rfl; decide
    · rintro g rfl; decide
  rw [hc]
  simp only [List.map_cons, List.map_nil, List.filter_cons, hk, if_true, List.filter_nil]

end SecDec.Geometric
