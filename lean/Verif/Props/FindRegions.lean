import Verif.Proof.FindRegions
import Verif.Proof.Scaleless
import Mathlib.Analysis.SpecialFunctions.Pow.Real
import Mathlib.Data.Fin.VecNotation
/-
C63: the regions found by `find_regions` and `make_regions`.
-/
namespace SecDec
namespace FindRegions
open Geometric
variable {n : ℕ}

/-- C63: `find_regions` with the parameter `indices` in ascending order and a correct `normaliz`: the vectors returned are exactly the scalings of the variables
`indices` whose leading terms are not scaleless, each of them once. -/
theorem C63_find_regions {normaliz : (m : ℕ) → List (Expo m) → PolytopeData m} {S : List (Expo n)} (hS : S ≠ []) {idx : List (Fin n)}
    (hidx : idx.Pairwise (· < ·)) {j : ℤ} {i : Fin n} (hj : pyIndex n j = some i)
    (hP : FacetsOf (S.map (project idx)) (normaliz idx.length (S.map (project idx)))) {R : List (Expo n)}
    (h : findRegions normaliz j S (some idx) = some R) : AllRegions idx i (Scaleless idx S) R := by
  unfold findRegions at h
  simp only [Option.bind_eq_bind, hj, Option.bind_some] at h
  by_cases hi : i ∈ idx
  swap
  · rw [if_neg hi] at h
    exact absurd h (by simp)
  rw [if_pos hi, Option.bind_eq_some_iff] at h
  obtain ⟨R', h1, h2⟩ := h
  rw [Option.some.injEq] at h2
  set k : Fin idx.length := ⟨idx.idxOf i, List.idxOf_lt_length_iff.2 hi⟩ with hk
  have hki : idx.get k = i := by simp [hk]
  obtain ⟨a, b, c⟩ := regionsOf_spec (k := k) (by simpa using hS) hP h1
  subst h2
  refine ⟨?_, ?_, ?_⟩
  · intro v hv
    obtain ⟨v, hv', rfl⟩ := List.mem_map.1 hv
    obtain ⟨h3, h4⟩ := a v hv'
    have hsup : SupportedOn idx (point (spread idx v)) := by rw [point_spread]; exact supported_spread _
    refine ⟨?_, hsup, ?_⟩
    · rw [← hki, spread_get hidx]
      exact h3
    · rw [scaleless_project hidx S hsup, ← point_project, project_spread hidx]
      rintro ⟨u, h5, h6⟩
      exact h6 (h4 u h5)
  · intro w hw hwi hns
    rw [scaleless_project hidx S hw] at hns
    obtain ⟨v, hv, c, hc, he⟩ := b (project idx w) (by unfold project; rw [hki]; exact hwi) (by
      intro u hu
      by_contra hno
      exact hns ⟨u, hu, hno⟩)
    refine ⟨_, List.mem_map.2 ⟨v, hv, rfl⟩, c, hc, ?_⟩
    rw [← spread_project hidx hw, he, point_spread]
    have : SupportedOn idx (c • spread idx (point v)) := fun k hk => by simp [spread_not_mem _ hk]
    rw [← spread_project hidx this]
    congr 1
    funext l
    show c * point v l = c * spread idx (point v) (idx.get l)
    rw [spread_get hidx]
  · rw [List.pairwise_map]
    refine c.imp ?_
    rintro v v' hno ⟨c, hc, he⟩
    refine hno ⟨c, hc, ?_⟩
    have := congrArg (project idx) he
    rw [← point_project, project_spread hidx] at this
    rw [this]
    show c • project idx (point (spread idx v')) = _
    rw [← point_project, project_spread hidx]

/-- C63: the same without `indices`, if the parameter is given by an index that is not negative. -/
theorem C63_find_regions_all {normaliz : (m : ℕ) → List (Expo m) → PolytopeData m} {S : List (Expo n)} (hS : S ≠ []) (i : Fin n)
    (hP : FacetsOf S (normaliz n S)) {R : List (Expo n)} (h : findRegions normaliz (i : ℤ) S none = some R) :
    AllRegions (List.finRange n) i (Scaleless (List.finRange n) S) R := by
  obtain ⟨a, b, c⟩ := regionsOf_spec (k := i) hS hP h
  have hsup : ∀ u : Fin n → ℝ, SupportedOn (List.finRange n) u := fun u k hk => absurd (List.mem_finRange k) hk
  refine ⟨fun v hv => ⟨(a v hv).1, hsup _, ?_⟩, fun w _ hw hns => ?_, c⟩
  · rintro ⟨u, -, h1, h2⟩
    exact h2 ((a v hv).2 u h1)
  · refine b w hw fun u hu => ?_
    by_contra hno
    exact hns ⟨u, hsup u, hu, hno⟩

/-- C63: if `find_regions` raises the error 'Input integral is scaleless' then the leading terms of all scalings are scaleless. -/
theorem C63_scaleless_error {normaliz : (m : ℕ) → List (Expo m) → PolytopeData m} {S : List (Expo n)} {idx : List (Fin n)}
    (hidx : idx.Pairwise (· < ·)) {j : ℤ} {i : Fin n} (hj : pyIndex n j = some i) (hi : i ∈ idx)
    (hP : FacetsOf (S.map (project idx)) (normaliz idx.length (S.map (project idx))))
    (h : findRegions normaliz j S (some idx) = none) {w : Fin n → ℝ} (hw : SupportedOn idx w) (hwi : 0 < w i) : Scaleless idx S w := by
  unfold findRegions at h
  simp only [Option.bind_eq_bind, hj, Option.bind_some] at h
  rw [if_pos hi] at h
  set k : Fin idx.length := ⟨idx.idxOf i, List.idxOf_lt_length_iff.2 hi⟩ with hk
  have hki : idx.get k = i := by simp [hk]
  rw [scaleless_project hidx S hw]
  refine regionsOf_none (k := k) hP ?_ (by unfold project; rw [hki]; exact hwi)
  cases h1 : regionsOf (normaliz idx.length (S.map (project idx))) (k : ℤ) with
  | none => rfl
  | some R =>
    exfalso
    have : regionsOf (normaliz idx.length (S.map (project idx))) ((idx.idxOf i : ℕ) : ℤ) = some R := h1
    rw [this] at h
    simp at h

/-! ### the polynomial in `make_regions` -/

theorem choices_ne_nil {L : List (List (Expo n))} (h : ∀ l ∈ L, l ≠ []) : choices L ≠ [] := by
  induction L with
  | nil => simp [choices]
  | cons l L ih =>
    intro hno
    obtain ⟨g, hg⟩ := List.exists_mem_of_ne_nil _ (ih fun l hl => h l (by simp [hl]))
    obtain ⟨a, ha⟩ := List.exists_mem_of_ne_nil l (h l (by simp))
    have : a :: g ∈ choices (l :: L) := by simp only [choices, List.mem_flatMap, List.mem_map]; exact ⟨a, ha, g, hg, rfl⟩
    rw [hno] at this
    exact absurd this (by simp)

theorem mem_product {L : List (List (Expo n))} (hne : ∀ l ∈ L, l ≠ []) {p : Poly n Int} (h : polytopePolynomial L none = some p) (e : Expo n) :
    e ∈ p.expolist ↔ ∃ g ∈ choices L, g.sum = e := by
  unfold polytopePolynomial at h
  cases L with
  | nil => simp at h
  | cons l ls =>
    simp only [Option.some.injEq] at h
    have hc : ∀ e, (ls.foldl (fun P l => P.mul (ones l)) (ones l)).coeffOf e = (((choices (l :: ls)).filter (fun g => decide (g.sum = e))).length : Int) := by
      intro e
      show (ls.foldl (fun P l => P.mul ⟨l.map (fun e => (e, 1))⟩) (⟨l.map (fun e => (e, 1))⟩ : Poly n Int)).coeffOf e = _
      rw [coeffOf_as_sum, sum_fold ls _ (fun x => if x = e then 1 else 0), ← sum_indicator]
      simp only [List.map_map, choices, List.map_flatMap, sum_flatMap]
      congr 1
      refine List.map_congr_left fun a _ => ?_
      simp only [Function.comp, one_mul]
      rfl
    have hpos : ∀ e, (((choices (l :: ls)).filter (fun g => decide (g.sum = e))).length : Int) ≠ 0 ↔ ∃ g ∈ choices (l :: ls), g.sum = e := by
      intro e
      rw [Int.natCast_ne_zero, ne_eq, List.length_eq_zero_iff, List.filter_eq_nil_iff]
      push Not
      simp
    rw [← hpos, ← hc]
    rcases List.eq_nil_or_concat ls with rfl | ⟨ls', l', rfl⟩
    · subst h
      rw [List.foldl_nil, ← List.foldl_nil (f := fun (P : Poly n Int) l => P.mul (ones l)) (b := ones l), hc, hpos]
      simp only [List.foldl_nil, ones, Poly.expolist, List.map_map]
      constructor
      · intro he
        obtain ⟨a, ha, rfl⟩ := List.mem_map.1 he
        exact ⟨[a], by simp only [choices, List.mem_flatMap, List.mem_map]; exact ⟨a, ha, [], by simp, rfl⟩, by simp⟩
      · rintro ⟨g, hg, rfl⟩
        simp only [choices, List.mem_flatMap, List.mem_map, List.mem_singleton] at hg
        obtain ⟨a, ha, _, rfl, rfl⟩ := hg
        exact List.mem_map.2 ⟨a, ha, by simp⟩
    · obtain ⟨g, hg⟩ := List.exists_mem_of_ne_nil _ (choices_ne_nil hne)
      have h0 := (hpos g.sum).2 ⟨g, hg, rfl⟩
      rw [← hc] at h0
      subst h
      rw [List.concat_eq_append, List.foldl_append, List.foldl_cons, List.foldl_nil] at h0 ⊢
      unfold Poly.mul at h0 ⊢
      rw [Poly.coeffOf_simplify] at h0 ⊢
      exact mem_simplify ⟨_, h0⟩ e

theorem pair_add_left (e f : Expo n) (w : Fin n → ℝ) : pair (e + f) w = pair e w + pair f w := by
  unfold pair
  rw [← Finset.sum_add_distrib]
  refine Finset.sum_congr rfl fun i _ => ?_
  simp only [Pi.add_apply, Int.cast_add]
  ring

/-- the leading terms of a product are the products of leading terms -/
theorem leading_sum {A B S : List (Expo n)} (hS : ∀ s, s ∈ S ↔ ∃ a ∈ A, ∃ b ∈ B, a + b = s) (w : Fin n → ℝ) (s : Expo n) :
    s ∈ Leading S w ↔ ∃ a ∈ Leading A w, ∃ b ∈ Leading B w, a + b = s := by
  constructor
  · rintro ⟨h1, h2⟩
    obtain ⟨a, ha, b, hb, rfl⟩ := (hS s).1 h1
    refine ⟨a, ⟨ha, fun a' ha' => ?_⟩, b, ⟨hb, fun b' hb' => ?_⟩, rfl⟩
    · have := h2 (a' + b) ((hS _).2 ⟨a', ha', b, hb, rfl⟩)
      rw [pair_add_left, pair_add_left] at this
      linarith
    · have := h2 (a + b') ((hS _).2 ⟨a, ha, b', hb', rfl⟩)
      rw [pair_add_left, pair_add_left] at this
      linarith
  · rintro ⟨a, ha, b, hb, rfl⟩
    refine ⟨(hS _).2 ⟨a, ha.1, b, hb.1, rfl⟩, fun s' hs' => ?_⟩
    obtain ⟨a', ha', b', hb', rfl⟩ := (hS s').1 hs'
    have h1 := ha.2 a' ha'
    have h2 := hb.2 b' hb'
    rw [pair_add_left, pair_add_left]
    linarith

theorem homogeneous_sum {A B S : List (Expo n)} (hA : A ≠ []) (hB : B ≠ []) (hS : ∀ s, s ∈ S ↔ ∃ a ∈ A, ∃ b ∈ B, a + b = s) (w u : Fin n → ℝ) :
    Homogeneous (Leading S w) u ↔ Homogeneous (Leading A w) u ∧ Homogeneous (Leading B w) u := by
  constructor
  · intro h
    constructor
    · intro a ha a' ha'
      obtain ⟨b, hb⟩ := leading_exists hB w
      have := h (a + b) ((leading_sum hS w _).2 ⟨a, ha, b, hb, rfl⟩) (a' + b) ((leading_sum hS w _).2 ⟨a', ha', b, hb, rfl⟩)
      rw [pair_add_left, pair_add_left] at this
      linarith
    · intro b hb b' hb'
      obtain ⟨a, ha⟩ := leading_exists hA w
      have := h (a + b) ((leading_sum hS w _).2 ⟨a, ha, b, hb, rfl⟩) (a + b') ((leading_sum hS w _).2 ⟨a, ha, b', hb', rfl⟩)
      rw [pair_add_left, pair_add_left] at this
      linarith
  · rintro ⟨h1, h2⟩ s hs s' hs'
    obtain ⟨a, ha, b, hb, rfl⟩ := (leading_sum hS w _).1 hs
    obtain ⟨a', ha', b', hb', rfl⟩ := (leading_sum hS w _).1 hs'
    rw [pair_add_left, pair_add_left, h1 a ha a' ha', h2 b hb b' hb']

theorem homogeneous_choices (L : List (List (Expo n))) (hne : ∀ l ∈ L, l ≠ []) {S : List (Expo n)} (hS : ∀ s, s ∈ S ↔ ∃ g ∈ choices L, g.sum = s)
    (w u : Fin n → ℝ) : Homogeneous (Leading S w) u ↔ ∀ l ∈ L, Homogeneous (Leading l w) u := by
  induction L generalizing S with
  | nil =>
    simp only [List.not_mem_nil, false_imp_iff, implies_true, iff_true]
    intro s hs s' hs'
    have e : ∀ s, s ∈ Leading S w → s = 0 := by
      intro s hs
      obtain ⟨g, hg, rfl⟩ := (hS s).1 hs.1
      simp only [choices, List.mem_singleton] at hg
      rw [hg]; rfl
    rw [e s hs, e s' hs']
  | cons l L ih =>
    have hB := choices_ne_nil (L := L) fun l hl => hne l (by simp [hl])
    rw [homogeneous_sum (A := l) (B := (choices L).map List.sum) (hne l (by simp)) (by simpa using hB) ?_ w u,
      ih (fun l hl => hne l (by simp [hl])) (S := (choices L).map List.sum) (by intro s; simp), List.forall_mem_cons]
    intro s
    rw [hS]
    simp only [choices, List.mem_flatMap, List.mem_map]
    constructor
    · rintro ⟨_, ⟨a, ha, g, hg, rfl⟩, rfl⟩
      exact ⟨a, ha, g.sum, ⟨g, hg, rfl⟩, by simp⟩
    · rintro ⟨a, ha, _, ⟨g, hg, rfl⟩, rfl⟩
      exact ⟨_, ⟨a, ha, g, hg, rfl⟩, by simp⟩

theorem regionIndices_sorted (n m : ℕ) : (regionIndices n m).Pairwise (· < ·) := by
  unfold regionIndices
  rw [List.pairwise_append]
  refine ⟨?_, by simp, ?_⟩
  · rw [List.pairwise_map]
    exact (List.pairwise_lt_finRange n).imp fun {a b} h => h
  · intro a ha b hb
    obtain ⟨k, -, rfl⟩ := List.mem_map.1 ha
    rw [List.mem_singleton.1 hb]
    exact Fin.castSucc_lt_last _

theorem pyIndex_last (n : ℕ) : pyIndex (n + 1) (-1) = some (Fin.last n) := by
  unfold pyIndex
  rw [dif_neg (by omega), dif_pos ⟨by omega, by push_cast; omega⟩]
  congr 1
  apply Fin.ext
  simp

/-- C63: the regions used by `make_regions` (without `polytope_from_sum_of`) are exactly the scalings of the integration variables and the smallness parameter for which there is no
other direction in which the leading terms of all polynomials are homogeneous. -/
theorem C63_make_regions {n m : ℕ} {normaliz : (m : ℕ) → List (Expo m) → PolytopeData m} {L : List (List (Expo (n + m + 1)))} (hne : ∀ l ∈ L, l ≠ [])
    (hP : ∀ S : List (Expo (n + m + 1)), (∀ s, s ∈ S ↔ ∃ g ∈ choices L, g.sum = s) →
      FacetsOf (S.map (project (regionIndices n m))) (normaliz (regionIndices n m).length (S.map (project (regionIndices n m))))) {R : List (Expo (n + m + 1))}
    (h : makeRegionsVectors normaliz L none = some R) :
    AllRegions (regionIndices n m) (Fin.last (n + m)) (ScalelessProduct (regionIndices n m) L) R := by
  unfold makeRegionsVectors at h
  rw [Option.bind_eq_bind, Option.bind_eq_some_iff] at h
  obtain ⟨p, hp, h⟩ := h
  have hmem := mem_product hne hp
  have hL : L ≠ [] := by
    rintro rfl
    simp [polytopePolynomial] at hp
  have hiff : ∀ w, Scaleless (regionIndices n m) p.expolist w ↔ ScalelessProduct (regionIndices n m) L w := by
    intro w
    unfold Scaleless ScalelessProduct
    exact exists_congr fun u => and_congr_right fun _ => and_congr_left fun _ => homogeneous_choices L hne hmem w u
  have hS : p.expolist ≠ [] := by
    obtain ⟨g, hg⟩ := List.exists_mem_of_ne_nil _ (choices_ne_nil hne)
    have := (hmem _).2 ⟨g, hg, rfl⟩
    intro h0
    rw [h0] at this
    simp at this
  obtain ⟨a, b, c⟩ := C63_find_regions hS (regionIndices_sorted n m) (pyIndex_last _) (hP _ hmem) h
  refine ⟨fun v hv => ?_, fun w hw hwi hns => b w hw hwi (by rwa [hiff]), c⟩
  have := a v hv
  rwa [hiff] at this

/-- the exponents of a sum with positive coefficients -/
theorem mem_sum {L : List (List (Expo n))} {k : ℕ} {ks : List ℕ} (hne : ∃ l ∈ (k :: ks).map (fun k => L.getD k []), l ≠ []) {p : Poly n Int}
    (h : polytopePolynomial L (some (k :: ks)) = some p) (e : Expo n) :
    e ∈ p.expolist ↔ ∃ l ∈ (k :: ks).map (fun k => L.getD k []), e ∈ l := by
  unfold polytopePolynomial at h
  simp only [Option.bind_eq_bind, Option.bind_eq_some_iff, Option.some.injEq] at h
  obtain ⟨first, h1, rest, h2, rfl⟩ := h
  have hfirst : L.getD k [] = first := by simp [List.getD_eq_getElem?_getD, h1]
  have hrest : ks.map (fun k => L.getD k []) = rest := by
    clear hne
    induction ks generalizing rest with
    | nil => simp at h2; simp [h2]
    | cons j ks ih =>
      rw [List.mapM_cons] at h2
      simp only [Option.bind_eq_bind, Option.bind_eq_some_iff, Option.pure_def, Option.some.injEq] at h2
      obtain ⟨a, ha, b, hb, rfl⟩ := h2
      rw [List.map_cons, ih b hb]
      simp [List.getD_eq_getElem?_getD, ha]
  rw [List.map_cons, hfirst, hrest] at hne ⊢
  have hcount : ∀ l : List (Expo n), ∀ e, (ones l).coeffOf e = (l.count e : Int) := by
    intro l e
    unfold ones Poly.coeffOf
    dsimp only
    induction l with
    | nil => rfl
    | cons a l ih =>
      by_cases ha : a = e
      · simp only [List.map_cons, List.filter_cons, ha, decide_true, if_true, List.sum_cons, ih, List.count_cons_self]
        push_cast
        ring
      · simp only [List.map_cons, List.filter_cons, ha, decide_false, Bool.false_eq_true, if_false, ih, List.count_cons_of_ne ha]
  have hcoef : ∀ e, (rest.foldl (fun P l => P.add (ones l)) ((ones first).subOrAddScalar 0 false)).coeffOf e = (((first :: rest).map fun l => (l.count e : Int)).sum) := by
    intro e
    have h0 : ((ones first).subOrAddScalar 0 false).coeffOf e = (first.count e : Int) := by
      unfold Poly.subOrAddScalar
      rw [Poly.coeffOf_simplify, ← hcount]
      unfold Poly.coeffOf
      simp only [Bool.false_eq_true, if_false, List.filter_cons]
      split_ifs <;> simp
    have hstep : ∀ (ls : List (List (Expo n))) (P : Poly n Int), (ls.foldl (fun P l => P.add (ones l)) P).coeffOf e = P.coeffOf e + ((ls.map fun l => (l.count e : Int)).sum) := by
      intro ls
      induction ls with
      | nil => simp
      | cons l ls ih =>
        intro P
        rw [List.foldl_cons, ih, List.map_cons, List.sum_cons]
        have : (P.add (ones l)).coeffOf e = P.coeffOf e + (l.count e : Int) := by
          rw [← hcount]
          unfold Poly.add Poly.subOrAdd
          rw [Poly.coeffOf_simplify]
          unfold Poly.coeffOf
          simp
        rw [this]
        ring
    rw [hstep, h0, List.map_cons, List.sum_cons]
  have hsimp : ∃ q : Poly n Int, rest.foldl (fun P l => P.add (ones l)) ((ones first).subOrAddScalar 0 false) = q.simplify := by
    rcases List.eq_nil_or_concat rest with rfl | ⟨r, l, rfl⟩
    · exact ⟨_, rfl⟩
    · rw [List.concat_eq_append, List.foldl_append]
      exact ⟨_, rfl⟩
  obtain ⟨q, hq⟩ := hsimp
  have hpos : ∀ e, ((first :: rest).map fun l => (l.count e : Int)).sum ≠ 0 ↔ ∃ l ∈ first :: rest, e ∈ l := by
    intro e
    generalize first :: rest = M
    induction M with
    | nil => simp
    | cons l M ih =>
      have hnn : 0 ≤ (M.map fun l => (l.count e : Int)).sum := List.sum_nonneg (by
        intro x hx
        obtain ⟨l, -, rfl⟩ := List.mem_map.1 hx
        positivity)
      have hl : (l.count e : Int) ≠ 0 ↔ e ∈ l := by
        rw [Int.natCast_ne_zero, ← List.count_pos_iff]
        omega
      have hl0 : (0 : Int) ≤ (l.count e : Int) := by positivity
      have hex : (∃ m ∈ l :: M, e ∈ m) ↔ e ∈ l ∨ ∃ m ∈ M, e ∈ m := by simp
      rw [List.map_cons, List.sum_cons, hex, ← ih, ← hl]
      omega
  obtain ⟨l0, hl0, hl1⟩ := hne
  obtain ⟨a0, ha0⟩ := List.exists_mem_of_ne_nil l0 hl1
  have hq0 := (hpos a0).2 ⟨l0, hl0, ha0⟩
  rw [← hcoef, hq, Poly.coeffOf_simplify] at hq0
  rw [hq, mem_simplify ⟨_, hq0⟩, ← Poly.coeffOf_simplify, ← hq, hcoef, hpos]

/-- C63: with `polytope_from_sum_of` the regions are those of the sum of the given polynomials. -/
theorem C63_make_regions_sum {n m : ℕ} {normaliz : (m : ℕ) → List (Expo m) → PolytopeData m} {L : List (List (Expo (n + m + 1)))} {k : ℕ} {ks : List ℕ}
    (hne : ∃ l ∈ (k :: ks).map (fun k => L.getD k []), l ≠ [])
    (hP : ∀ S : List (Expo (n + m + 1)), (∀ s, s ∈ S ↔ ∃ l ∈ (k :: ks).map (fun k => L.getD k []), s ∈ l) →
      FacetsOf (S.map (project (regionIndices n m))) (normaliz (regionIndices n m).length (S.map (project (regionIndices n m))))) {R : List (Expo (n + m + 1))}
    (h : makeRegionsVectors normaliz L (some (k :: ks)) = some R) :
    AllRegions (regionIndices n m) (Fin.last (n + m)) (Scaleless (regionIndices n m) ((k :: ks).flatMap fun k => L.getD k [])) R := by
  unfold makeRegionsVectors at h
  rw [Option.bind_eq_bind, Option.bind_eq_some_iff] at h
  obtain ⟨p, hp, h⟩ := h
  have hmem := mem_sum hne hp
  have hlead : ∀ w, Leading p.expolist w = Leading ((k :: ks).flatMap fun k => L.getD k []) w := by
    intro w
    have he : ∀ s, s ∈ p.expolist ↔ s ∈ ((k :: ks).flatMap fun k => L.getD k []) := by
      intro s
      rw [hmem, List.mem_flatMap]
      simp only [List.mem_map]
      constructor
      · rintro ⟨_, ⟨j, hj, rfl⟩, hs⟩
        exact ⟨j, hj, hs⟩
      · rintro ⟨j, hj, hs⟩
        exact ⟨_, ⟨j, hj, rfl⟩, hs⟩
    ext s
    unfold Leading
    simp only [Set.mem_ofPred_eq, he]
  have hiff : ∀ w, Scaleless (regionIndices n m) p.expolist w ↔ Scaleless (regionIndices n m) ((k :: ks).flatMap fun k => L.getD k []) w := by
    intro w
    unfold Scaleless
    rw [hlead]
  have hS : p.expolist ≠ [] := by
    obtain ⟨l, hl, hl'⟩ := hne
    obtain ⟨a, ha⟩ := List.exists_mem_of_ne_nil l hl'
    have := (hmem a).2 ⟨l, hl, ha⟩
    intro h0
    rw [h0] at this
    simp at this
  obtain ⟨a, b, c⟩ := C63_find_regions hS (regionIndices_sorted n m) (pyIndex_last _) (hP _ hmem) h
  refine ⟨fun v hv => ?_, fun w hw hwi hns => b w hw hwi (by rwa [hiff]), c⟩
  have := a v hv
  rwa [hiff] at this

/-! ### what it means to be scaleless -/

theorem leading_weight {S : List (Expo n)} {w : Fin n → ℝ} {s s' : Expo n} (h : s ∈ Leading S w) (h' : s' ∈ Leading S w) : pair s w = pair s' w :=
  le_antisymm (h.2 s' h'.1) (h'.2 s h.1)

theorem mono_scale (e : Expo n) (u x : Fin n → ℝ) : Poly.mono (fun k => Real.exp (u k) * x k) e = Real.exp (pair e u) * Poly.mono x e := by
  unfold Poly.mono pair
  rw [Real.exp_sum, ← Finset.prod_mul_distrib]
  refine Finset.prod_congr rfl fun k _ => ?_
  rw [mul_zpow, mul_comm (e k : ℝ), Real.exp_mul, Real.rpow_intCast]

/-- C63: the leading terms are the leading behaviour of the polynomial if all variables are rescaled: `p(ρ^w x) = ρ^m (leading terms(x) + o(1))`. -/
theorem C63_leading_part (p : Poly n ℝ) (w : Fin n → ℝ) {s0 : Expo n} (h0 : s0 ∈ Leading p.expolist w) (x : Fin n → ℝ) :
    Filter.Tendsto (fun ρ : ℝ => p.eval (fun k => ρ ^ w k * x k) * ρ ^ (-pair s0 w)) (nhdsWithin 0 (Set.Ioi 0)) (nhds (leadingPart p w x)) := by
  classical
  have hterm : ∀ t ∈ p.terms, Filter.Tendsto (fun ρ : ℝ => t.2 * Poly.mono (fun k => ρ ^ w k * x k) t.1 * ρ ^ (-pair s0 w)) (nhdsWithin 0 (Set.Ioi 0))
      (nhds (if t.1 ∈ Leading p.expolist w then t.2 * Poly.mono x t.1 else 0)) := by
    intro t ht
    have e : ∀ ρ ∈ Set.Ioi (0 : ℝ), ρ ^ (pair t.1 w - pair s0 w) * (t.2 * Poly.mono x t.1) = t.2 * Poly.mono (fun k => ρ ^ w k * x k) t.1 * ρ ^ (-pair s0 w) := by
      intro ρ hρ
      have hρ' : (0 : ℝ) < ρ := hρ
      have e1 : (fun k => ρ ^ w k * x k) = fun k => Real.exp ((Real.log ρ • w) k) * x k := by
        funext k
        rw [Real.rpow_def_of_pos hρ']
        rfl
      rw [e1, mono_scale, pair_smul, Real.rpow_def_of_pos hρ', Real.rpow_def_of_pos hρ', mul_sub, sub_eq_add_neg, Real.exp_add]
      rw [show Real.log ρ * -pair s0 w = -(Real.log ρ * pair s0 w) by ring]
      ring
    refine Filter.Tendsto.congr' (Filter.eventuallyEq_of_mem self_mem_nhdsWithin e) ?_
    have hle : pair s0 w ≤ pair t.1 w := h0.2 t.1 (List.mem_map.2 ⟨t, ht, rfl⟩)
    by_cases hl : t.1 ∈ Leading p.expolist w
    · rw [if_pos hl, leading_weight hl h0, sub_self]
      simp only [Real.rpow_zero, one_mul]
      exact tendsto_const_nhds
    · rw [if_neg hl]
      have hlt : 0 < pair t.1 w - pair s0 w := by
        rcases hle.lt_or_eq with h | h
        · linarith
        · exact absurd ⟨List.mem_map.2 ⟨t, ht, rfl⟩, fun s' hs' => h ▸ h0.2 s' hs'⟩ hl
      have h1 : Filter.Tendsto (fun ρ : ℝ => ρ ^ (pair t.1 w - pair s0 w)) (nhdsWithin 0 (Set.Ioi 0)) (nhds 0) := by
        have := (Real.continuousAt_rpow_const 0 (pair t.1 w - pair s0 w) (Or.inr hlt.le)).tendsto
        rw [Real.zero_rpow hlt.ne'] at this
        exact this.mono_left nhdsWithin_le_nhds
      simpa using h1.mul_const (t.2 * Poly.mono x t.1)
  have hsum : ∀ l : List (Expo n × ℝ), (∀ t ∈ l, t ∈ p.terms) →
      Filter.Tendsto (fun ρ : ℝ => (l.map fun t => t.2 * Poly.mono (fun k => ρ ^ w k * x k) t.1).sum * ρ ^ (-pair s0 w)) (nhdsWithin 0 (Set.Ioi 0))
      (nhds ((l.filter (fun t => decide (t.1 ∈ Leading p.expolist w))).map fun t => t.2 * Poly.mono x t.1).sum) := by
    intro l
    induction l with
    | nil => intro _; simp
    | cons t l ih =>
      intro hl
      have h1 := (hterm t (hl t (by simp))).add (ih fun t ht => hl t (by simp [ht]))
      simp only [List.map_cons, List.sum_cons, add_mul]
      convert h1 using 2
      rw [List.filter_cons]
      by_cases h : t.1 ∈ Leading p.expolist w
      · simp [h]
      · simp [h]
  exact hsum p.terms fun t ht => ht

theorem leadingPart_pos {p : Poly n ℝ} (hne : p.terms ≠ []) (hp : ∀ t ∈ p.terms, 0 < t.2) (w : Fin n → ℝ) {x : Fin n → ℝ} (hx : ∀ k, 0 < x k) :
    0 < leadingPart p w x := by
  classical
  unfold leadingPart
  obtain ⟨s, hs⟩ := leading_exists (S := p.expolist) (by simpa [Poly.expolist] using hne) w
  obtain ⟨t, ht, rfl⟩ := List.mem_map.1 hs.1
  have hpos : ∀ t ∈ p.terms, 0 < t.2 * Poly.mono x t.1 := fun t ht =>
    mul_pos (hp t ht) (Finset.prod_pos fun k _ => zpow_pos (hx k) _)
  refine List.sum_pos _ ?_ ?_
  · intro y hy
    obtain ⟨t', ht', rfl⟩ := List.mem_map.1 hy
    exact hpos t' (List.mem_filter.1 ht').1
  · intro h0
    rw [List.map_eq_nil_iff, List.filter_eq_nil_iff] at h0
    exact h0 t ht (by simpa using hs)

theorem leadingPart_scale (p : Poly n ℝ) (w u : Fin n → ℝ) {s0 : Expo n} (h0 : s0 ∈ Leading p.expolist w) (hu : Homogeneous (Leading p.expolist w) u) (s : ℝ)
    (x : Fin n → ℝ) : leadingPart p w (fun k => Real.exp (s * u k) * x k) = Real.exp (s * pair s0 u) * leadingPart p w x := by
  classical
  unfold leadingPart
  rw [← List.sum_map_mul_left]
  congr 1
  refine List.map_congr_left fun t ht => ?_
  have hl : t.1 ∈ Leading p.expolist w := by simpa using (List.mem_filter.1 ht).2
  have := mono_scale t.1 (s • u) x
  simp only [Pi.smul_apply, smul_eq_mul, pair_smul] at this
  rw [this, hu t.1 hl s0 h0]
  ring

theorem leadingPart_continuous (p : Poly (n + 1) ℝ) (w : Fin (n + 1) → ℝ) (i : Fin (n + 1)) {t : ℝ}
    (hpos : ∀ x : Fin n → ℝ, (∀ k, 0 < x k) → ∀ k, 0 < i.insertNth (α := fun _ => ℝ) t x k) :
    ContinuousOn (fun x : Fin n → ℝ => leadingPart p w (i.insertNth (α := fun _ => ℝ) t x)) {x | ∀ k, 0 < x k} := by
  classical
  unfold leadingPart
  generalize p.terms.filter _ = l
  have hc : ∀ k, Continuous fun x : Fin n → ℝ => i.insertNth (α := fun _ => ℝ) t x k := by
    intro k
    rcases Fin.eq_self_or_eq_succAbove i k with rfl | ⟨j, rfl⟩
    · simpa using continuous_const
    · simpa using continuous_apply j
  induction l with
  | nil => simpa using continuousOn_const
  | cons a l ih =>
    simp only [List.map_cons, List.sum_cons]
    refine ContinuousOn.add (continuousOn_const.mul ?_) ih
    unfold Poly.mono
    refine continuousOn_finsetProd _ fun k _ => ?_
    exact (hc k).continuousOn.zpow₀ _ fun x hx => Or.inl (hpos x hx k).ne'

/-- C63: the integral of a scaleless region does not converge, whatever the exponents are (in dimensional regularization it is set to zero). -/
theorem C63_scaleless_integral {ps : List (Poly (n + 1) ℝ × ℂ)} (hne : ∀ p ∈ ps, p.1.terms ≠ []) (hp : ∀ p ∈ ps, ∀ t ∈ p.1.terms, 0 < t.2)
    {i : Fin (n + 1)} {w : Fin (n + 1) → ℝ} (hw : 0 < w i) (hs : ScalelessProduct (List.finRange (n + 1)) (ps.map fun p => p.1.expolist) w)
    {t : ℝ} (ht : 0 < t) : ¬ MeasureTheory.IntegrableOn (leadingIntegrand ps i w t) {x | ∀ k, 0 < x k} := by
  obtain ⟨u, -, hu, hnot⟩ := hs
  -- a direction which does not change the parameter
  set u' : Fin (n + 1) → ℝ := u + (-(u i / w i)) • w with hu'
  have hi : u' i = 0 := by
    simp only [hu', Pi.add_apply, Pi.smul_apply, smul_eq_mul]
    field_simp
    ring
  have hhom : ∀ p ∈ ps, Homogeneous (Leading p.1.expolist w) u' := by
    intro p hp s hs s' hs'
    rw [hu', pair_add, pair_add, pair_smul, pair_smul, hu _ (List.mem_map.2 ⟨p, hp, rfl⟩) s hs s' hs', leading_weight hs hs']
  set v : Fin n → ℝ := fun k => u' (i.succAbove k) with hv
  have hv0 : v ≠ 0 := by
    intro h
    apply hnot
    refine ⟨u i / w i, ?_⟩
    have : u' = 0 := by
      funext k
      rcases Fin.eq_self_or_eq_succAbove i k with rfl | ⟨j, rfl⟩
      · exact hi
      · exact congrFun h j
    rw [hu'] at this
    funext k
    have := congrFun this k
    simp only [Pi.add_apply, Pi.smul_apply, smul_eq_mul, Pi.zero_apply] at this ⊢
    linarith
  have hins : ∀ (s : ℝ) (x : Fin n → ℝ), i.insertNth (α := fun _ => ℝ) t (dilate (s • v) x) = fun k => Real.exp (s * u' k) * i.insertNth (α := fun _ => ℝ) t x k := by
    intro s x
    funext k
    rcases Fin.eq_self_or_eq_succAbove i k with rfl | ⟨j, rfl⟩
    · simp [hi]
    · simp [dilate, hv]
  have hpos : ∀ x : Fin n → ℝ, (∀ k, 0 < x k) → ∀ k, 0 < i.insertNth (α := fun _ => ℝ) t x k := by
    intro x hx k
    rcases Fin.eq_self_or_eq_succAbove i k with rfl | ⟨j, rfl⟩
    · simpa using ht
    · simpa using hx j
  have hLpos : ∀ p ∈ ps, ∀ x : Fin n → ℝ, (∀ k, 0 < x k) → 0 < leadingPart p.1 w (i.insertNth (α := fun _ => ℝ) t x) :=
    fun p hp' x hx => leadingPart_pos (hne p hp') (hp p hp') w (hpos x hx)
  -- the power of the rescaling
  have hscale : ∀ l : List (Poly (n + 1) ℝ × ℂ), (∀ p ∈ l, p ∈ ps) → ∃ c : ℝ, ∀ s : ℝ, ∀ x : Fin n → ℝ, (∀ k, 0 < x k) →
      ‖leadingIntegrand l i w t (dilate (s • v) x)‖ = Real.exp (s * c) * ‖leadingIntegrand l i w t x‖ := by
    intro l
    induction l with
    | nil => exact fun _ => ⟨0, by simp [leadingIntegrand]⟩
    | cons p l ih =>
      intro hl
      obtain ⟨c, hc⟩ := ih fun p hp => hl p (by simp [hp])
      have hp' := hl p (by simp)
      obtain ⟨s0, hs0⟩ := leading_exists (S := p.1.expolist) (by simpa [Poly.expolist] using hne p hp') w
      refine ⟨pair s0 u' * p.2.re + c, fun s x hx => ?_⟩
      have h1 := hc s x hx
      unfold leadingIntegrand at h1 ⊢
      simp only [List.map_cons, List.prod_cons, norm_mul]
      rw [h1, hins, leadingPart_scale p.1 w u' hs0 (hhom p hp') s, Complex.norm_cpow_eq_rpow_re_of_pos (mul_pos (Real.exp_pos _) (hLpos p hp' x hx)),
        Complex.norm_cpow_eq_rpow_re_of_pos (hLpos p hp' x hx), Real.mul_rpow (Real.exp_pos _).le (hLpos p hp' x hx).le, ← Real.exp_mul, mul_add, Real.exp_add]
      rw [show s * pair s0 u' * p.2.re = s * (pair s0 u' * p.2.re) by ring]
      ring
  obtain ⟨c, hc⟩ := hscale ps fun p hp => hp
  refine not_integrable_of_homogeneous ?_ ?_ hv0 hc
  · unfold leadingIntegrand
    have hcont : ∀ l : List (Poly (n + 1) ℝ × ℂ), (∀ p ∈ l, p ∈ ps) → ContinuousOn (fun x : Fin n → ℝ =>
        (l.map fun p => ((leadingPart p.1 w (i.insertNth (α := fun _ => ℝ) t x) : ℝ) : ℂ) ^ p.2).prod) {x | ∀ k, 0 < x k} := by
      intro l
      induction l with
      | nil => intro _; simpa using continuousOn_const
      | cons p l ih =>
        intro hl
        simp only [List.map_cons, List.prod_cons]
        refine ContinuousOn.mul ?_ (ih fun p hp => hl p (by simp [hp]))
        refine ContinuousOn.cpow ?_ continuousOn_const fun x hx => Or.inl ?_
        · refine Complex.continuous_ofReal.comp_continuousOn ?_
          exact leadingPart_continuous p.1 w i hpos
        · rw [Complex.ofReal_re]
          exact hLpos p (hl p (by simp)) x hx
    exact hcont ps fun p hp => hp
  · intro x hx
    unfold leadingIntegrand
    rw [Ne, List.prod_eq_zero_iff]
    intro h
    obtain ⟨p, hp', h⟩ := List.mem_map.1 h
    have := hLpos p hp' x hx
    rw [Complex.cpow_eq_zero_iff] at h
    exact this.ne' (by exact_mod_cast h.1)

/-! ### an example with two regions: `(x + ρ)^a (1 + x)^b` -/

/-- The exponents of `x + ρ` and `1 + x`. -/
def exFactors : List (List (Expo (1 + 0 + 1))) := [[![1, 0], ![0, 1]], [![0, 0], ![1, 0]]]

/-- The parallelogram. -/
def exSquare : PolytopeData 2 := ⟨[![1, 0], ![2, 0], ![0, 1], ![1, 1]], [(![0, 1], 0), (![1, 1], -1), (![0, -1], 1), (![-1, -1], 2)], []⟩

/-- What `normaliz` returns for it. -/
def exNormaliz : (m : ℕ) → List (Expo m) → PolytopeData m
  | 2, _ => exSquare
  | _, _ => ⟨[], [], []⟩

theorem span_of_eq {v u : Fin n → ℝ} {A : Set (Fin n → ℝ)} (hv : v ∈ A) {c : ℝ} (h : u = c • v) : u ∈ Submodule.span ℝ A := by
  rw [h]
  exact Submodule.smul_mem _ _ (Submodule.subset_span hv)

theorem ex_square {S : List (Expo 2)} (hS : ∀ e, e ∈ S ↔ e = ![1, 0] ∨ e = ![2, 0] ∨ e = ![0, 1] ∨ e = ![1, 1]) : FacetsOf S exSquare := by
  have p10 : ![1, 0] ∈ S := (hS _).2 (by simp)
  have p20 : ![2, 0] ∈ S := (hS _).2 (by simp)
  have p01 : ![0, 1] ∈ S := (hS _).2 (by simp)
  have p11 : ![1, 1] ∈ S := (hS _).2 (by simp)
  refine ⟨?_, ?_, ?_, ?_, ?_, ?_, ?_⟩
  · intro z
    constructor
    · intro hz
      refine ⟨fun f hf => ?_, by simp [exSquare]⟩
      have h1 : ∀ s ∈ S, -(f.2 : ℝ) ≤ pair s (Geometric.point f.1) := by
        intro s hs
        simp only [exSquare, List.mem_cons, List.not_mem_nil, or_false] at hf
        rcases (hS s).1 hs with rfl | rfl | rfl | rfl <;> rcases hf with rfl | rfl | rfl | rfl <;> norm_num [pair, Geometric.point, Fin.sum_univ_two]
      have := hull_ge h1 hz
      rw [pair_eq_dotR]
      linarith
    · rintro ⟨h, -⟩
      have h1 := h (![0, 1], 0) (by simp [exSquare])
      have h2 := h (![1, 1], -1) (by simp [exSquare])
      have h3 := h (![0, -1], 1) (by simp [exSquare])
      have h4 := h (![-1, -1], 2) (by simp [exSquare])
      simp only [pair, Fin.sum_univ_two, Matrix.cons_val_zero, Matrix.cons_val_one] at h1 h2 h3 h4
      norm_num at h1 h2 h3 h4
      have := (convex_convexHull ℝ (Geometric.point '' {e | e ∈ S})).sum_mem (t := (Finset.univ : Finset (Fin 4)))
        (w := ![(2 - z 0 - z 1) * (1 - z 1), (z 0 + z 1 - 1) * (1 - z 1), (2 - z 0 - z 1) * z 1, (z 0 + z 1 - 1) * z 1])
        (z := ![Geometric.point ![1, 0], Geometric.point ![2, 0], Geometric.point ![0, 1], Geometric.point ![1, 1]]) (by
          intro i _
          fin_cases i
          · exact mul_nonneg (by linarith) (by linarith)
          · exact mul_nonneg (by linarith) (by linarith)
          · exact mul_nonneg (by linarith) (by linarith)
          · exact mul_nonneg (by linarith) (by linarith)) (by simp [Fin.sum_univ_four]; ring) (by
          intro i _
          fin_cases i
          · exact mem_hull p10
          · exact mem_hull p20
          · exact mem_hull p01
          · exact mem_hull p11)
      convert this using 1
      funext i
      fin_cases i
      · simp [Fin.sum_univ_four, Geometric.point]; ring
      · simp [Fin.sum_univ_four, Geometric.point]; ring
  · haveI : IsEmpty (Fin exSquare.equations.length) := by
      show IsEmpty (Fin 0)
      infer_instance
    exact linearIndependent_empty_type
  · intro u hu
    have h1 := hu _ p10 _ p20
    have h2 := hu _ p10 _ p11
    simp [pair, Fin.sum_univ_two] at h1 h2
    have : u = 0 := by
      funext i
      fin_cases i
      · show u 0 = 0
        linarith
      · exact h2
    rw [this]
    exact Submodule.zero_mem _
  · intro f hf
    simp only [exSquare, List.mem_cons, List.not_mem_nil, or_false] at hf
    rcases hf with rfl | rfl | rfl | rfl
    · exact ⟨_, p10, by norm_num [pair, Geometric.point, Fin.sum_univ_two]⟩
    · exact ⟨_, p10, by norm_num [pair, Geometric.point, Fin.sum_univ_two]⟩
    · exact ⟨_, p01, by norm_num [pair, Geometric.point, Fin.sum_univ_two]⟩
    · exact ⟨_, p20, by norm_num [pair, Geometric.point, Fin.sum_univ_two]⟩
  · intro f hf
    simp only [exSquare, List.mem_cons, List.not_mem_nil, or_false] at hf
    rcases hf with rfl | rfl | rfl | rfl
    · exact ⟨_, p01, by norm_num [pair, Geometric.point, Fin.sum_univ_two]⟩
    · exact ⟨_, p20, by norm_num [pair, Geometric.point, Fin.sum_univ_two]⟩
    · exact ⟨_, p10, by norm_num [pair, Geometric.point, Fin.sum_univ_two]⟩
    · exact ⟨_, p10, by norm_num [pair, Geometric.point, Fin.sum_univ_two]⟩
  · intro f hf u hu
    simp only [exSquare, List.mem_cons, List.not_mem_nil, or_false] at hf
    rcases hf with rfl | rfl | rfl | rfl
    · have h1 := hu _ ⟨p10, by norm_num [pair, Geometric.point, Fin.sum_univ_two]⟩ _ ⟨p20, by norm_num [pair, Geometric.point, Fin.sum_univ_two]⟩
      simp [pair, Fin.sum_univ_two] at h1
      refine span_of_eq (c := u 1) ⟨![0, 1], by simp, rfl⟩ ?_
      funext i
      fin_cases i
      · simp [Geometric.point]; linarith
      · simp [Geometric.point]
    · have h1 := hu _ ⟨p10, by norm_num [pair, Geometric.point, Fin.sum_univ_two]⟩ _ ⟨p01, by norm_num [pair, Geometric.point, Fin.sum_univ_two]⟩
      simp [pair, Fin.sum_univ_two] at h1
      refine span_of_eq (c := u 1) ⟨![1, 1], by simp, rfl⟩ ?_
      funext i
      fin_cases i
      · simp [Geometric.point]; linarith
      · simp [Geometric.point]
    · have h1 := hu _ ⟨p01, by norm_num [pair, Geometric.point, Fin.sum_univ_two]⟩ _ ⟨p11, by norm_num [pair, Geometric.point, Fin.sum_univ_two]⟩
      simp [pair, Fin.sum_univ_two] at h1
      refine span_of_eq (c := -u 1) ⟨![0, -1], by simp, rfl⟩ ?_
      funext i
      fin_cases i
      · simp [Geometric.point]; linarith
      · simp [Geometric.point]
    · have h1 := hu _ ⟨p20, by norm_num [pair, Geometric.point, Fin.sum_univ_two]⟩ _ ⟨p11, by norm_num [pair, Geometric.point, Fin.sum_univ_two]⟩
      simp [pair, Fin.sum_univ_two] at h1
      refine span_of_eq (c := -u 1) ⟨![-1, -1], by simp, rfl⟩ ?_
      funext i
      fin_cases i
      · simp [Geometric.point]; linarith
      · simp [Geometric.point]
  · have key : ∀ a b : Expo 2, (∀ c : ℝ, 0 < c → (a 0 : ℝ) = c * b 0 → (a 1 : ℝ) = c * b 1 → False) → ¬ ∃ c : ℝ, 0 < c ∧ Geometric.point a = c • Geometric.point b := by
      rintro a b h ⟨c, hc, he⟩
      exact h c hc (congrFun he 0) (congrFun he 1)
    simp only [exSquare, List.pairwise_cons, List.mem_cons, List.not_mem_nil, or_false, forall_eq_or_imp, forall_eq, false_imp_iff, implies_true,
      List.Pairwise.nil, and_true]
    refine ⟨⟨?_, ?_, ?_⟩, ⟨?_, ?_⟩, ?_⟩ <;> refine key _ _ fun c hc h1 h2 => ?_ <;> simp at h1 h2 <;> linarith

/-- `make_regions` finds the regions `x ~ 1` and `x ~ ρ`. -/
theorem ex_regions : makeRegionsVectors (n := 1) (m := 0) exNormaliz exFactors none = some [![0, 1], ![1, 1]] := by decide +kernel

/-- The hypotheses of C63 hold, so that these are all regions. -/
example : AllRegions (regionIndices 1 0) (Fin.last 1) (ScalelessProduct (regionIndices 1 0) exFactors) [![0, 1], ![1, 1]] := by
  refine C63_make_regions (normaliz := exNormaliz) (by decide) (fun S hS => ?_) ex_regions
  have hid : ∀ e : Expo 2, project (regionIndices 1 0) e = e := by
    intro e
    funext k
    fin_cases k <;> rfl
  show FacetsOf (S.map (project (regionIndices 1 0))) exSquare
  have hmap : S.map (project (regionIndices 1 0)) = S := by
    conv_rhs => rw [← List.map_id S]
    exact List.map_congr_left fun e _ => hid e
  rw [hmap]
  refine ex_square fun e => ?_
  rw [hS]
  have hc : choices exFactors = [[![1, 0], ![0, 0]], [![1, 0], ![1, 0]], [![0, 1], ![0, 0]], [![0, 1], ![1, 0]]] := rfl
  rw [hc]
  simp only [List.mem_cons, List.not_mem_nil, or_false, exists_eq_or_imp, exists_eq_left]
  have e1 : ([![1, 0], ![0, 0]] : List (Expo 2)).sum = ![1, 0] := by decide
  have e2 : ([![1, 0], ![1, 0]] : List (Expo 2)).sum = ![2, 0] := by decide
  have e3 : ([![0, 1], ![0, 0]] : List (Expo 2)).sum = ![0, 1] := by decide
  have e4 : ([![0, 1], ![1, 0]] : List (Expo 2)).sum = ![1, 1] := by decide
  constructor
  · rintro (h | h | h | h)
    · exact Or.inl (h.symm.trans e1)
    · exact Or.inr (Or.inl (h.symm.trans e2))
    · exact Or.inr (Or.inr (Or.inl (h.symm.trans e3)))
    · exact Or.inr (Or.inr (Or.inr (h.symm.trans e4)))
  · rintro (h | h | h | h)
    · exact Or.inl (e1.trans h.symm)
    · exact Or.inr (Or.inl (e2.trans h.symm))
    · exact Or.inr (Or.inr (Or.inl (e3.trans h.symm)))
    · exact Or.inr (Or.inr (Or.inr (e4.trans h.symm)))

/-- The polynomials with the powers `a` and `b`. -/
def exPowers (a b : ℂ) : List (Poly 2 ℝ × ℂ) := [(⟨[(![1, 0], 1), (![0, 1], 1)]⟩, a), (⟨[(![0, 0], 1), (![1, 0], 1)]⟩, b)]

/-- In the region `x ~ ρ^(1/2)`, `x^a` remains, and its integral does not converge. -/
example (a b : ℂ) {t : ℝ} (ht : 0 < t) :
    ¬ MeasureTheory.IntegrableOn (leadingIntegrand (exPowers a b) 1 ![1 / 2, 1] t) {x : Fin 1 → ℝ | ∀ k, 0 < x k} := by
  refine C63_scaleless_integral ?_ ?_ (by norm_num) ?_ ht
  · intro p hp
    simp only [exPowers, List.mem_cons, List.not_mem_nil, or_false] at hp
    rcases hp with rfl | rfl <;> simp
  · intro p hp t ht
    simp only [exPowers, List.mem_cons, List.not_mem_nil, or_false] at hp
    rcases hp with rfl | rfl <;> simp only [List.mem_cons, List.not_mem_nil, or_false] at ht <;> rcases ht with rfl | rfl <;> norm_num
  · refine ⟨![1, 0], fun k hk => absurd (List.mem_finRange k) hk, ?_, ?_⟩
    · intro S hS
      simp only [exPowers, Poly.expolist, List.map_cons, List.map_nil, List.mem_cons, List.not_mem_nil, or_false] at hS
      have key : ∀ (S : List (Expo 2)) (e : Expo 2), e ∈ S → (∀ s ∈ S, s ≠ e → pair e ![1 / 2, 1] < pair s ![1 / 2, 1]) → Homogeneous (Leading S ![1 / 2, 1]) ![1, 0] := by
        intro S e he h s hs s' hs'
        have h1 : ∀ s ∈ Leading S ![1 / 2, 1], s = e := by
          intro s hs
          by_contra hne
          exact absurd (hs.2 e he) (not_le.2 (h s hs.1 hne))
        rw [h1 s hs, h1 s' hs']
      rcases hS with rfl | rfl
      · refine key _ ![1, 0] (by simp) fun s hs hne => ?_
        simp only [List.mem_cons, List.not_mem_nil, or_false] at hs
        rcases hs with rfl | rfl
        · exact absurd rfl hne
        · norm_num [pair, Fin.sum_univ_two]
      · refine key _ ![0, 0] (by simp) fun s hs hne => ?_
        simp only [List.mem_cons, List.not_mem_nil, or_false] at hs
        rcases hs with rfl | rfl
        · exact absurd rfl hne
        · norm_num [pair, Fin.sum_univ_two]
    · rintro ⟨c, hc⟩
      have h1 := congrFun hc 0
      have h2 := congrFun hc 1
      simp at h1 h2
      rw [← h2] at h1
      norm_num at h1

/-! ### defects -/

/-- A segment: the points `(0, q)` and `(p, 0)`. -/
def segment (p q : ℤ) : PolytopeData 2 := ⟨[![0, q], ![p, 0]], [(![1, 0], 0), (![0, 1], 0)], [(![q, p], -(p * q))]⟩

theorem ex_segment {p q : ℤ} (hp : 0 < p) (hq : 0 < q) : FacetsOf [![0, q], ![p, 0]] (segment p q) := by
  have hp' : (0 : ℝ) < p := by exact_mod_cast hp
  have hq' : (0 : ℝ) < q := by exact_mod_cast hq
  have pa : ![0, q] ∈ [![0, q], ![p, 0]] := by simp
  have pb : ![p, 0] ∈ [![0, q], ![p, 0]] := by simp
  refine ⟨?_, ?_, ?_, ?_, ?_, ?_, ?_⟩
  · intro z
    constructor
    · intro hz
      have hS : ∀ (v : Fin 2 → ℝ) (m : ℝ), m ≤ pair ![0, q] v → m ≤ pair ![p, 0] v → m ≤ dotR v z := by
        intro v m h1 h2
        refine hull_ge (fun s hs => ?_) hz
        simp only [List.mem_cons, List.not_mem_nil, or_false] at hs
        rcases hs with rfl | rfl
        · exact h1
        · exact h2
      have h1 := hS ![1, 0] 0 (by simp [pair]) (by simp [pair]; exact hp.le)
      have h2 := hS ![0, 1] 0 (by simp [pair]; exact hq.le) (by simp [pair])
      have h3 := hS ![q, p] (p * q) (by simp [pair]; linarith) (by simp [pair])
      have h4 := hS ![-q, -p] (-(p * q)) (by simp [pair]; linarith) (by simp [pair])
      simp [dotR] at h1 h2 h3 h4
      refine ⟨fun f hf => ?_, fun e he => ?_⟩
      · simp only [segment, List.mem_cons, List.not_mem_nil, or_false] at hf
        rcases hf with rfl | rfl
        · simpa [pair] using h1
        · simpa [pair] using h2
      · simp only [segment, List.mem_cons, List.not_mem_nil, or_false] at he
        subst he
        simp [pair]
        linarith
    · rintro ⟨h, h'⟩
      have h1 := h (![1, 0], 0) (by simp [segment])
      have h2 := h (![0, 1], 0) (by simp [segment])
      have h3 := h' (![q, p], -(p * q)) (by simp [segment])
      simp [pair] at h1 h2 h3
      have := (convex_convexHull ℝ (Geometric.point '' {e | e ∈ [![0, q], ![p, 0]]})).sum_mem (t := (Finset.univ : Finset (Fin 2)))
        (w := ![z 1 / q, z 0 / p]) (z := ![Geometric.point ![0, q], Geometric.point ![p, 0]]) (by
          intro i _
          fin_cases i
          · exact div_nonneg h2 hq'.le
          · exact div_nonneg h1 hp'.le) (by
            simp [Fin.sum_univ_two]
            field_simp
            linarith) (by
          intro i _
          fin_cases i
          · exact mem_hull pa
          · exact mem_hull pb)
      convert this using 1
      funext i
      fin_cases i
      · simp [Fin.sum_univ_two, Geometric.point]
        field_simp
      · simp [Fin.sum_univ_two, Geometric.point]
        field_simp
  · haveI : Subsingleton (Fin (segment p q).equations.length) := by
      show Subsingleton (Fin 1)
      infer_instance
    refine LinearIndependent.of_subsingleton (⟨0, by simp [segment]⟩ : Fin (segment p q).equations.length) ?_
    intro h
    have := congrFun h 0
    simp [segment, Geometric.point] at this
    omega
  · intro u hu
    have h1 := hu _ pa _ pb
    simp [pair] at h1
    refine span_of_eq (c := u 0 / q) ⟨![q, p], by simp [segment], rfl⟩ ?_
    funext i
    fin_cases i
    · simp [Geometric.point]
      field_simp
    · simp [Geometric.point]
      field_simp
      linarith
  · intro f hf
    simp only [segment, List.mem_cons, List.not_mem_nil, or_false] at hf
    rcases hf with rfl | rfl
    · exact ⟨_, pa, by simp [pair, Geometric.point]⟩
    · exact ⟨_, pb, by simp [pair, Geometric.point]⟩
  · intro f hf
    simp only [segment, List.mem_cons, List.not_mem_nil, or_false] at hf
    rcases hf with rfl | rfl
    · exact ⟨_, pb, by simpa [pair, Geometric.point] using hp.ne'⟩
    · exact ⟨_, pa, by simpa [pair, Geometric.point] using hq.ne'⟩
  · intro f hf u hu
    simp only [segment, List.mem_cons, List.not_mem_nil, or_false] at hf
    rcases hf with rfl | rfl
    · have e : u = (u 0 - q * u 1 / p) • Geometric.point ![1, 0] + (u 1 / p) • Geometric.point ![q, p] := by
        funext i
        fin_cases i
        · simp [Geometric.point]; ring
        · simp [Geometric.point]; field_simp
      rw [e]
      exact Submodule.add_mem _ (Submodule.smul_mem _ _ (Submodule.subset_span ⟨_, by simp, rfl⟩))
        (Submodule.smul_mem _ _ (Submodule.subset_span ⟨_, by simp [segment], rfl⟩))
    · have e : u = (u 1 - p * u 0 / q) • Geometric.point ![0, 1] + (u 0 / q) • Geometric.point ![q, p] := by
        funext i
        fin_cases i
        · simp [Geometric.point]; field_simp
        · simp [Geometric.point]; ring
      rw [e]
      exact Submodule.add_mem _ (Submodule.smul_mem _ _ (Submodule.subset_span ⟨_, by simp, rfl⟩))
        (Submodule.smul_mem _ _ (Submodule.subset_span ⟨_, by simp [segment], rfl⟩))
  · simp only [segment, List.pairwise_cons, List.mem_cons, List.not_mem_nil, or_false, forall_eq, false_imp_iff, implies_true, List.Pairwise.nil, and_true]
    rintro ⟨c, hc, h⟩
    have := congrFun h 0
    simp [Geometric.point] at this

/-- A program which knows one segment. -/
def segmentNormaliz (p q : ℤ) : (m : ℕ) → List (Expo m) → PolytopeData m
  | 2, _ => segment p q
  | _, _ => ⟨[], [], []⟩

/-- C63, defect: if `indices` are not in ascending order, the components of the regions are returned in the wrong places.  For the polynomial `x^2 + ρ` (`x` is variable
number 0, `ρ` number 1) and `indices = [1, 0]` the function returns `x ~ ρ^2` (which is scaleless) instead of `x ~ ρ^(1/2)`, although `normaliz` works correctly. -/
theorem C63_unsorted_indices_defect :
    FacetsOf ([![2, 0], ![0, 1]].map (project [(1 : Fin 2), 0])) (segmentNormaliz 1 2 2 ([![2, 0], ![0, 1]].map (project [(1 : Fin 2), 0]))) ∧
    findRegions (segmentNormaliz 1 2) 1 [![2, 0], ![0, 1]] (some [(1 : Fin 2), 0]) = some [![2, 1]] ∧
    Scaleless [(1 : Fin 2), 0] [![2, 0], ![0, 1]] (Geometric.point ![2, 1]) ∧ ¬ Scaleless [(1 : Fin 2), 0] [![2, 0], ![0, 1]] (Geometric.point ![1, 2]) := by
  have hsup : ∀ u : Fin 2 → ℝ, SupportedOn [(1 : Fin 2), 0] u := fun u k hk => absurd (by fin_cases k <;> simp) hk
  refine ⟨?_, by decide +kernel, ?_, ?_⟩
  · have key : ∀ pts : List (Expo 2), pts = [![0, 2], ![1, 0]] → FacetsOf pts (segment 1 2) := by
      rintro _ rfl
      exact ex_segment (by norm_num) (by norm_num)
    exact key _ (by decide)
  · refine ⟨![1, 0], hsup _, ?_, ?_⟩
    · have h1 : ∀ s ∈ Leading [![2, 0], ![0, 1]] (Geometric.point ![2, 1]), s = ![0, 1] := by
        rintro s ⟨h1, h2⟩
        have := h2 ![0, 1] (by simp)
        simp only [List.mem_cons, List.not_mem_nil, or_false] at h1
        rcases h1 with rfl | rfl
        · norm_num [pair, Geometric.point] at this
        · rfl
      intro s hs s' hs'
      rw [h1 s hs, h1 s' hs']
    · rintro ⟨c, hc⟩
      have h1 := congrFun hc 0
      have h2 := congrFun hc 1
      simp [Geometric.point] at h1 h2
      rw [← h2] at h1
      norm_num at h1
  · rintro ⟨u, -, h1, h2⟩
    apply h2
    have hh := h1 ![2, 0] ⟨by simp, by simp [pair, Geometric.point]⟩ ![0, 1] ⟨by simp, by simp [pair, Geometric.point]⟩
    simp [pair] at hh
    refine ⟨u 0, ?_⟩
    funext i
    fin_cases i
    · simp [Geometric.point]
    · simp [Geometric.point]
      linarith

/-- C63, defect: without `indices` and with the negative index `-1` of the expansion parameter, the sign of the equation is chosen by its constant: for the polynomial
`ρ + x` no region is found, while the index `1` of the same variable gives `x ~ ρ`. -/
theorem C63_negative_index_defect :
    FacetsOf [![0, 1], ![1, 0]] (segmentNormaliz 1 1 2 [![0, 1], ![1, 0]]) ∧ pyIndex 2 (-1) = pyIndex 2 1 ∧
    findRegions (segmentNormaliz 1 1) (-1) [![0, 1], ![1, 0]] none = some ([] : List (Expo 2)) ∧
    findRegions (segmentNormaliz 1 1) 1 [![0, 1], ![1, 0]] none = some [![1, 1]] :=
  ⟨ex_segment (by norm_num) (by norm_num), by decide +kernel, by decide +kernel, by decide +kernel⟩

end FindRegions
end SecDec
