import Verif.Props.Package
import Mathlib.Analysis.SpecialFunctions.JapaneseBracket
/-
C62: packages for all decomposition strategies.
-/
namespace SecDec
namespace Package
open Squash Decomp Sector Expansion Set LeadingOrder Filter Topology Asymptotics
variable {n : ℕ}

/-! ### strategies without a primary decomposition -/

/-- C62: the whole of `make_package` with one of the strategies `iterative_no_primary`, `geometric_no_primary` (integral over the unit cube) and
`geometric_infinity_no_primary` (integral over the positive orthant), for Euclidean kinematics.  If the package is generated, then for every
analytic continuation `J` of the integral to the neighbourhood of the value zero of the regulator, the integrals which the package integrates numerically exist, no
sector stays below the required order, and their sums over the sectors are the coefficients of the Laurent expansion of `J`. -/
theorem C62_no_primary_laurent {o : Options} {polys : List (SPoly (n + 1) ℝ (Poly 1 ℚ))} (hE : Euclidean polys) (hD : DecomposableNoPrimary o polys)
    (hval : ∀ c q, o.val c = some q → c = (q : ℝ)) (hv0 : o.val 0 = some 0)
    (hg : NoIntegerPowers polys ∧ CleanPowers polys ∨ GoalsReachedNoPrimary o polys) {V : Set ℂ} {J : ℂ → ℂ} (hJ : ContinuationOn (region o) polys V J)
    {results : List (List (Summand (n + 2) ℝ) × ℤ)} (h : packageNoPrimary o polys = some results) :
    (∀ r ∈ results, -r.2 ≤ o.order ∧ ∀ k, CubeIntegrable (orderIntegrand Complex.ofRealHom r.1 k)) ∧
      ∀ P : ℤ, (∀ r ∈ results, r.2 ≤ P) →
        IsExpansion J o.order ((sectorOrders o.order P).map fun k => (k, coefficient results o.order k)) := by
  unfold packageNoPrimary at h
  rw [Option.bind_eq_bind, Option.bind_eq_some_iff] at h
  obtain ⟨ss, hss, h⟩ := h
  obtain ⟨h1, h2⟩ := sectorsNoPrimary_spec (Q := fun e => ∃ p ∈ polys, exponentOf p = e) hE (fun p hp => ⟨p, hp, rfl⟩) hD hss
  refine laurent_core (fun e he => exponents_affine hE e he) h1 hJ.isOpen hJ.nonempty (fun z hz => h2 z (hJ.convergent z hz)) hval hv0 (fun s hs => ?_)
    hJ.analytic hJ.eq h
  rcases hg with hg | hg
  · exact Or.inl ⟨fun e ⟨p, hp, he⟩ => he ▸ hg.1 p hp, fun e ⟨p, hp, he⟩ => he ▸ hg.2 p hp⟩
  · exact Or.inr (hg ss hss s hs)

/-- C62: the analytic continuation exists if the integral converges for the regulators in a nonempty open set. -/
theorem C62_no_primary_continuation {o : Options} {polys : List (SPoly (n + 1) ℝ (Poly 1 ℚ))} (hE : Euclidean polys) (hD : DecomposableNoPrimary o polys)
    {V : Set ℂ} (hV : IsOpen V) (hne : V.Nonempty) (hc : ∀ z ∈ V, MeasureTheory.IntegrableOn (integrandAt polys z) (region o))
    {ss : List (Squash.Sector (n + 1) ℝ (Poly 1 ℚ))} (h : sectorsNoPrimary o polys = some ss) : ∃ J, ContinuationOn (region o) polys V J := by
  obtain ⟨h1, h2⟩ := sectorsNoPrimary_spec (Q := fun e => ∃ p ∈ polys, exponentOf p = e) hE (fun p hp => ⟨p, hp, rfl⟩) hD h
  obtain ⟨J, h3, h4⟩ := continuation_core (fun e he => exponents_affine hE e he) h1 hne fun z hz => h2 z (hc z hz)
  exact ⟨J, hV, hne, hc, h3, h4⟩

/-- C62: the package is generated for every required order, if the decomposition ends and each parameter with a negative power
is regulated. -/
theorem C62_no_primary_succeeds {o : Options} {polys : List (SPoly (n + 1) ℝ (Poly 1 ℚ))} (hE : Euclidean polys) (hD : DecomposableNoPrimary o polys)
    (hC : CleanPowers polys) (hval : ∀ q : ℚ, o.val q = some q) (hval' : ∀ c q, o.val c = some q → c = (q : ℝ)) (hlen : o.goals.length = n + 1)
    {ss : List (Squash.Sector (n + 1) ℝ (Poly 1 ℚ))} (h : sectorsNoPrimary o polys = some ss)
    (hreg : ∀ s ∈ ss, ∀ i, powerAtZero s i < 0 → powerSlope s i ≠ 0) :
    ∃ results K, ∀ fuel, K ≤ fuel → packageNoPrimary { o with fuel := fuel } polys = some results := by
  obtain ⟨h1, -⟩ := sectorsNoPrimary_spec (Q := fun e => ∃ p ∈ polys, exponentOf p = e) hE (fun p hp => ⟨p, hp, rfl⟩) hD h
  obtain ⟨rs, K, hK⟩ := succeeds_core (o := o) (fun e he => exponents_affine hE e he) (fun e ⟨p, hp, he⟩ => he ▸ hC p hp) hval hval' hlen h1 hreg
  refine ⟨rs, K, fun fuel hf => ?_⟩
  have h' : sectorsNoPrimary { o with fuel := fuel } polys = some ss := h
  unfold packageNoPrimary
  rw [h']
  exact hK fuel hf

/-! ### the geometric decompositions end -/

/-- C62: the strategies `geometric` and `geometric_ku` always produce sectors (if the polytope of `geometric` has full dimension). -/
theorem C62_geometric_ends {o : Options} {s : Squash.Sector (n + 1) ℝ (Poly 1 ℚ)} (hm : o.method ≠ .iterative) (hr : Refactorized s) (hc : s.cast ≠ [])
    (hd : ∀ p ∈ s.cast, (p.poly.terms.map (·.1)).Nodup) (hz : NormalizCorrect o s)
    (heq : o.method = .geometric →
      ((o.normaliz (n + 1)).polytope (Geometric.hullPoints (s.cast.map fun p => p.poly.terms.map (·.1)))).equations = []) :
    ∃ ts, secondary o s = some ts ∧ ts ≠ [] ∧ ∀ t ∈ ts, StandardForm (List.finRange (n + 1)) t := by
  unfold NormalizCorrect at hz
  unfold secondary
  dsimp only at hz
  have hne : ∀ p ∈ s.cast, p.poly.terms ≠ [] := fun p hp => (hr p hp).1
  cases hm' : o.method with
  | iterative => exact absurd hm' hm
  | geometric =>
    simp only [hm'] at hz ⊢
    obtain ⟨sec, h1, h2, h3, -⟩ := Geometric.hull_core s hc hne hd _ _ _ rfl hz.1 (heq hm') hz.2
    exact ⟨sec, h1, h3, fun t ht => (h2 t ht).1.2⟩
  | geometricKu =>
    simp only [hm'] at hz ⊢
    obtain ⟨sec, h1, h2, h3, -⟩ := Geometric.ku_core (Nat.succ_pos n) s hc hne hd _ hz
    exact ⟨sec, h1, h3, fun t ht => (h2 t ht).1.2⟩

/-- C62: homogeneous polynomials without duplicate exponents (such as the Symanzik polynomials) satisfy the requirement of the geometric strategies. -/
theorem C62_homogeneous_distinct {o : Options} {polys : List (SPoly (n + 1) ℝ (Poly 1 ℚ))} (hne : polys ≠ [])
    (hh : ∀ p ∈ polys, ∃ d : ℤ, ∀ t ∈ p.terms, ∑ i, t.1 i = d) (hd : ∀ p ∈ polys, (p.terms.map (·.1)).Nodup) : DistinctMonomials o polys := by
  have key : ∀ p ∈ polys, ∀ i : Fin (n + 1), (p.terms.map fun t => deleteCol i t.1).Nodup := by
    intro p hp i
    obtain ⟨d, hd'⟩ := hh p hp
    have e : (p.terms.map fun t => deleteCol i t.1) = (p.terms.map (·.1)).map (deleteCol i) := by rw [List.map_map]; rfl
    rw [e]
    refine (List.nodup_map_iff_inj_on (hd p hp)).2 fun a ha b hb hab => ?_
    obtain ⟨ta, hta, rfl⟩ := List.mem_map.1 ha
    obtain ⟨tb, htb, rfl⟩ := List.mem_map.1 hb
    have h1 := (hd' ta hta).trans (hd' tb htb).symm
    have h2 : ∀ k, ta.1 (i.succAbove k) = tb.1 (i.succAbove k) := fun k => congrFun hab k
    rw [Fin.sum_univ_succAbove _ i, Fin.sum_univ_succAbove _ i, Finset.sum_congr rfl fun k _ => h2 k] at h1
    funext k
    rcases Fin.eq_self_or_eq_succAbove i k with rfl | ⟨j, rfl⟩
    · linarith
    · exact h2 j
  unfold DistinctMonomials
  split
  · trivial
  · exact ⟨hne, fun p hp => key p hp _⟩
  · exact ⟨hne, key⟩

example (order : ℤ) (m : Method) : DistinctMonomials { exOptions order with method := m } exPolys :=
  C62_homogeneous_distinct (by simp [exPolys]) (by
    intro p hp
    simp only [exPolys, List.mem_cons, List.not_mem_nil, or_false] at hp
    rcases hp with rfl | rfl
    · refine ⟨1, ?_⟩
      show ∀ t ∈ [((![1, 0] : Expo 2), (1 : ℝ)), (![0, 1], 1)], _
      simp
    · exact ⟨2, by simp⟩) (by
    intro p hp
    simp only [exPolys, List.mem_cons, List.not_mem_nil, or_false] at hp
    rcases hp with rfl | rfl
    · show [(![1, 0] : Expo 2), ![0, 1]].Nodup
      decide
    · simp)

/-! ### independence of the strategy -/

theorem isExpansion_truncate {f : ℂ → ℂ} {o o' : ℤ} {l : List (ℤ × ℂ)} (h : IsExpansion f o l) (ho : o' ≤ o) :
    IsExpansion f o' (l.filter fun t => t.1 ≤ o') := by
  obtain ⟨h1, h2, h3⟩ := h
  refine ⟨?_, ?_, ?_⟩
  · rw [List.pairwise_map] at h1 ⊢
    exact h1.filter _
  · intro t ht
    simpa using (List.mem_filter.1 ht).2
  · have hz : ∀ k : ℤ, o' + 1 ≤ k → (fun s : ℂ => s ^ k) =O[𝓝[≠] 0] fun s => s ^ (o' + 1) := by
      intro k hk
      refine IsBigO.of_bound 1 ?_
      have hb : ∀ᶠ s : ℂ in 𝓝[≠] 0, ‖s‖ < 1 := (Metric.ball_mem_nhds (0 : ℂ) one_pos |> mem_nhdsWithin_of_mem_nhds |> fun h => by
        filter_upwards [h] with s hs
        simpa using hs)
      filter_upwards [hb, self_mem_nhdsWithin] with s hs h0
      rw [one_mul, norm_zpow, norm_zpow]
      exact zpow_le_zpow_right_of_le_one₀ (norm_pos_iff.2 h0) hs.le hk
    have hsum : ∀ L : List (ℤ × ℂ), (∀ t ∈ L, o' + 1 ≤ t.1) → (fun s : ℂ => (L.map fun t => t.2 * s ^ t.1).sum) =O[𝓝[≠] 0] fun s => s ^ (o' + 1) := by
      intro L hL
      induction L with
      | nil => simpa using isBigO_zero _ _
      | cons t L ih =>
        simp only [List.map_cons, List.sum_cons]
        exact ((hz t.1 (hL t (by simp))).const_mul_left t.2).add (ih fun t ht => hL t (by simp [ht]))
    have h4 := (h3.trans (hz (o + 1) (by omega))).add (hsum (l.filter fun t => ¬ t.1 ≤ o') (by
      intro t ht
      have := (List.mem_filter.1 ht).2
      have h5 : ¬ t.1 ≤ o' := by simpa using this
      omega))
    refine h4.congr_left fun s => ?_
    have e : ∀ L : List (ℤ × ℂ), (L.map fun t => t.2 * s ^ t.1).sum = ((L.filter fun t => t.1 ≤ o').map fun t => t.2 * s ^ t.1).sum +
        ((L.filter fun t => ¬ t.1 ≤ o').map fun t => t.2 * s ^ t.1).sum := by
      intro L
      induction L with
      | nil => simp
      | cons t L ih =>
        by_cases ht : t.1 ≤ o'
        · simp only [List.map_cons, List.sum_cons, ih, List.filter_cons, ht, decide_true, not_true_eq_false, decide_false, if_true, Bool.false_eq_true, if_false]
          ring
        · simp only [List.map_cons, List.sum_cons, ih, List.filter_cons, ht, decide_true, not_false_eq_true, decide_false, if_true, Bool.false_eq_true, if_false]
          ring
    rw [e l]
    ring

theorem coeffAt_map {l : List ℤ} (hl : l.Nodup) (c : ℤ → ℂ) {k : ℤ} (hk : k ∈ l) : coeffAt (l.map fun j => (j, c j)) k = c k := by
  unfold coeffAt
  induction l with
  | nil => simp at hk
  | cons j l ih =>
    rw [List.nodup_cons] at hl
    by_cases h : j = k
    · subst h
      have : (l.map fun j => (j, c j)).filter (fun t => decide (t.1 = j)) = [] := by
        rw [List.filter_eq_nil_iff]
        intro t ht
        obtain ⟨i, hi, rfl⟩ := List.mem_map.1 ht
        simp only [decide_eq_true_eq]
        rintro rfl
        exact hl.1 hi
      simp [List.filter_cons, this]
    · have hk' : k ∈ l := by
        rcases List.mem_cons.1 hk with rfl | h'
        · exact absurd rfl h
        · exact h'
      simpa [List.filter_cons, h] using ih hl.2 hk'

theorem coeffAt_filter {l : List (ℤ × ℂ)} {o k : ℤ} (hk : k ≤ o) : coeffAt (l.filter fun t => t.1 ≤ o) k = coeffAt l k := by
  unfold coeffAt
  congr 2
  rw [List.filter_filter]
  refine List.filter_congr fun t _ => ?_
  by_cases h : t.1 = k
  · simp [h, hk]
  · simp [h]

theorem exists_bound {A : Type} (l : List (A × ℤ)) : ∃ P, ∀ r ∈ l, r.2 ≤ P := by
  induction l with
  | nil => exact ⟨0, by simp⟩
  | cons r l ih =>
    obtain ⟨P, hP⟩ := ih
    refine ⟨max r.2 P, fun x hx => ?_⟩
    rcases List.mem_cons.1 hx with rfl | hx
    · exact le_max_left _ _
    · exact (hP x hx).trans (le_max_right _ _)

/-- Two sets of coefficients of the same function. -/
theorem coefficients_agree {n' : ℕ} {J : ℂ → ℂ} {o o' : ℤ} {results : List (List (Summand (n + 1) ℝ) × ℤ)} {results' : List (List (Summand (n' + 1) ℝ) × ℤ)}
    (h : ∀ P : ℤ, (∀ r ∈ results, r.2 ≤ P) → IsExpansion J o ((sectorOrders o P).map fun k => (k, coefficient results o k)))
    (h' : ∀ P : ℤ, (∀ r ∈ results', r.2 ≤ P) → IsExpansion J o' ((sectorOrders o' P).map fun k => (k, coefficient results' o' k)))
    {k : ℤ} (hk : k ≤ o) (hk' : k ≤ o') : coefficient results o k = coefficient results' o' k := by
  obtain ⟨P, hP⟩ := exists_bound results
  obtain ⟨P', hP'⟩ := exists_bound results'
  have h1 := isExpansion_truncate (h (max (max P P') (-k)) fun r hr => (hP r hr).trans (by omega)) (o' := min o o') (by omega)
  have h2 := isExpansion_truncate (h' (max (max P P') (-k)) fun r hr => (hP' r hr).trans (by omega)) (o' := min o o') (by omega)
  have := isExpansion_unique h1 h2 k
  rw [coeffAt_filter (by omega), coeffAt_filter (by omega), coeffAt_map (sectorOrders_nodup _ _) _ (sectorOrders_mem.2 ⟨by omega, hk⟩),
    coeffAt_map (sectorOrders_nodup _ _) _ (sectorOrders_mem.2 ⟨by omega, hk'⟩)] at this
  exact this

/-- C62: the results do not depend on the strategy, nor on the algorithms which look for symmetries, on the goals of the integration by parts or
on the required order: two packages for the same integral with the Dirac delta, with any options, compute the same coefficients up to the smaller one of the
required orders. -/
theorem C62_strategy_independent {o o' : Options} {polys : List (SPoly (n + 1) ℝ (Poly 1 ℚ))} (hE : Euclidean polys) (hD : Decomposable o polys)
    (hD' : Decomposable o' polys) (hval : ∀ c q, o.val c = some q → c = (q : ℝ)) (hv0 : o.val 0 = some 0)
    (hval' : ∀ c q, o'.val c = some q → c = (q : ℝ)) (hv0' : o'.val 0 = some 0)
    (hg : NoIntegerPowers polys ∧ CleanPowers polys ∨ GoalsReached o polys) (hg' : NoIntegerPowers polys ∧ CleanPowers polys ∨ GoalsReached o' polys)
    {V : Set ℂ} (hV : IsOpen V) (hne : V.Nonempty) (hp : ∀ z ∈ V, Projective (integrandAt polys z)) (hc : ∀ z ∈ V, DeltaIntegrable (integrandAt polys z))
    {results results' : List (List (Summand (n + 1) ℝ) × ℤ)} (h : package o polys = some results) (h' : package o' polys = some results')
    {k : ℤ} (hk : k ≤ o.order) (hk' : k ≤ o'.order) : coefficient results o.order k = coefficient results' o'.order k := by
  have hss : ∃ ss, sectors o polys = some ss := by
    unfold package at h
    rw [Option.bind_eq_bind, Option.bind_eq_some_iff] at h
    obtain ⟨ss, hss, -⟩ := h
    exact ⟨ss, hss⟩
  obtain ⟨ss, hss⟩ := hss
  obtain ⟨J, hJ⟩ := C57_continuation_exists hE hD hV hne hp hc hss
  exact coefficients_agree (C57_laurent_coefficients hE hD hval hv0 hg hp hJ h).2 (C57_laurent_coefficients hE hD' hval' hv0' hg' hp hJ h').2 hk hk'

/-- C62: the same for the integrals without the Dirac delta, for the strategies with the same region of integration. -/
theorem C62_no_primary_independent {o o' : Options} {polys : List (SPoly (n + 1) ℝ (Poly 1 ℚ))} (hE : Euclidean polys) (hD : DecomposableNoPrimary o polys)
    (hD' : DecomposableNoPrimary o' polys) (hval : ∀ c q, o.val c = some q → c = (q : ℝ)) (hv0 : o.val 0 = some 0)
    (hval' : ∀ c q, o'.val c = some q → c = (q : ℝ)) (hv0' : o'.val 0 = some 0)
    (hg : NoIntegerPowers polys ∧ CleanPowers polys ∨ GoalsReachedNoPrimary o polys)
    (hg' : NoIntegerPowers polys ∧ CleanPowers polys ∨ GoalsReachedNoPrimary o' polys) (hr : (region o : Set (Fin (n + 1) → ℝ)) = region o')
    {V : Set ℂ} (hV : IsOpen V) (hne : V.Nonempty) (hc : ∀ z ∈ V, MeasureTheory.IntegrableOn (integrandAt polys z) (region o))
    {results results' : List (List (Summand (n + 2) ℝ) × ℤ)} (h : packageNoPrimary o polys = some results) (h' : packageNoPrimary o' polys = some results')
    {k : ℤ} (hk : k ≤ o.order) (hk' : k ≤ o'.order) : coefficient results o.order k = coefficient results' o'.order k := by
  have hss : ∃ ss, sectorsNoPrimary o polys = some ss := by
    unfold packageNoPrimary at h
    rw [Option.bind_eq_bind, Option.bind_eq_some_iff] at h
    obtain ⟨ss, hss, -⟩ := h
    exact ⟨ss, hss⟩
  obtain ⟨ss, hss⟩ := hss
  obtain ⟨J, hJ⟩ := C62_no_primary_continuation hE hD hV hne hc hss
  exact coefficients_agree (C62_no_primary_laurent hE hD hval hv0 hg hJ h).2 (C62_no_primary_laurent hE hD' hval' hv0' hg' (hr ▸ hJ) h').2 hk hk'

/-! ### the integral of C57 with the strategies `geometric` and `geometric_ku` -/

open Geometric in
/-- What `normaliz` finds for the interval from zero to one, for the half line, and for the triangle of C61. -/
def exNormaliz : (n : ℕ) → Normaliz n
  | 1 => ⟨fun _ => ⟨[![0], ![1]], [(![1], 0), (![-1], 1)], []⟩, fun _ => [], fun _ => [[![1]]]⟩
  | 2 => ⟨fun _ => exPolytope, fun _ => [], fun _ => []⟩
  | _ => ⟨fun _ => ⟨[], [], []⟩, fun _ => [], fun _ => []⟩

/-- The options of C57 with another strategy. -/
noncomputable def exWith (order : ℤ) (method : Method) : Options := { exOptions order with method := method, normaliz := exNormaliz }

/-- The sector after `Cheng_Wu`. -/
noncomputable def exCut : Squash.Sector 1 ℝ (Poly 1 ℚ) := chengWu exInit (Fin.last 1)

theorem ex_cut_primary (order : ℤ) : primarySectors (exWith order .geometric) exPolys = some [exCut] := by rfl
theorem ex_ku_primary (order : ℤ) : primarySectors (exWith order .geometricKu) exPolys = some exSectors := by rfl

theorem ex_cut_lists : exCut.cast.map (fun p => p.poly.terms.map (·.1)) = [[![1], ![0]], [![0]]] := by decide +kernel
theorem ex_ku_lists : ∀ s ∈ exSectors, s.cast.map (fun p => p.poly.terms.map (·.1)) = [[![1], ![0]], [![0]]] ∨
    s.cast.map (fun p => p.poly.terms.map (·.1)) = [[![0], ![1]], [![0]]] := by decide +kernel

open Geometric in
theorem ex_interval : PolytopeOf (hullPoints [[![1], ![0]], [(![0] : Expo 1)]]) ⟨[![0], ![1]], [(![1], 0), (![-1], 1)], []⟩ := by
  have hm : ∀ e, e ∈ hullPoints [[![1], ![0]], [(![0] : Expo 1)]] ↔ e = ![0] ∨ e = ![1] := by
    intro e
    rw [mem_hullPoints (by simp) (by decide)]
    have hc : choices [[![1], ![0]], [(![0] : Expo 1)]] = [[![1], ![0]], [![0], ![0]]] := rfl
    rw [hc]
    constructor
    · rintro ⟨g, hg, rfl, -⟩
      simp only [List.mem_cons, List.not_mem_nil, or_false] at hg
      rcases hg with rfl | rfl
      · right; decide
      · left; decide
    · rintro (rfl | rfl)
      · exact ⟨[![0], ![0]], by simp, by decide, by decide⟩
      · exact ⟨[![1], ![0]], by simp, by decide, by decide⟩
  have hset : {e | e ∈ hullPoints [[![1], ![0]], [(![0] : Expo 1)]]} = {e | e ∈ [(![0] : Expo 1), ![1]]} := by
    ext e
    simp only [Set.mem_setOf_eq, hm, List.mem_cons, List.not_mem_nil, or_false]
  refine ⟨?_, by show [(![0] : Expo 1), ![1]].Nodup; decide, ?_⟩
  · intro v
    rw [hset]
    show v ∈ [(![0] : Expo 1), ![1]] ↔ _
    refine ⟨fun hv => ⟨(hm v).2 (by simpa using hv), ?_⟩, fun h => by simpa using (hm v).1 h.1⟩
    simp only [List.mem_cons, List.not_mem_nil, or_false] at hv
    rcases hv with rfl | rfl
    · refine extreme_of_strict (by simp) (y := ![1]) ?_
      intro s hs hne
      simp only [List.mem_cons, List.not_mem_nil, or_false] at hs
      rcases hs with rfl | rfl
      · exact absurd rfl hne
      · simp [pair]
    · refine extreme_of_strict (by simp) (y := ![-1]) ?_
      intro s hs hne
      simp only [List.mem_cons, List.not_mem_nil, or_false] at hs
      rcases hs with rfl | rfl
      · simp [pair]
      · exact absurd rfl hne
  · intro _ z
    rw [hset]
    constructor
    · intro hz f hf
      have h1 : ∀ s ∈ [(![0] : Expo 1), ![1]], -(f.2 : ℝ) ≤ pair s (Geometric.point f.1) := by
        intro s hs
        simp only [List.mem_cons, List.not_mem_nil, or_false] at hs hf
        rcases hf with rfl | rfl <;> rcases hs with rfl | rfl <;> simp [pair, Geometric.point]
      have := hull_ge h1 hz
      rw [pair_eq_dotR]
      linarith
    · intro h
      have h1 := h (![1], 0) (by simp)
      have h2 := h (![-1], 1) (by simp)
      simp [pair] at h1 h2
      have hc := convex_convexHull ℝ (Geometric.point '' {e | e ∈ [(![0] : Expo 1), ![1]]})
      have hm : ∀ e ∈ [(![0] : Expo 1), ![1]], Geometric.point e ∈ convexHull ℝ (Geometric.point '' {e | e ∈ [(![0] : Expo 1), ![1]]}) :=
        fun e he => subset_convexHull ℝ _ ⟨e, he, rfl⟩
      have := hc.sum_mem (t := (Finset.univ : Finset (Fin 2))) (w := ![1 - z 0, z 0]) (z := ![Geometric.point ![0], Geometric.point ![1]]) (by
          intro i _; fin_cases i <;> simp <;> linarith) (by simp [Fin.sum_univ_two]) (by
          intro i _; fin_cases i
          · exact hm _ (by simp)
          · exact hm _ (by simp))
      convert this using 1
      funext i
      fin_cases i
      simp [Fin.sum_univ_two, Geometric.point]

open Geometric in
/-- hypotheses of C57 and C62 for the strategy `geometric` -/
theorem ex_geometric (order : ℤ) : Decomposable (exWith order .geometric) exPolys := by
  refine ⟨?_, fun l hl s hs => ?_⟩
  · refine ⟨by simp [exPolys], ?_⟩
    show ∀ p ∈ exPolys, (p.terms.map fun t => deleteCol (Fin.last 1) t.1).Nodup
    intro p hp
    simp only [exPolys, List.mem_cons, List.not_mem_nil, or_false] at hp
    rcases hp with rfl | rfl
    · show [deleteCol (Fin.last 1) ![1, 0], deleteCol (Fin.last 1) ![0, 1]].Nodup
      decide
    · simp
  · rw [ex_cut_primary, Option.some.injEq] at hl
    rw [← hl] at hs
    rw [List.mem_singleton.1 hs]
    unfold NormalizCorrect
    dsimp only [exWith]
    rw [ex_cut_lists]
    refine ⟨ex_interval, ?_⟩
    intro v hv hlen
    exfalso
    apply hlen
    revert v
    show ∀ v ∈ [(![0] : Expo 1), ![1]], (incident (⟨[![0], ![1]], [(![1], 0), (![-1], 1)], []⟩ : PolytopeData 1) v).length ≠ 1 → _
    intro v hv _
    revert v
    decide

open Geometric in
theorem ex_ku_rows (L : List (List (Expo 1))) (f : List (Expo 1)) (h : Expo 1) :
    h ∈ coneRows L f ↔ (h ∈ differenceRows L f ∨ h = ![1]) ∧ redundantRow h = false := by
  rw [mem_coneRows (by norm_num)]
  have : h ∈ identityRows 1 ↔ h = ![1] := by
    have e : identityRows 1 = [![1]] := by decide
    rw [e]; simp
  rw [this]

open Geometric in
theorem ex_ku_bad {L : List (List (Expo 1))} {f : List (Expo 1)} (h1 : (![-1] : Expo 1) ∈ differenceRows L f) : keepCone (coneRows L f) = false := by
  have h2 : (![-1] : Expo 1) ∈ coneRows L f := (ex_ku_rows L f _).2 ⟨Or.inl h1, by decide⟩
  unfold keepCone
  have : (coneRows L f).any (fun h => decide (∀ i, h i < 0)) = true := by
    rw [List.any_eq_true]
    exact ⟨_, h2, by decide⟩
  rw [this]
  simp

open Geometric in
theorem ex_ku_good {L : List (List (Expo 1))} {f : List (Expo 1)} (hf : ∀ h ∈ differenceRows L f, h = ![0] ∨ h = ![1]) (h : Expo 1) :
    h ∈ coneRows L f ↔ h = ![1] := by
  rw [ex_ku_rows]
  constructor
  · rintro ⟨h1, h2⟩
    have : h = ![0] ∨ h = ![1] := h1.elim (hf h) Or.inr
    rcases this with rfl | rfl
    · exact absurd h2 (by decide)
    · rfl
  · rintro rfl
    exact ⟨Or.inr rfl, by decide⟩

open Geometric in
theorem ex_ku_diff1 : (![-1] : Expo 1) ∈ differenceRows [[![1], ![0]], [(![0] : Expo 1)]] [![1], ![0]] := by decide +kernel
open Geometric in
theorem ex_ku_diff2 : ∀ h ∈ differenceRows [[![1], ![0]], [(![0] : Expo 1)]] [![0], ![0]], h = ![0] ∨ h = ![1] := by decide +kernel
open Geometric in
theorem ex_ku_diff3 : (![-1] : Expo 1) ∈ differenceRows [[![0], ![1]], [(![0] : Expo 1)]] [![1], ![0]] := by decide +kernel
open Geometric in
theorem ex_ku_diff4 : ∀ h ∈ differenceRows [[![0], ![1]], [(![0] : Expo 1)]] [![0], ![0]], h = ![0] ∨ h = ![1] := by decide +kernel

open Geometric in
theorem ex_ku_fan {a b : Expo 1} (hab : a = ![1] ∧ b = ![0] ∨ a = ![0] ∧ b = ![1]) {fan : List (List (Expo 1))} {cone : List (Expo 1)}
    (hf : generateFan [[a, b], [![0]]] = some fan) (hcone : cone ∈ fan) (h : Expo 1) : h ∈ cone ↔ h = ![1] := by
  unfold generateFan at hf
  simp only [List.isEmpty_cons, Bool.false_eq_true, if_false, Option.some.injEq] at hf
  rw [← hf, List.mem_filter] at hcone
  obtain ⟨f, hf', rfl⟩ := List.mem_map.1 hcone.1
  have hk := hcone.2
  have hf' : f = [a, ![0]] ∨ f = [b, ![0]] := by simpa [choices] using hf'
  clear hf hcone
  rcases hab with ⟨rfl, rfl⟩ | ⟨rfl, rfl⟩
  · rcases hf' with rfl | rfl
    · rw [ex_ku_bad ex_ku_diff1] at hk
      exact absurd hk (by simp)
    · exact ex_ku_good ex_ku_diff2 h
  · rcases hf' with rfl | rfl
    · exact ex_ku_good ex_ku_diff4 h
    · rw [ex_ku_bad ex_ku_diff3] at hk
      exact absurd hk (by simp)

open Geometric in
/-- hypotheses of C57 and C62 for the strategy `geometric_ku` -/
theorem ex_ku (order : ℤ) : Decomposable (exWith order .geometricKu) exPolys := by
  refine ⟨?_, fun l hl s hs => ?_⟩
  · refine ⟨by simp [exPolys], ?_⟩
    show ∀ p ∈ exPolys, ∀ i, (p.terms.map fun t => deleteCol i t.1).Nodup
    intro p hp
    simp only [exPolys, List.mem_cons, List.not_mem_nil, or_false] at hp
    rcases hp with rfl | rfl
    · show ∀ i : Fin 2, [deleteCol i ![1, 0], deleteCol i ![0, 1]].Nodup
      decide
    · simp
  · rw [ex_ku_primary, Option.some.injEq] at hl
    rw [← hl] at hs
    unfold NormalizCorrect
    dsimp only [exWith]
    intro fan hfan cone hcone
    have hcone' : ∀ h, h ∈ cone ↔ h = ![1] := by
      rcases ex_ku_lists s hs with e | e <;> rw [e] at hfan
      · exact ex_ku_fan (Or.inl ⟨rfl, rfl⟩) hfan hcone
      · exact ex_ku_fan (Or.inr ⟨rfl, rfl⟩) hfan hcone
    show TriangulatesDual cone [[(![1] : Expo 1)]]
    refine ⟨?_, ?_, by simp, ?_⟩
    · intro t ht r hr h hh
      rw [List.mem_singleton.1 ht, List.mem_singleton] at hr
      rw [hr, (hcone' h).1 hh]
      decide
    · intro t ht
      rw [List.mem_singleton.1 ht]
      rw [Fintype.linearIndependent_iff]
      intro g hg j
      have := congrFun hg 0
      fin_cases j
      simpa using this
    · intro y hy
      refine ⟨[![1]], by simp, fun _ => y 0, fun _ => ?_, ?_⟩
      · have := hy _ ((hcone' _).2 rfl)
        simp [pair] at this
        exact this.le
      · funext i
        fin_cases i
        show (∑ _j : Fin 1, y 0 * ((((![1] : Expo 1) 0 : Int)) : ℝ)) = y 0
        simp

/-- The sectors of the strategy `geometric`. -/
noncomputable def exGeoSectors : List (Squash.Sector 1 ℝ (Poly 1 ℚ)) := (sectors (exWith 0 .geometric) exPolys).getD []

theorem ex_geo_sectors (order : ℤ) : sectors (exWith order .geometric) exPolys = some exGeoSectors := by rfl

theorem ex_geo_power : ∀ s ∈ exGeoSectors, ∀ i, powerAtZero s i = -1 ∧ powerSlope s i ≠ 0 := by decide +kernel

/-- The package is generated with the strategy `geometric`, and its coefficients are those of `Γ(-ε)² / Γ(-2 ε)`, and those of the package of the
strategy `iterative`. -/
example (order : ℤ) : ∃ fuel results results', package { exWith order .geometric with fuel := fuel } exPolys = some results ∧
    package { exOptions order with fuel := fuel } exPolys = some results' ∧
    (∀ P : ℤ, (∀ r ∈ results, r.2 ≤ P) → IsExpansion (fun z => Complex.Gamma (-z) ^ 2 * (Complex.Gamma (-(2 * z)))⁻¹) order
      ((sectorOrders order P).map fun k => (k, coefficient results order k))) ∧
    ∀ k ≤ order, coefficient results order k = coefficient results' order k := by
  obtain ⟨results, K, hK⟩ := C57_package_succeeds (o := exWith order .geometric) ex_euclidean (ex_geometric order) ex_clean (fun q => (ex_val order _ _).2 rfl)
    (fun c q => (ex_val order c q).1) rfl (ex_geo_sectors order) fun s hs i _ => (ex_geo_power s hs i).2
  obtain ⟨results', K', hK'⟩ := C57_package_succeeds (o := exOptions order) ex_euclidean (iterative_decomposable rfl _) ex_clean (fun q => (ex_val order _ _).2 rfl)
    (fun c q => (ex_val order c q).1) rfl (ex_sectors order) fun s hs i _ => by rw [(ex_power s hs i).2]; norm_num
  refine ⟨max K K', results, results', hK _ (le_max_left _ _), hK' _ (le_max_right _ _), fun P hP => ?_, fun k hk => ?_⟩
  · exact (C57_laurent_coefficients (o := { exWith order .geometric with fuel := max K K' }) ex_euclidean (ex_geometric order) (fun c q => (ex_val order c q).1)
      ((ex_val order 0 0).2 (by simp)) (Or.inl ⟨ex_noInteger, ex_clean⟩) (fun z _ => ex_projective z) ex_continuation (hK _ (le_max_left _ _))).2 P hP
  · exact C62_strategy_independent (o := { exWith order .geometric with fuel := max K K' }) (o' := { exOptions order with fuel := max K K' }) ex_euclidean
      (ex_geometric order) (iterative_decomposable rfl _) (fun c q => (ex_val order c q).1) ((ex_val order 0 0).2 (by simp)) (fun c q => (ex_val order c q).1)
      ((ex_val order 0 0).2 (by simp)) (Or.inl ⟨ex_noInteger, ex_clean⟩) (Or.inl ⟨ex_noInteger, ex_clean⟩) ex_continuation.isOpen ex_continuation.nonempty
      (fun z _ => ex_projective z) ex_continuation.convergent (hK _ (le_max_left _ _)) (hK' _ (le_max_right _ _)) hk hk

/-! ### an integral over the orthant, with the strategy `geometric_infinity_no_primary` -/

/-- The integrand `(1 + x0 + x1) ** (-2 + eps)`. -/
def exOrthant : List (SPoly 2 ℝ (Poly 1 ℚ)) :=
  [⟨[(![0, 0], 1), (![1, 0], 1), (![0, 1], 1)], some ⟨[((fun _ => 0), -2), ((fun _ => 1), 1)]⟩⟩]

/-- The options for two Feynman parameters. -/
noncomputable def exWith2 (order : ℤ) (method : Method) : Options := { exWith order method with goals := [-1, -1] }

theorem exOrthant_exponent (z : ℂ) : exponentAt ⟨[((fun _ => 0), -2), ((fun _ => 1), 1)]⟩ z = z - 2 := by
  simp [exponentAt, polyValue, Poly.mono]; ring

theorem exOrthant_integrand (z : ℂ) (x : Fin 2 → ℝ) : integrandAt exOrthant z x = ((1 + x 0 + x 1 : ℝ) : ℂ) ^ (z - 2) := by
  simp only [integrandAt, exOrthant, List.map_cons, List.map_nil, List.prod_cons, List.prod_nil, mul_one, exponentOf, Option.getD_some,
    exOrthant_exponent]
  simp [SPoly.eval, Poly.eval, Poly.mono, add_assoc]

theorem exOrthant_euclidean : Euclidean exOrthant := by
  intro p hp
  simp only [exOrthant, List.mem_cons, List.not_mem_nil, or_false] at hp
  rcases hp with rfl
  refine ⟨by simp, ?_, ?_⟩
  · intro t ht
    simp only [List.mem_cons, List.not_mem_nil, or_false] at ht
    rcases ht with rfl | rfl | rfl <;> exact ⟨by norm_num, by decide⟩
  · intro t ht
    simp only [exponentOf, Option.getD_some, List.mem_cons, List.not_mem_nil, or_false] at ht
    rcases ht with rfl | rfl
    · exact Or.inl rfl
    · exact Or.inr rfl

theorem exOrthant_clean : CleanPowers exOrthant := by
  intro p hp h
  simp only [exOrthant, List.mem_cons, List.not_mem_nil, or_false] at hp
  rcases hp with rfl
  have := (h ((fun _ => 0), -2) (by simp [exponentOf])).2
  norm_num at this

theorem exOrthant_noInteger : NoIntegerPowers exOrthant := by
  intro p hp k h
  simp only [exOrthant, List.mem_cons, List.not_mem_nil, or_false] at hp
  have hk : (0 : ℝ) ≤ k := Nat.cast_nonneg k
  rcases hp with rfl
  simp only [exponentOf, Option.getD_some, exOrthant_exponent] at h
  have := congrArg Complex.re h
  simp at this
  linarith

theorem exOrthant_convergent {z : ℂ} (hz : z.re < 0) : MeasureTheory.IntegrableOn (integrandAt exOrthant z) {x | ∀ k, 0 < x k} := by
  have hr : (Module.finrank ℝ (Fin 2 → ℝ) : ℝ) < 2 - z.re := by
    simp; linarith
  have h1 := (integrable_one_add_norm (E := Fin 2 → ℝ) (μ := MeasureTheory.volume) hr).integrableOn (s := {x | ∀ k, 0 < x k})
  have hO : MeasurableSet {x : Fin 2 → ℝ | ∀ k, 0 < x k} := by
    have : {x : Fin 2 → ℝ | ∀ k, 0 < x k} = Set.pi univ fun _ => Ioi 0 := by ext; simp
    rw [this]
    exact MeasurableSet.univ_pi fun _ => measurableSet_Ioi
  refine MeasureTheory.Integrable.mono' h1 ?_ ?_
  · refine ContinuousOn.aestronglyMeasurable ?_ hO
    have e : integrandAt exOrthant z = fun x => ((1 + x 0 + x 1 : ℝ) : ℂ) ^ (z - 2) := funext fun x => exOrthant_integrand z x
    rw [e]
    refine ContinuousOn.cpow (by fun_prop) continuousOn_const ?_
    intro x hx
    have h0 := hx 0
    have h1 := hx 1
    exact Or.inl (by rw [Complex.ofReal_re]; linarith)
  · filter_upwards [MeasureTheory.ae_restrict_mem hO] with x hx
    have h0 : 0 < x 0 := hx 0
    have h1 : 0 < x 1 := hx 1
    have hn : ‖x‖ ≤ x 0 + x 1 := by
      rw [pi_norm_le_iff_of_nonneg (by linarith)]
      intro i
      fin_cases i
      · simp only [Fin.zero_eta, Real.norm_eq_abs, abs_of_pos h0]; linarith
      · simp only [Fin.mk_one, Real.norm_eq_abs, abs_of_pos h1]; linarith
    rw [exOrthant_integrand, Complex.norm_cpow_eq_rpow_re_of_pos (by linarith)]
    have hre : (z - 2).re = -(2 - z.re) := by simp
    rw [hre]
    exact Real.rpow_le_rpow_of_nonpos (by positivity) (by linarith) (by linarith)

open Geometric in
theorem exOrthant_decomposable (order : ℤ) : DecomposableNoPrimary (exWith2 order .geometric) exOrthant := by
  refine ⟨?_, fun s hs => ?_⟩
  · refine ⟨by simp [exOrthant], ?_⟩
    intro p hp
    simp only [exOrthant, List.mem_cons, List.not_mem_nil, or_false] at hp
    rcases hp with rfl
    show [(![0, 0] : Expo 2), ![1, 0], ![0, 1]].Nodup
    decide
  · have hl : ∀ s, mkSector exOrthant [] = some s → s.cast.map (fun p => p.poly.terms.map (·.1)) = [[![0, 0], ![1, 0], ![0, 1]]] := by
      have : mkSector exOrthant [] = some ((mkSector exOrthant []).getD ⟨(fun _ => 0, 1), [], []⟩) := by rfl
      rw [this]
      intro s hs
      rw [Option.some.injEq] at hs
      rw [← hs]
      decide +kernel
    unfold NormalizCorrect
    dsimp only [exWith2, exWith]
    rw [hl s hs]
    have h := ex_triangle
    refine ⟨h.1, fun v hv hlen => absurd ?_ hlen⟩
    exact h.2.2 v hv

/-- The sectors. -/
noncomputable def exOrthantSectors : List (Squash.Sector 2 ℝ (Poly 1 ℚ)) := (sectorsNoPrimary (exWith2 0 .geometric) exOrthant).getD []

theorem exOrthant_sectors (order : ℤ) : sectorsNoPrimary (exWith2 order .geometric) exOrthant = some exOrthantSectors := by rfl

/-- There are three sectors, and two of them have poles. -/
theorem exOrthant_power : exOrthantSectors.length = 3 ∧ (∀ s ∈ exOrthantSectors, ∀ i, powerAtZero s i < 0 → powerSlope s i ≠ 0) ∧
    ∃ s ∈ exOrthantSectors, ∃ i, powerAtZero s i = -1 := by decide +kernel

/-- The package for `(1 + x0 + x1) ** (-2 + eps)` is generated for every order, and it computes the Laurent expansion of the continuation of the
integral. -/
example (order : ℤ) : ∃ J, ContinuationOn {x | ∀ k, 0 < x k} exOrthant {z | z.re < 0} J ∧ ∃ fuel results,
    packageNoPrimary { exWith2 order .geometric with fuel := fuel } exOrthant = some results ∧
    ∀ P : ℤ, (∀ r ∈ results, r.2 ≤ P) → IsExpansion J order ((sectorOrders order P).map fun k => (k, coefficient results order k)) := by
  obtain ⟨J, hJ⟩ := C62_no_primary_continuation (o := exWith2 order .geometric) exOrthant_euclidean (exOrthant_decomposable order)
    (V := {z | z.re < 0}) (isOpen_lt Complex.continuous_re continuous_const) ⟨-1, by simp⟩ (fun z hz => exOrthant_convergent hz) (exOrthant_sectors order)
  obtain ⟨results, K, hK⟩ := C62_no_primary_succeeds (o := exWith2 order .geometric) exOrthant_euclidean (exOrthant_decomposable order) exOrthant_clean
    (fun q => (ex_val order _ _).2 rfl) (fun c q => (ex_val order c q).1) rfl (exOrthant_sectors order) exOrthant_power.2.1
  refine ⟨J, hJ, K, results, hK _ le_rfl, ?_⟩
  exact (C62_no_primary_laurent (o := { exWith2 order .geometric with fuel := K }) exOrthant_euclidean (exOrthant_decomposable order)
    (fun c q => (ex_val order c q).1) ((ex_val order 0 0).2 (by simp)) (Or.inl ⟨exOrthant_noInteger, exOrthant_clean⟩) hJ (hK _ le_rfl)).2

end Package
end SecDec
