import Verif.Proof.PackageSuccess
/-
The steps after the decomposition: from sectors in the standard form to the coefficients of the Laurent expansion.
-/
namespace SecDec
namespace Package
open Squash Decomp Sector Expansion Set LeadingOrder Filter Topology
variable {n : ℕ} {Q : Poly 1 ℚ → Prop} {m : ℕ}

theorem continuation_core (hQ : ∀ e, Q e → Affine e) {ss : List (Squash.Sector n ℝ (Poly 1 ℚ))} (h1 : ∀ s ∈ ss, Pos Q m s ∧ StandardForm (List.finRange n) s)
    {V : Set ℂ} (hne : V.Nonempty) {I : ℂ → ℂ}
    (h2 : ∀ z ∈ V, (∀ s ∈ ss, CubeIntegrable (Decomp.integrand (Fz z) s)) ∧ (ss.map fun s => cubeIntegral (Decomp.integrand (Fz z) s)).sum = I z) :
    ∃ J : ℂ → ℂ, (∃ E : Set ℂ, E.Countable ∧ IsClosed E ∧ (∃ r > 0, ∀ z, ‖z‖ < r → z ≠ 0 → z ∉ E) ∧ DifferentiableOn ℂ J Eᶜ) ∧ ∀ z ∈ V, J z = I z := by
  have hex : ∀ s, ∃ J : ℂ → ℂ, s ∈ ss → (∀ z ∉ poles s, Regulated (fun t => (∏ i, (t i : ℂ) ^ (β s z i)) * G s (fun i => (t i : ℂ)) z) (J z)) ∧
      DifferentiableOn ℂ J (poles s)ᶜ := by
    intro s
    by_cases hs : s ∈ ss
    · obtain ⟨J, hJ⟩ := sector_value (h1 s hs).1 (h1 s hs).2 hQ
      exact ⟨J, fun _ => hJ⟩
    · exact ⟨0, fun h => absurd h hs⟩
  choose Js hJs using hex
  obtain ⟨z0, hz0⟩ := hne
  have hi : ∀ s ∈ ss, Isolated s := fun s hs =>
    isolated_of_convergent (h1 s hs).1 (h1 s hs).2 hQ ((h2 z0 hz0).1 s hs)
  obtain ⟨E, e1, e2, e3, e4, e5⟩ := sum_continuation hQ h1 Js (fun s hs => hJs s hs) hi
  refine ⟨_, ⟨E, e1, e2, ?_, e4⟩, fun z hz => ?_⟩
  · obtain ⟨r, hr, h⟩ := Metric.eventually_nhds_iff_ball.1 (eventually_nhdsWithin_iff.1 e3)
    exact ⟨r, hr, fun z hz hz0 => h z (by simpa using hz) hz0⟩
  · obtain ⟨i1, i2⟩ := h2 z hz
    rw [(e5 z i1).2, i2]

theorem laurent_core {o : Options} (hQ : ∀ e, Q e → Affine e) {ss : List (Squash.Sector n ℝ (Poly 1 ℚ))}
    (h1 : ∀ s ∈ ss, Pos Q m s ∧ StandardForm (List.finRange n) s) {V : Set ℂ} (hV : IsOpen V) (hne : V.Nonempty) {I : ℂ → ℂ}
    (h2 : ∀ z ∈ V, (∀ s ∈ ss, CubeIntegrable (Decomp.integrand (Fz z) s)) ∧ (ss.map fun s => cubeIntegral (Decomp.integrand (Fz z) s)).sum = I z)
    (hval : ∀ c q, o.val c = some q → c = (q : ℝ)) (hv0 : o.val 0 = some 0)
    (hg' : ∀ s ∈ ss, ((∀ e, Q e → ∀ k : ℕ, exponentAt e 0 ≠ (k : ℂ) + 1) ∧
        ∀ e, Q e → (∀ t ∈ e.terms, t.1 = (fun _ => 0) ∧ t.2 = 1) → e.terms.length = 1) ∨
        ∀ g ∈ o.goals.zip (List.finRange n), g.1 ≤ powerAtZero s g.2)
    {J : ℂ → ℂ} (hJa : ∃ E : Set ℂ, E.Countable ∧ IsClosed E ∧ (∃ r > 0, ∀ z, ‖z‖ < r → z ≠ 0 → z ∉ E) ∧ DifferentiableOn ℂ J Eᶜ) (hJe : ∀ z ∈ V, J z = I z)
    {results : List (List (Summand (n + 1) ℝ) × ℤ)} (h : ss.mapM (processOne o) = some results) :
    (∀ r ∈ results, -r.2 ≤ o.order ∧ ∀ k, CubeIntegrable (orderIntegrand Complex.ofRealHom r.1 k)) ∧
      ∀ P : ℤ, (∀ r ∈ results, r.2 ≤ P) →
        IsExpansion J o.order ((sectorOrders o.order P).map fun k => (k, coefficient results o.order k)) := by
  have hr := mapM_option_forall₂ h
  have hex : ∀ s, ∃ J : ℂ → ℂ, s ∈ ss → (∀ z ∉ poles s, Regulated (fun t => (∏ i, (t i : ℂ) ^ (β s z i)) * G s (fun i => (t i : ℂ)) z) (J z)) ∧
      DifferentiableOn ℂ J (poles s)ᶜ := by
    intro s
    by_cases hs : s ∈ ss
    · obtain ⟨J, hJ⟩ := sector_value (h1 s hs).1 (h1 s hs).2 hQ
      exact ⟨J, fun _ => hJ⟩
    · exact ⟨0, fun h => absurd h hs⟩
  choose Js hJs using hex
  obtain ⟨z0, hz0⟩ := hne
  have hi : ∀ s ∈ ss, Isolated s := fun s hs =>
    isolated_of_convergent (h1 s hs).1 (h1 s hs).2 hQ ((h2 z0 hz0).1 s hs)
  obtain ⟨E, e1, e2, e3, e4, e5⟩ := sum_continuation hQ h1 Js (fun s hs => hJs s hs) hi
  have hsec : List.Forall₂ (fun s r => s ∈ ss ∧ -r.2 ≤ o.order ∧ (∀ k, CubeIntegrable (orderIntegrand φr r.1 k)) ∧
      IsExpansion (Js s) o.order ((sectorOrders o.order r.2).map fun k => (k, cubeIntegral (orderIntegrand φr r.1 k)))) ss results := by
    rw [List.forall₂_iff_get] at hr ⊢
    refine ⟨hr.1, fun i a b => ⟨List.get_mem _ _, ?_⟩⟩
    have hm : ss.get ⟨i, a⟩ ∈ ss := List.get_mem _ _
    exact sector_expansion (h1 _ hm).1 (h1 _ hm).2 hQ (hi _ hm) hval hv0 (hg' _ hm) (hr.2 i a b) (hJs _ hm).1
  constructor
  · intro r hr'
    obtain ⟨i, hi', rfl⟩ := List.mem_iff_getElem.1 hr'
    have hl := hsec.length_eq
    have := (List.forall₂_iff_get.1 hsec).2 i (by omega) hi'
    exact ⟨this.2.1, this.2.2.1⟩
  · intro P hP
    have hsum : IsExpansion (fun z => (ss.map fun s => Js s z).sum) o.order
        ((sectorOrders o.order P).map fun k => (k, coefficient results o.order k)) := by
      have hl := hsec.length_eq
      have := expansion_list (o := o.order) (P := P)
        (List.zipWith (fun s r => (Js s, r.2, fun k => cubeIntegral (orderIntegrand φr r.1 k))) ss results) ?_ ?_
      · have a1 : ∀ z, (List.zipWith (fun s (r : List (Summand (n + 1) ℝ) × ℤ) => (Js s, r.2, fun k => cubeIntegral (orderIntegrand φr r.1 k))) ss results).map
            (fun x => x.1 z) = ss.map fun s => Js s z := by
          intro z
          rw [List.map_zipWith]
          exact zipWith_left _ _ _ _ (fun _ _ => rfl) hl
        have a2 : ∀ k, (List.zipWith (fun s (r : List (Summand (n + 1) ℝ) × ℤ) => (Js s, r.2, fun k => cubeIntegral (orderIntegrand φr r.1 k))) ss results).map
            (fun x => if k ∈ sectorOrders o.order x.2.1 then x.2.2 k else 0) =
            results.map fun r => if k ∈ sectorOrders o.order r.2 then cubeIntegral (orderIntegrand φr r.1 k) else 0 := by
          intro k
          rw [List.map_zipWith]
          exact zipWith_right _ _ _ _ (fun _ _ => rfl) hl
        simp only [a1, a2] at this
        exact this
      · intro x hx
        obtain ⟨s, r, hs, hr', -, rfl⟩ := mem_zipWith hsec hx
        exact hP r hr'
      · intro x hx
        obtain ⟨s, r, hs, hr', hsr, rfl⟩ := mem_zipWith hsec hx
        exact hsr.2.2.2
    obtain ⟨E', e1', e2', ⟨r', hr', e3'⟩, e4'⟩ := hJa
    have heq := eq_of_open hV ⟨z0, hz0⟩ (e1.union e1') (e2.union e2') (e4.mono fun z hz hm => hz (Or.inl hm))
      (e4'.mono fun z hz hm => hz (Or.inr hm)) fun z hz _ => by
        obtain ⟨i1, i2⟩ := h2 z hz
        rw [(e5 z i1).2, i2, hJe z hz]
    refine isExpansion_congr ?_ hsum
    have h0 : ∀ᶠ z in 𝓝[≠] (0 : ℂ), z ∉ E' := by
      rw [eventually_nhdsWithin_iff]
      filter_upwards [Metric.ball_mem_nhds (0 : ℂ) hr'] with z hz h0
      exact e3' z (by simpa using hz) h0
    filter_upwards [e3, h0] with z a b
    exact heq fun hm => hm.elim a b

theorem succeeds_core {o : Options} (hQ : ∀ e, Q e → Affine e) (hC : ∀ e, Q e → (∀ t ∈ e.terms, t.1 = (fun _ => 0) ∧ t.2 = 1) → e.terms.length = 1)
    (hval : ∀ q : ℚ, o.val q = some q) (hval' : ∀ c q, o.val c = some q → c = (q : ℝ)) (hlen : o.goals.length = n)
    {ss : List (Squash.Sector n ℝ (Poly 1 ℚ))} (h1 : ∀ s ∈ ss, Pos Q m s ∧ StandardForm (List.finRange n) s)
    (hreg : ∀ s ∈ ss, ∀ i, powerAtZero s i < 0 → powerSlope s i ≠ 0) :
    ∃ results K, ∀ fuel, K ≤ fuel → ss.mapM (processOne { o with fuel := fuel }) = some results := by
  have hall : ∀ l : List (Squash.Sector n ℝ (Poly 1 ℚ)), (∀ s ∈ l, s ∈ ss) → ∃ rs K, ∀ fuel, K ≤ fuel →
      l.mapM (processOne { o with fuel := fuel }) = some rs := by
    intro l
    induction l with
    | nil => intro _; exact ⟨[], 0, fun _ _ => rfl⟩
    | cons s l ih =>
      intro hl
      obtain ⟨rs, K, hK⟩ := ih fun t ht => hl t (by simp [ht])
      have hs := hl s (by simp)
      obtain ⟨r, K', hK'⟩ := sector_succeeds (o := o) (h1 s hs).1 hQ hC hval hval' hlen (hreg s hs)
      refine ⟨r :: rs, max K K', fun fuel hf => ?_⟩
      rw [List.mapM_cons, hK' fuel (le_trans (le_max_right _ _) hf), hK fuel (le_trans (le_max_left _ _) hf)]
      rfl
  obtain ⟨rs, K, hK⟩ := hall ss fun _ h => h
  exact ⟨rs, K, hK⟩

end Package
end SecDec
