import Verif.Proof.PinchMain
import Verif.Props.FromGraph
/-
C70: lines with the power zero are contracted.
-/
set_option linter.unusedSectionVars false
namespace SecDec
namespace FromGraph
open Poly

variable {N A K D S : Type} [DecidableEq N] [DecidableEq K] [Zero K] {V P E V' P' : Nat}

/-- **C70.** The lists `powerlist`, `derivativelist` and `Feynman_parameters` keep, in their order, exactly the entries of the lines
whose power is not zero, and so do the masses of the lines; there are as many external lines as before. -/
theorem C70_lists (s : Lines N A K D S) (hs : s.WellFormed) :
    (pinch s).powers = s.powers.filter (fun p => decide (p ≠ 0)) ∧ (pinch s).derivs = keep s.powers s.derivs ∧
    (pinch s).params = keep s.powers s.params ∧ (pinch s).internal.map Prod.fst = keep s.powers (s.internal.map Prod.fst) ∧
    (pinch s).WellFormed ∧ (pinch s).ext.length = s.ext.length := by
  obtain ⟨r, -, he⟩ := pinch_eq s hs
  obtain ⟨h1, h2, h3, h4⟩ := hs
  have hkl : ∀ {β γ : Type} (l : List β) (m : List γ), l.length = s.P → m.length = s.P → (keep s.powers l).length = (keep s.powers m).length := by
    intro β γ l m hl hm
    rw [keep_length _ _ (by omega), keep_length _ _ (by omega)]
  rw [he]
  refine ⟨?_, rfl, rfl, ?_, ⟨?_, ?_, ?_, ?_⟩, ?_⟩
  · dsimp only
    unfold keep
    have hz : s.powers.zip s.powers = s.powers.map (fun p => (p, p)) := by
      apply List.ext_getElem
      · simp
      · intro n h1 h2; simp
    rw [hz, List.filter_map, List.map_map]
    exact List.map_id _
  · dsimp only
    rw [keep_map, List.map_map]
    rfl
  · simp
  · exact hkl _ _ h2 h1.symm
  · exact hkl _ _ h3 h1.symm
  · exact hkl _ _ h4 h1.symm
  · simp

/-- **C70.** For a connected graph with a line whose power is not zero every vertex of the remaining lines, internal or external, gets a
number (there is no `KeyError`), whatever the order of the vertices. -/
theorem C70_numbered {s : Lines N A K D S} (hs : s.WellFormed) {mass : Fin P → A} {g : Graph V P E} (hg : Numbered s mass g)
    (hc : (sub g Finset.univ).Connected) (hk : ∃ p ∈ s.powers, p ≠ 0) :
    ∃ (V' P' : Nat) (mass' : Fin P' → A) (g' : Graph V' P' E), Numbered (pinch s) mass' g' := numbered_exists hs hg hc hk

/-- **C70.** The number of loops does not grow, and it is the number of loops of the graph before if and only if the lines with the power
zero contain no closed loop. -/
theorem C70_loops {s : Lines N A K D S} (hs : s.WellFormed) {mass : Fin P → A} {g : Graph V P E} (hg : Numbered s mass g)
    {mass' : Fin P' → A} {g' : Graph V' P' E} (hg' : Numbered (pinch s) mass' g')
    (hc : (sub g Finset.univ).Connected) (hk : ∃ p ∈ s.powers, p ≠ 0) :
    loops g' ≤ loops g ∧ (loops g' = loops g ↔ Forest g (zeroLines P s.powers)) := by
  obtain ⟨φ, e, h, -, -⟩ := contr_of_pinch hs hg hg' hc hk
  obtain ⟨h1, h2⟩ := card_contr h hc
  have hcard : P' + (zeroLines P s.powers).card = P := by
    have := card_lift h Finset.univ
    obtain ⟨T', hT'⟩ := exists_lift h (Finset.subset_univ (zeroLines P s.powers))
    have h3 : lift (zeroLines P s.powers) e Finset.univ = Finset.univ := by
      apply Finset.eq_univ_of_forall
      intro i
      by_cases hi : i ∈ zeroLines P s.powers
      · exact Finset.mem_union_right _ hi
      · obtain ⟨k, rfl⟩ := (h.range i).2 hi
        exact Finset.mem_union_left _ (Finset.mem_image_of_mem e (Finset.mem_univ k))
    rw [h3] at this
    simpa using this.symm
  unfold loops
  refine ⟨by omega, ?_⟩
  rw [← h2]
  omega

section field
variable {F : Type} [Field F] [DecidableEq F]

open Classical in
/-- **C70.** If the lines with the power zero contain no closed loop, then U of the remaining graph is U of the graph with the Feynman
parameters of these lines set to zero. -/
theorem C70_U {s : Lines N A K D S} (hs : s.WellFormed) {mass : Fin P → A} {g : Graph V P E} (hg : Numbered s mass g)
    {mass' : Fin P' → A} {g' : Graph V' P' E} (hg' : Numbered (pinch s) mass' g')
    (hc : (sub g Finset.univ).Connected) (hk : ∃ p ∈ s.powers, p ≠ 0) (hL : 0 < loops g) (hZ : Forest g (zeroLines P s.powers))
    (x : Fin P → F) (hx : ∀ i ∈ zeroLines P s.powers, x i = 0) (x' : Fin P' → F) (hx' : List.ofFn x' = keep s.powers (List.ofFn x)) :
    (preliminaryU g').eval x' = (preliminaryU g).eval x := by
  have hloops := (C70_loops hs hg hg' hc hk).2.2 hZ
  obtain ⟨φ, e, h, -, hkeep⟩ := contr_of_pinch hs hg hg' hc hk
  have hV := (card_contr h hc).2.2 hZ
  rw [C31_U g' (by omega), C31_U g hL]
  have := sum_contr h (SpanningTree g) (SpanningTree g') (spanningTree_contr h hV) (fun _ => (1 : F)) (fun _ => 1) (fun _ => rfl) x x' hx
    ((hkeep x x').1 hx')
  simpa using this

open Classical in
/-- **C70.** The same for F.  The masses of the lines are as before (`C70_lists`), and so are the external momenta. -/
theorem C70_F {s : Lines N A K D S} (hs : s.WellFormed) {mass : Fin P → A} {g : Graph V P E} (hg : Numbered s mass g)
    {mass' : Fin P' → A} {g' : Graph V' P' E} (hg' : Numbered (pinch s) mass' g')
    (hc : (sub g Finset.univ).Connected) (hk : ∃ p ∈ s.powers, p ≠ 0) (hL : 0 < loops g) (hZ : Forest g (zeroLines P s.powers))
    {M : Type} [AddCommGroup M] {sq : M → F} (hsq : ∀ v, sq (-v) = sq v) (h0 : sq 0 = 0) {p : Fin E → M} (hp : ∑ e, p e = 0)
    (msq : A → Option F)
    (x : Fin P → F) (hx : ∀ i ∈ zeroLines P s.powers, x i = 0) (x' : Fin P' → F) (hx' : List.ofFn x' = keep s.powers (List.ofFn x)) :
    (preliminaryF sq p (msq ∘ mass') g').eval x' = (preliminaryF sq p (msq ∘ mass) g).eval x := by
  have hloops := (C70_loops hs hg hg' hc hk).2.2 hZ
  obtain ⟨φ, e, h, hmass, hkeep⟩ := contr_of_pinch hs hg hg' hc hk
  have hV := (card_contr h hc).2.2 hZ
  have hxe := (hkeep x x').1 hx'
  rw [C31_F hsq h0 hp (msq ∘ mass') g' (by omega) (φ 0), C31_F hsq h0 hp (msq ∘ mass) g hL 0]
  have h1 := sum_contr h (SpanningTree g) (SpanningTree g') (spanningTree_contr h hV) (fun _ => (1 : F)) (fun _ => 1) (fun _ => rfl) x x' hx hxe
  have h2 := sum_contr h (TwoForest g) (TwoForest g') (twoForest_contr h hV) (fun T => - sq (inflow p g T 0))
    (fun T' => - sq (inflow p g' T' (φ 0))) (fun T' => by rw [inflow_contr p h]) x x' hx hxe
  simp only [one_mul] at h1
  rw [h1, h2]
  congr 2
  -- the masses
  have h3 : ∑ k, ((msq ∘ mass') k).getD 0 * x' k = ∑ i ∈ Finset.univ.image e, ((msq ∘ mass) i).getD 0 * x i := by
    rw [Finset.sum_image (fun a _ b _ hab => h.inj hab)]
    refine Finset.sum_congr rfl fun k _ => ?_
    simp only [Function.comp_apply, hmass, hxe]
  rw [h3]
  refine Finset.sum_subset (Finset.subset_univ _) fun i _ hi => ?_
  have hiZ : i ∈ zeroLines P s.powers := by
    by_contra hcon
    obtain ⟨k, rfl⟩ := (h.range i).2 hcon
    exact hi (Finset.mem_image_of_mem e (Finset.mem_univ k))
  rw [hx i hiZ, mul_zero]

open Classical in
/-- **C70.** If the lines with the power zero contain a closed loop, then U of the graph, with the Feynman parameters of these lines set to zero,
is zero: a loop without propagators is scaleless.  The code does not notice that: the graph that remains has fewer loops. -/
theorem C70_zero_loop {s : Lines N A K D S} (hs : s.WellFormed) {mass : Fin P → A} {g : Graph V P E} (hg : Numbered s mass g)
    {mass' : Fin P' → A} {g' : Graph V' P' E} (hg' : Numbered (pinch s) mass' g')
    (hc : (sub g Finset.univ).Connected) (hk : ∃ p ∈ s.powers, p ≠ 0) (hL : 0 < loops g) (hZ : ¬ Forest g (zeroLines P s.powers))
    (x : Fin P → F) (hx : ∀ i ∈ zeroLines P s.powers, x i = 0) :
    (preliminaryU g).eval x = 0 ∧ loops g' < loops g := by
  constructor
  · rw [C31_U g hL]
    refine Finset.sum_eq_zero fun T hT => ?_
    simp only [Finset.mem_filter, Finset.mem_univ, true_and] at hT
    have : ¬ zeroLines P s.powers ⊆ T := fun hsub => hZ (forest_subset ⟨hT.1.isAcyclic, hT.2⟩ hsub)
    obtain ⟨i, hi, hiT⟩ := Finset.not_subset.1 this
    exact Finset.prod_eq_zero (i := i) (by simpa using hiT) (hx i hi)
  · obtain ⟨h1, h2⟩ := C70_loops hs hg hg' hc hk
    exact lt_of_le_of_ne h1 fun h => hZ (h2.1 h)

end field

/-! ### concrete cases -/

/-- the box with the powers 1, 0, 1, 1 -/
def boxLines : Lines Nat Nat Int Int String :=
  ⟨[(0, 1, 2), (5, 2, 3), (0, 3, 4), (0, 4, 1)], 4, [1, 0, 1, 1], [0, 0, 0, 0], ["x0", "x1", "x2", "x3"], [1, 2, 3, 4]⟩

/-- the box -/
def boxGraph : Graph 3 4 4 := ⟨![(0, 1), (1, 2), (2, 3), (3, 0)], ![0, 1, 2, 3]⟩

/-- the triangle that remains; the vertices in the order 4, 1, 3 -/
def boxPinched : Graph 2 3 4 := ⟨![(1, 2), (2, 0), (0, 1)], ![1, 2, 2, 0]⟩

example : boxLines.WellFormed := ⟨rfl, rfl, rfl, rfl⟩

example : pinch boxLines = ⟨[(0, 1, 3), (0, 3, 4), (0, 4, 1)], 3, [1, 1, 1], [0, 0, 0], ["x0", "x2", "x3"], [1, 3, 3, 4]⟩ := by rfl

theorem boxNumbered : Numbered boxLines ![0, 5, 0, 0] boxGraph := by
  refine ⟨[1, 2, 3, 4], ⟨by decide, fun v => ?_⟩, rfl, rfl, rfl, rfl, ?_, ?_⟩
  · simp only [boxLines, List.mem_cons, List.not_mem_nil, or_false, exists_eq_or_imp, exists_eq_left]
    omega
  · intro i
    fin_cases i
    · exact ⟨1, 2, rfl, by decide, by decide⟩
    · exact ⟨2, 3, rfl, by decide, by decide⟩
    · exact ⟨3, 4, rfl, by decide, by decide⟩
    · exact ⟨4, 1, rfl, by decide, by decide⟩
  · intro e
    fin_cases e
    · exact ⟨1, rfl, by decide⟩
    · exact ⟨2, rfl, by decide⟩
    · exact ⟨3, rfl, by decide⟩
    · exact ⟨4, rfl, by decide⟩

theorem boxNumbered' : Numbered (pinch boxLines) ![0, 0, 0] boxPinched := by
  refine ⟨[4, 1, 3], ⟨by decide, fun v => ?_⟩, rfl, rfl, rfl, rfl, ?_, ?_⟩
  · show v ∈ _ ↔ ∃ l ∈ [(0, 1, 3), (0, 3, 4), (0, 4, 1)], v = l.2.1 ∨ v = l.2.2
    simp only [List.mem_cons, List.not_mem_nil, or_false, exists_eq_or_imp, exists_eq_left]
    omega
  · intro i
    fin_cases i
    · exact ⟨1, 3, rfl, by decide, by decide⟩
    · exact ⟨3, 4, rfl, by decide, by decide⟩
    · exact ⟨4, 1, rfl, by decide, by decide⟩
  · intro e
    fin_cases e
    · exact ⟨1, rfl, by decide⟩
    · exact ⟨3, rfl, by decide⟩
    · exact ⟨3, rfl, by decide⟩
    · exact ⟨4, rfl, by decide⟩

theorem boxConnected : (sub boxGraph Finset.univ).Connected := by
  have : Nonempty (Fin (3+1)) := ⟨0⟩
  have h : ∀ v : Fin 4, (sub boxGraph Finset.univ).Reachable 0 v := by
    have h01 := reach_line boxGraph (Finset.mem_univ 0)
    have h12 := reach_line boxGraph (Finset.mem_univ 1)
    have h23 := reach_line boxGraph (Finset.mem_univ 2)
    intro v
    fin_cases v
    · exact SimpleGraph.Reachable.refl _
    · exact h01
    · exact h01.trans h12
    · exact (h01.trans h12).trans h23
  exact ⟨fun a b => (h a).symm.trans (h b)⟩

/-- the hypotheses of `C70_U` and `C70_F` -/
example : boxLines.WellFormed ∧ (∃ p ∈ boxLines.powers, p ≠ 0) ∧ 0 < loops boxGraph ∧ Forest boxGraph (zeroLines 4 boxLines.powers) ∧
    loops boxPinched = 1 := by
  refine ⟨⟨rfl, rfl, rfl, rfl⟩, ⟨1, by decide, by decide⟩, by decide, ?_, by decide⟩
  exact (C70_loops ⟨rfl, rfl, rfl, rfl⟩ boxNumbered boxNumbered' boxConnected ⟨1, by decide, by decide⟩).2.1 (by decide)

/-- a sunrise with the powers 1, 0, 0 -/
def sunriseLines : Lines Nat Nat Int Int String :=
  ⟨[(7, 1, 2), (7, 1, 2), (7, 2, 1)], 3, [1, 0, 0], [0, 0, 0], ["x0", "x1", "x2"], [1, 2]⟩

/-- the sunrise -/
def sunriseGraph : Graph 1 3 2 := ⟨![(0, 1), (0, 1), (1, 0)], ![0, 1]⟩

/-- the tadpole that remains -/
def sunrisePinched : Graph 0 1 2 := ⟨![(0, 0)], ![0, 0]⟩

/-- **C70, what the code does wrong.** A sunrise with the powers 1, 0, 0 is scaleless, but the code makes a tadpole with one loop of it,
with `U = x0`: the lines with the power zero contain a closed loop. -/
theorem C70_sunrise : Numbered sunriseLines ![7, 7, 7] sunriseGraph ∧ Numbered (pinch sunriseLines) ![7] sunrisePinched ∧
    loops sunriseGraph = 2 ∧ loops sunrisePinched = 1 ∧ (preliminaryU (F := ℚ) sunrisePinched).terms = [(![1], 1)] ∧
    (∀ x : Fin 3 → ℚ, x 1 = 0 → x 2 = 0 → (preliminaryU sunriseGraph).eval x = 0) := by
  have hN : Numbered sunriseLines ![7, 7, 7] sunriseGraph := by
    refine ⟨[1, 2], ⟨by decide, fun v => ?_⟩, rfl, rfl, rfl, rfl, ?_, ?_⟩
    · simp only [sunriseLines, List.mem_cons, List.not_mem_nil, or_false, exists_eq_or_imp, exists_eq_left]
      omega
    · intro i
      fin_cases i
      · exact ⟨1, 2, rfl, by decide, by decide⟩
      · exact ⟨1, 2, rfl, by decide, by decide⟩
      · exact ⟨2, 1, rfl, by decide, by decide⟩
    · intro e
      fin_cases e
      · exact ⟨1, rfl, by decide⟩
      · exact ⟨2, rfl, by decide⟩
  have hN' : Numbered (pinch sunriseLines) ![7] sunrisePinched := by
    refine ⟨[1], ⟨by decide, fun v => ?_⟩, rfl, rfl, rfl, rfl, ?_, ?_⟩
    · show v ∈ _ ↔ ∃ l ∈ [(7, 1, 1)], v = l.2.1 ∨ v = l.2.2
      simp only [List.mem_cons, List.not_mem_nil, or_false, exists_eq_left]
      omega
    · intro i
      fin_cases i
      exact ⟨1, 1, rfl, by decide, by decide⟩
    · intro e
      fin_cases e
      · exact ⟨1, rfl, by decide⟩
      · exact ⟨1, rfl, by decide⟩
  have hc : (sub sunriseGraph Finset.univ).Connected := by
    have : Nonempty (Fin (1+1)) := ⟨0⟩
    have h : ∀ v : Fin 2, (sub sunriseGraph Finset.univ).Reachable 0 v := by
      have h01 := reach_line sunriseGraph (Finset.mem_univ 0)
      intro v
      fin_cases v
      · exact SimpleGraph.Reachable.refl _
      · exact h01
    exact ⟨fun a b => (h a).symm.trans (h b)⟩
  have hk : ∃ p ∈ sunriseLines.powers, p ≠ 0 := ⟨1, by decide, by decide⟩
  refine ⟨hN, hN', by decide, by decide, by decide +kernel, fun x h1 h2 => ?_⟩
  refine (C70_zero_loop ⟨rfl, rfl, rfl, rfl⟩ hN hN' hc hk (by decide) ?_ x ?_).1
  · intro hF
    have := (C70_loops ⟨rfl, rfl, rfl, rfl⟩ hN hN' hc hk).2.2 hF
    revert this; decide
  · intro i hi
    fin_cases i
    · exact absurd hi (by decide)
    · exact h1
    · exact h2

end FromGraph
end SecDec
