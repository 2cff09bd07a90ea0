import Verif.Proof.FromGraph
import Verif.Spec.Pinch
/-
Trees and forests of a contracted graph.
-/
namespace SecDec
namespace FromGraph

variable {V P E V' P' : Nat}

/-- `g'` is `g` with the lines `Z` contracted -/
structure Contr (g : Graph V P E) (g' : Graph V' P' E) (Z : Finset (Fin P)) (φ : Fin (V+1) → Fin (V'+1)) (e : Fin P' → Fin P) : Prop where
  inj : Function.Injective e
  range : ∀ i, (∃ k, e k = i) ↔ i ∉ Z
  ker : ∀ a b, φ a = φ b ↔ (sub g Z).Reachable a b
  surj : Function.Surjective φ
  edges : ∀ k, g'.edges k = (φ (g.edges (e k)).1, φ (g.edges (e k)).2)
  ext : ∀ k, g'.ext k = φ (g.ext k)

theorem sub_mono (g : Graph V P E) {T T' : Finset (Fin P)} (h : T ⊆ T') : sub g T ≤ sub g T' := by
  intro a b hab
  obtain ⟨h1, i, hi, h2⟩ := hab
  exact ⟨h1, i, h hi, h2⟩

/-- the ends of a line are connected -/
theorem reach_line (g : Graph V P E) {T : Finset (Fin P)} {i : Fin P} (hi : i ∈ T) : (sub g T).Reachable (g.edges i).1 (g.edges i).2 := by
  by_cases h : (g.edges i).1 = (g.edges i).2
  · rw [h]
  · exact SimpleGraph.Adj.reachable ⟨h, i, hi, Or.inl rfl⟩

/-- reachability is the least equivalence that contains the lines -/
theorem reach_of (g : Graph V P E) (T : Finset (Fin P)) (R : Fin (V+1) → Fin (V+1) → Prop) (hrefl : ∀ a, R a a)
    (hsymm : ∀ a b, R a b → R b a) (htrans : ∀ a b c, R a b → R b c → R a c)
    (hline : ∀ i ∈ T, R (g.edges i).1 (g.edges i).2) {a b : Fin (V+1)} (h : (sub g T).Reachable a b) : R a b := by
  obtain ⟨w⟩ := h
  induction w with
  | nil => exact hrefl _
  | cons hadj _ ih =>
    obtain ⟨-, i, hi, h1⟩ := hadj
    refine htrans _ _ _ ?_ ih
    rcases h1 with h1 | h1
    · have := hline i hi; rw [h1] at this; exact this
    · have := hline i hi; rw [h1] at this; exact hsymm _ _ this

/-- the lines of the contracted graph, and `Z` -/
def lift (Z : Finset (Fin P)) (e : Fin P' → Fin P) (T' : Finset (Fin P')) : Finset (Fin P) := T'.image e ∪ Z

theorem reach_contr {g : Graph V P E} {g' : Graph V' P' E} {Z : Finset (Fin P)} {φ : Fin (V+1) → Fin (V'+1)} {e : Fin P' → Fin P}
    (h : Contr g g' Z φ e) (T' : Finset (Fin P')) (a b : Fin (V+1)) :
    (sub g' T').Reachable (φ a) (φ b) ↔ (sub g (lift Z e T')).Reachable a b := by
  have hZ : ∀ {x y}, φ x = φ y → (sub g (lift Z e T')).Reachable x y := fun hxy =>
    ((h.ker _ _).1 hxy).mono (sub_mono g Finset.subset_union_right)
  constructor
  · intro hr
    have key : ∀ x y, (sub g' T').Reachable x y → ∀ a b, φ a = x → φ b = y → (sub g (lift Z e T')).Reachable a b := by
      intro x y hxy
      refine reach_of g' T' (fun x y => ∀ a b, φ a = x → φ b = y → (sub g (lift Z e T')).Reachable a b) ?_ ?_ ?_ ?_ hxy
      · rintro x a b rfl hb; exact hZ hb.symm
      · intro x y hxy a b ha hb; exact (hxy b a hb ha).symm
      · intro x y z h1 h2 a c ha hc
        obtain ⟨b, hb⟩ := h.surj y
        exact (h1 a b ha hb).trans (h2 b c hb hc)
      · intro k hk a b ha hb
        rw [h.edges k] at ha hb
        have h1 : e k ∈ lift Z e T' := Finset.mem_union_left _ (Finset.mem_image_of_mem e hk)
        exact (hZ ha).trans ((reach_line g h1).trans (hZ hb.symm))
    exact key _ _ hr a b rfl rfl
  · intro hr
    refine reach_of g (lift Z e T') (fun a b => (sub g' T').Reachable (φ a) (φ b)) (fun _ => SimpleGraph.Reachable.refl _)
      (fun _ _ h => h.symm) (fun _ _ _ h1 h2 => h1.trans h2) ?_ hr
    intro i hi
    rcases Finset.mem_union.1 hi with hi | hi
    · obtain ⟨k, hk, rfl⟩ := Finset.mem_image.1 hi
      have := reach_line g' hk
      rwa [h.edges k] at this
    · rw [(h.ker _ _).2 (reach_line g hi)]

theorem card_lift {g : Graph V P E} {g' : Graph V' P' E} {Z : Finset (Fin P)} {φ : Fin (V+1) → Fin (V'+1)} {e : Fin P' → Fin P}
    (h : Contr g g' Z φ e) (T' : Finset (Fin P')) : (lift Z e T').card = T'.card + Z.card := by
  unfold lift
  rw [Finset.card_union_of_disjoint, Finset.card_image_of_injective _ h.inj]
  rw [Finset.disjoint_left]
  intro i hi hZ
  obtain ⟨k, -, rfl⟩ := Finset.mem_image.1 hi
  exact (h.range _).1 ⟨k, rfl⟩ hZ

theorem connected_contr {g : Graph V P E} {g' : Graph V' P' E} {Z : Finset (Fin P)} {φ : Fin (V+1) → Fin (V'+1)} {e : Fin P' → Fin P}
    (h : Contr g g' Z φ e) (T' : Finset (Fin P')) : (sub g' T').Connected ↔ (sub g (lift Z e T')).Connected := by
  constructor
  · intro hc
    have : Nonempty (Fin (V+1)) := ⟨0⟩
    exact ⟨fun a b => (reach_contr h T' a b).1 (hc.preconnected _ _)⟩
  · intro hc
    have : Nonempty (Fin (V'+1)) := ⟨0⟩
    refine ⟨fun x y => ?_⟩
    obtain ⟨a, rfl⟩ := h.surj x
    obtain ⟨b, rfl⟩ := h.surj y
    exact (reach_contr h T' a b).2 (hc.preconnected _ _)

/-- a forest that is not connected can be enlarged -/
theorem forest_insert (g : Graph V P E) {T : Finset (Fin P)} (hT : Forest g T) {i : Fin P}
    (hi : ¬ (sub g T).Reachable (g.edges i).1 (g.edges i).2) : Forest g (insert i T) := by
  have hne : (g.edges i).1 ≠ (g.edges i).2 := fun h => hi (by rw [h])
  have hsub : sub g (insert i T) = sub g T ⊔ SimpleGraph.edge (g.edges i).1 (g.edges i).2 := by
    ext a b
    rw [SimpleGraph.sup_adj, SimpleGraph.edge_adj]
    constructor
    · rintro ⟨h1, j, hj, h2⟩
      rcases Finset.mem_insert.1 hj with rfl | hj
      · right
        refine ⟨?_, h1⟩
        rcases h2 with h2 | h2 <;> simp [h2]
      · exact Or.inl ⟨h1, j, hj, h2⟩
    · rintro (⟨h1, j, hj, h2⟩ | ⟨h1, h2⟩)
      · exact ⟨h1, j, Finset.mem_insert_of_mem hj, h2⟩
      · refine ⟨h2, i, Finset.mem_insert_self _ _, ?_⟩
        rcases h1 with ⟨h1, h3⟩ | ⟨h1, h3⟩
        · left; exact Prod.ext h1.symm h3.symm
        · right; exact Prod.ext h3.symm h1.symm
  have hno : ∀ j ∈ T, g.edges j ≠ g.edges i ∧ g.edges j ≠ (g.edges i).swap := by
    intro j hj
    have := reach_line g hj
    constructor
    · intro h; rw [h] at this; exact hi this
    · intro h; rw [h] at this; exact hi this.symm
  refine ⟨?_, ?_⟩
  · rw [hsub]; exact hT.1.sup_edge_of_not_reachable hi
  · intro j hj
    refine ⟨?_, ?_⟩
    · rcases Finset.mem_insert.1 hj with rfl | hj
      · exact hne
      · exact (hT.2 j hj).1
    · intro k hk hjk
      rcases Finset.mem_insert.1 hj with rfl | hj'
      · rcases Finset.mem_insert.1 hk with rfl | hk
        · exact absurd rfl hjk
        · exact hno k hk
      · rcases Finset.mem_insert.1 hk with rfl | hk
        · refine ⟨fun h => (hno j hj').1 h.symm, fun h => (hno j hj').2 ?_⟩
          rw [h, Prod.swap_swap]
        · exact (hT.2 j hj').2 k hk hjk

theorem forest_empty (g : Graph V P E) : Forest g ∅ := by
  refine ⟨?_, by intro i hi; simp at hi⟩
  have : sub g ∅ = ⊥ := by
    ext a b
    simp [sub]
  rw [this]; exact SimpleGraph.isAcyclic_bot

/-- every forest is part of a spanning tree -/
theorem exists_spanningTree (g : Graph V P E) (hc : (sub g Finset.univ).Connected) (Z : Finset (Fin P)) (hZ : Forest g Z) :
    ∃ T, Z ⊆ T ∧ SpanningTree g T := by
  induction hn : P - Z.card generalizing Z with
  | zero =>
    have : Z = Finset.univ := by
      apply Finset.eq_univ_of_card
      have := Finset.card_le_univ Z
      rw [Fintype.card_fin] at this ⊢
      omega
    subst this
    exact ⟨Finset.univ, subset_rfl, ⟨hc, hZ.1⟩, hZ.2⟩
  | succ n ih =>
    by_cases hall : ∀ i, (sub g Z).Reachable (g.edges i).1 (g.edges i).2
    · refine ⟨Z, subset_rfl, ⟨⟨?_⟩, hZ.1⟩, hZ.2⟩
      · have : Nonempty (Fin (V+1)) := ⟨0⟩
        intro a b
        exact reach_of g Finset.univ (fun a b => (sub g Z).Reachable a b) (fun _ => SimpleGraph.Reachable.refl _)
          (fun _ _ h => h.symm) (fun _ _ _ h1 h2 => h1.trans h2) (fun i _ => hall i) (hc.preconnected a b)
    · push Not at hall
      obtain ⟨i, hi⟩ := hall
      have hiZ : i ∉ Z := fun h => hi (reach_line g h)
      obtain ⟨T, hT, hS⟩ := ih (insert i Z) (forest_insert g hZ hi) (by rw [Finset.card_insert_of_notMem hiZ]; omega)
      exact ⟨T, (Finset.subset_insert _ _).trans hT, hS⟩

theorem forest_subset {g : Graph V P E} {T Z : Finset (Fin P)} (h : Forest g T) (hZ : Z ⊆ T) : Forest g Z :=
  ⟨h.1.anti (sub_mono g hZ), fun i hi => ⟨(h.2 i (hZ hi)).1, fun j hj hij => (h.2 i (hZ hi)).2 j (hZ hj) hij⟩⟩

/-- every set of lines that contains `Z` comes from a set of lines of the contracted graph -/
theorem exists_lift {g : Graph V P E} {g' : Graph V' P' E} {Z : Finset (Fin P)} {φ : Fin (V+1) → Fin (V'+1)} {e : Fin P' → Fin P}
    (h : Contr g g' Z φ e) {T : Finset (Fin P)} (hT : Z ⊆ T) : ∃ T', lift Z e T' = T := by
  classical
  refine ⟨Finset.univ.filter (fun k => e k ∈ T), ?_⟩
  ext i
  simp only [lift, Finset.mem_union, Finset.mem_image, Finset.mem_filter, Finset.mem_univ, true_and]
  constructor
  · rintro (⟨k, hk, rfl⟩ | hi)
    · exact hk
    · exact hT hi
  · intro hi
    by_cases hZ : i ∈ Z
    · exact Or.inr hZ
    · obtain ⟨k, rfl⟩ := (h.range i).2 hZ
      exact Or.inl ⟨k, hi, rfl⟩

/-- the number of vertices -/
theorem card_contr {g : Graph V P E} {g' : Graph V' P' E} {Z : Finset (Fin P)} {φ : Fin (V+1) → Fin (V'+1)} {e : Fin P' → Fin P}
    (h : Contr g g' Z φ e) (hc : (sub g Finset.univ).Connected) : V ≤ V' + Z.card ∧ (V' + Z.card = V ↔ Forest g Z) := by
  have huniv : lift Z e Finset.univ = Finset.univ := by
    obtain ⟨T', hT'⟩ := exists_lift h (Finset.subset_univ Z)
    apply Finset.eq_univ_of_forall
    intro i
    have hi : i ∈ lift Z e T' := by rw [hT']; exact Finset.mem_univ i
    simp only [lift, Finset.mem_union, Finset.mem_image] at hi ⊢
    rcases hi with ⟨k, -, rfl⟩ | hi
    · exact Or.inl ⟨k, Finset.mem_univ _, rfl⟩
    · exact Or.inr hi
  have hc' : (sub g' Finset.univ).Connected := (connected_contr h _).2 (by rw [huniv]; exact hc)
  obtain ⟨T', -, hT'⟩ := exists_spanningTree g' hc' ∅ (forest_empty g')
  obtain ⟨h1, h2⟩ := (spanningTree_iff g' T').1 hT'
  have h3 := (connected_contr h T').1 h1
  have h4 := h3.card_vert_le_card_edgeSet_add_one
  have h5 := card_edgeSet_le g (lift Z e T')
  rw [card_lift h, h2] at h5
  have hV : Nat.card (Fin (V+1)) = V + 1 := by simp
  refine ⟨by omega, ?_, ?_⟩
  · intro heq
    have hs : SpanningTree g (lift Z e T') := (spanningTree_iff g _).2 ⟨h3, by rw [card_lift h, h2]; exact heq⟩
    exact forest_subset ⟨hs.1.isAcyclic, hs.2⟩ Finset.subset_union_right
  · intro hZ
    obtain ⟨T, hZT, hT⟩ := exists_spanningTree g hc Z hZ
    obtain ⟨T1, rfl⟩ := exists_lift h hZT
    obtain ⟨h6, h7⟩ := (spanningTree_iff g _).1 hT
    have h8 := (connected_contr h T1).2 h6
    have h9 := h8.card_vert_le_card_edgeSet_add_one
    have h10 := card_edgeSet_le g' T1
    have hV' : Nat.card (Fin (V'+1)) = V' + 1 := by simp
    rw [card_lift h] at h7
    omega

theorem spanningTree_contr {g : Graph V P E} {g' : Graph V' P' E} {Z : Finset (Fin P)} {φ : Fin (V+1) → Fin (V'+1)} {e : Fin P' → Fin P}
    (h : Contr g g' Z φ e) (hV : V' + Z.card = V) (T' : Finset (Fin P')) : SpanningTree g' T' ↔ SpanningTree g (lift Z e T') := by
  rw [spanningTree_iff, spanningTree_iff, connected_contr h, card_lift h]
  constructor
  · rintro ⟨h1, h2⟩; exact ⟨h1, by omega⟩
  · rintro ⟨h1, h2⟩; exact ⟨h1, by omega⟩

theorem twoForest_contr {g : Graph V P E} {g' : Graph V' P' E} {Z : Finset (Fin P)} {φ : Fin (V+1) → Fin (V'+1)} {e : Fin P' → Fin P}
    (h : Contr g g' Z φ e) (hV : V' + Z.card = V) (T' : Finset (Fin P')) : TwoForest g' T' ↔ TwoForest g (lift Z e T') := by
  rw [twoForest_iff g' T' (φ 0), twoForest_iff g _ 0, card_lift h]
  constructor
  · rintro ⟨h1, h2⟩
    refine ⟨by omega, fun a b ha hb => ?_⟩
    rw [← reach_contr h] at ha hb ⊢
    exact h2 _ _ ha hb
  · rintro ⟨h1, h2⟩
    refine ⟨by omega, fun x y hx hy => ?_⟩
    obtain ⟨a, rfl⟩ := h.surj x
    obtain ⟨b, rfl⟩ := h.surj y
    rw [reach_contr h] at hx hy ⊢
    exact h2 _ _ hx hy

theorem inflow_contr {M : Type} [AddCommMonoid M] (p : Fin E → M) {g : Graph V P E} {g' : Graph V' P' E} {Z : Finset (Fin P)}
    {φ : Fin (V+1) → Fin (V'+1)} {e : Fin P' → Fin P}
    (h : Contr g g' Z φ e) (T' : Finset (Fin P')) (v : Fin (V+1)) : inflow p g' T' (φ v) = inflow p g (lift Z e T') v := by
  classical
  unfold inflow
  refine Finset.sum_congr ?_ fun _ _ => rfl
  ext k
  simp only [Finset.mem_filter, Finset.mem_univ, true_and]
  rw [h.ext, reach_contr h]

/-- sums over sets of lines, if the Feynman parameters of the lines in `Z` are zero -/
theorem sum_contr {F : Type} [Field F] {g : Graph V P E} {g' : Graph V' P' E} {Z : Finset (Fin P)}
    {φ : Fin (V+1) → Fin (V'+1)} {e : Fin P' → Fin P} (h : Contr g g' Z φ e)
    (q : Finset (Fin P) → Prop) (q' : Finset (Fin P') → Prop) [DecidablePred q] [DecidablePred q'] (hq : ∀ T', q' T' ↔ q (lift Z e T'))
    (f : Finset (Fin P) → F) (f' : Finset (Fin P') → F) (hf : ∀ T', f' T' = f (lift Z e T'))
    (x : Fin P → F) (x' : Fin P' → F) (hx : ∀ i ∈ Z, x i = 0) (hx' : ∀ k, x' k = x (e k)) :
    ∑ T' with q' T', f' T' * ∏ i ∈ T'ᶜ, x' i = ∑ T with q T, f T * ∏ i ∈ Tᶜ, x i := by
  classical
  have hinj : Function.Injective (lift Z e) := by
    intro T1 T2 hT
    ext k
    have h1 : e k ∈ lift Z e T1 ↔ e k ∈ lift Z e T2 := by rw [hT]
    have hk : e k ∉ Z := (h.range _).1 ⟨k, rfl⟩
    simpa [lift, hk, h.inj.eq_iff] using h1
  have hprod : ∀ T', ∏ i ∈ T'ᶜ, x' i = ∏ i ∈ (lift Z e T')ᶜ, x i := by
    intro T'
    have : (lift Z e T')ᶜ = T'ᶜ.image e := by
      ext i
      simp only [lift, Finset.mem_compl, Finset.mem_union, Finset.mem_image, not_or, not_exists, not_and]
      constructor
      · rintro ⟨h1, h2⟩
        obtain ⟨k, rfl⟩ := (h.range i).2 h2
        exact ⟨k, fun hk => h1 k hk rfl, rfl⟩
      · rintro ⟨k, hk, rfl⟩
        refine ⟨fun j hj hjk => hk (h.inj hjk ▸ hj), (h.range _).1 ⟨k, rfl⟩⟩
    rw [this, Finset.prod_image (fun a _ b _ hab => h.inj hab)]
    exact Finset.prod_congr rfl fun k _ => hx' k
  rw [← Finset.sum_subset (s₁ := (Finset.univ.filter q').image (lift Z e))]
  · rw [Finset.sum_image (fun a _ b _ hab => hinj hab)]
    refine Finset.sum_congr rfl fun T' _ => ?_
    rw [hf, hprod]
  · intro T hT
    obtain ⟨T', hT', rfl⟩ := Finset.mem_image.1 hT
    simp only [Finset.mem_filter, Finset.mem_univ, true_and] at hT' ⊢
    exact (hq T').1 hT'
  · intro T hT hnot
    have hZT : ¬ Z ⊆ T := by
      intro hZT
      obtain ⟨T', rfl⟩ := exists_lift h hZT
      apply hnot
      simp only [Finset.mem_filter, Finset.mem_univ, true_and] at hT
      exact Finset.mem_image.2 ⟨T', by simp [(hq T').2 hT], rfl⟩
    obtain ⟨i, hi, hiT⟩ := Finset.not_subset.1 hZT
    rw [Finset.prod_eq_zero (i := i) (by simpa using hiT) (hx i hi), mul_zero]

end FromGraph
end SecDec
