import Verif.Props.Misc
import Verif.Proof.FromGraph
import Verif.Props.Polynomial
import Mathlib.Data.List.Sort
/-
C31: U and F of a graph.
-/
set_option linter.unusedSectionVars false
namespace SecDec
namespace FromGraph
open Poly
variable {V P E : Nat}

theorem mem_combinations {r : Nat} {c : List (Fin P)} :
    c ∈ Misc.combinations (List.finRange P) r ↔ c.Sublist (List.finRange P) ∧ c.length = r := by
  rw [(Misc.combinations_perm (List.finRange P) r).mem_iff, List.mem_sublistsLen]

theorem nodup_of_sublist {c : List (Fin P)} (h : c.Sublist (List.finRange P)) : c.Nodup := h.nodup (List.nodup_finRange P)

theorem eq_of_toFinset {c d : List (Fin P)} (hc : c.Sublist (List.finRange P)) (hd : d.Sublist (List.finRange P))
    (h : c.toFinset = d.toFinset) : c = d := by
  have h1 : (List.finRange P).Pairwise (· < ·) := (List.sortedLT_finRange P).pairwise
  have hp : c.Perm d := (List.perm_ext_iff_of_nodup (nodup_of_sublist hc) (nodup_of_sublist hd)).2 fun a => by
    rw [← List.mem_toFinset, h, List.mem_toFinset]
  exact hp.eq_of_pairwise' (r := (· ≤ ·)) ((h1.sublist hc).imp le_of_lt) ((h1.sublist hd).imp le_of_lt)

theorem exists_sublist (T : Finset (Fin P)) : ∃ c : List (Fin P), c.Sublist (List.finRange P) ∧ c.toFinset = T := by
  refine ⟨(List.finRange P).filter (fun i => decide (i ∈ T)), List.filter_sublist, ?_⟩
  ext i; simp

theorem combinations_nodup (r : Nat) : (Misc.combinations (List.finRange P) r).Nodup :=
  (Misc.combinations_perm (List.finRange P) r).nodup_iff.2 (List.nodup_sublistsLen r (List.nodup_finRange P))

/-- sums over cuts are sums over sets of uncut lines -/
theorem sum_combinations {K : Type} [AddCommMonoid K] (r : Nat) (p : List (Fin P) → Bool) (q : Finset (Fin P) → Prop)
    [DecidablePred q] (hpq : ∀ cut : List (Fin P), cut.Sublist (List.finRange P) → cut.length = r → (p cut = true ↔ q cut.toFinsetᶜ))
    (hq : ∀ T, q T → Tᶜ.card = r) (f : Finset (Fin P) → K) :
    (((Misc.combinations (List.finRange P) r).filter p).map (fun cut => f cut.toFinsetᶜ)).sum = ∑ T with q T, f T := by
  rw [← List.sum_toFinset _ ((combinations_nodup r).filter p)]
  refine Finset.sum_bij (fun c _ => c.toFinsetᶜ) ?_ ?_ ?_ ?_
  · intro c hc
    simp only [List.mem_toFinset, List.mem_filter, mem_combinations] at hc
    simp only [Finset.mem_filter, Finset.mem_univ, true_and]
    exact (hpq c hc.1.1 hc.1.2).1 hc.2
  · intro c hc d hd h
    simp only [List.mem_toFinset, List.mem_filter, mem_combinations] at hc hd
    exact eq_of_toFinset hc.1.1 hd.1.1 (compl_injective h)
  · intro T hT
    simp only [Finset.mem_filter, Finset.mem_univ, true_and] at hT
    obtain ⟨c, hc, hcT⟩ := exists_sublist Tᶜ
    have hl : c.length = r := by
      rw [← List.toFinset_card_of_nodup (nodup_of_sublist hc), hcT]; exact hq T hT
    refine ⟨c, ?_, by rw [hcT, compl_compl]⟩
    simp only [List.mem_toFinset, List.mem_filter, mem_combinations]
    exact ⟨⟨hc, hl⟩, (hpq c hc hl).2 (by rwa [hcT, compl_compl])⟩
  · intro c _; rfl

theorem card_uncut {c : List (Fin P)} (hc : c.Sublist (List.finRange P)) : c.toFinsetᶜ.card = P - c.length := by
  rw [Finset.card_compl, Fintype.card_fin, List.toFinset_card_of_nodup (nodup_of_sublist hc)]

/-- the test in `preliminary_U` -/
theorem connected_iff (g : Graph V P E) (hL : 0 < loops g) (cut : List (Fin P)) (hc : cut.Sublist (List.finRange P))
    (hl : cut.length = (loops g).toNat) :
    decide (∀ q : (Fin (V+1) ⊕ Fin E) × (Fin (V+1) ⊕ Fin E), powMatrix g cut q.1 q.2 ≠ 0) = true ↔ SpanningTree g cut.toFinsetᶜ := by
  rw [decide_eq_true_eq, spanningTree_iff]
  have hcard : cut.toFinsetᶜ.card = V := by
    rw [card_uncut hc]; unfold loops at hL hl; omega
  simp only [powMatrix_ne_zero g cut (nodup_of_sublist hc)]
  constructor
  · intro h
    have : Nonempty (Fin (V+1)) := ⟨0⟩
    exact ⟨⟨fun a b => h (Sum.inl a, Sum.inl b)⟩, hcard⟩
  · rintro ⟨h, -⟩ q
    exact h.preconnected _ _

theorem spanningTree_card (g : Graph V P E) (hL : 0 < loops g) (T : Finset (Fin P)) (h : SpanningTree g T) :
    Tᶜ.card = (loops g).toNat := by
  have := ((spanningTree_iff g T).1 h).2
  have h2 := Finset.card_compl T
  rw [Fintype.card_fin] at h2
  unfold loops; omega

section field
variable {F : Type} [Field F] [DecidableEq F]

theorem mono_cut (x : Fin P → F) (cut : List (Fin P)) : mono x (cutExpo cut) = ∏ i ∈ cut.toFinset, x i := by
  unfold mono cutExpo
  rw [Finset.prod_congr rfl (g := fun i => if i ∈ cut.toFinset then x i else 1)]
  · rw [Finset.prod_ite_mem, Finset.univ_inter]
  · intro i _
    by_cases h : i ∈ cut <;> simp [h]

/-- **C31.** The terms of U are, each one once and with the coefficient one, the products of the Feynman parameters of the
lines that are not in a spanning tree. -/
theorem C31_U_terms (g : Graph V P E) (hL : 0 < loops g) :
    (preliminaryU (F := F) g).terms.Nodup ∧
    ∀ e c, (e, c) ∈ (preliminaryU (F := F) g).terms ↔ c = 1 ∧ ∃ T, SpanningTree g T ∧ e = fun i => if i ∈ T then 0 else 1 := by
  constructor
  · unfold preliminaryU
    refine List.Nodup.map_on ?_ ((combinations_nodup _).filter _)
    intro c hc d hd h
    simp only [List.mem_filter, mem_combinations] at hc hd
    refine eq_of_toFinset hc.1.1 hd.1.1 ?_
    ext i
    have h1 := congrFun (congrArg Prod.fst h) i
    simp only [cutExpo] at h1
    rw [List.mem_toFinset, List.mem_toFinset]
    by_cases hi : i ∈ c <;> by_cases hj : i ∈ d <;> simp [hi, hj] at h1 ⊢
  · intro e c
    unfold preliminaryU
    simp only [List.mem_map, List.mem_filter, mem_combinations, Prod.mk.injEq]
    constructor
    · rintro ⟨cut, ⟨⟨h1, h2⟩, h3⟩, rfl, rfl⟩
      refine ⟨rfl, cut.toFinsetᶜ, (connected_iff g hL cut h1 h2).1 h3, ?_⟩
      funext i
      unfold cutExpo
      by_cases hi : i ∈ cut <;> simp [hi]
    · rintro ⟨rfl, T, hT, rfl⟩
      obtain ⟨cut, hc, hcT⟩ := exists_sublist Tᶜ
      have hl : cut.length = (loops g).toNat := by
        rw [← List.toFinset_card_of_nodup (nodup_of_sublist hc), hcT]; exact spanningTree_card g hL T hT
      have hT' : cut.toFinsetᶜ = T := by rw [hcT, compl_compl]
      refine ⟨cut, ⟨⟨hc, hl⟩, (connected_iff g hL cut hc hl).2 (by rwa [hT'])⟩, ?_, rfl⟩
      funext i
      unfold cutExpo
      rw [← hT']
      by_cases hi : i ∈ cut <;> simp [hi]

open Classical in
/-- **C31.** U is the sum over all spanning trees of the product of the Feynman parameters of the lines outside of the tree. -/
theorem C31_U (g : Graph V P E) (hL : 0 < loops g) (x : Fin P → F) :
    (preliminaryU (F := F) g).eval x = ∑ T with SpanningTree g T, ∏ i ∈ Tᶜ, x i := by
  rw [← sum_combinations (loops g).toNat _ _ (connected_iff g hL) (spanningTree_card g hL) (fun T => ∏ i ∈ Tᶜ, x i)]
  unfold preliminaryU eval
  simp only [List.map_map]
  congr 1
  refine List.map_congr_left fun cut _ => ?_
  simp only [Function.comp_apply, compl_compl, one_mul]
  rw [mono_cut]

/-- the test in `preliminary_F` -/
theorem valid2tree_iff (g : Graph V P E) (hL : 0 < loops g) (cut : List (Fin P)) (hc : cut.Sublist (List.finRange P))
    (hl : cut.length = (loops g + 1).toNat) : valid2tree g cut = true ↔ TwoForest g cut.toFinsetᶜ := by
  have hnd := nodup_of_sublist hc
  have hcard : cut.toFinsetᶜ.card + 1 = V := by
    have hle : cut.length ≤ P := by simpa using hc.length_le
    rw [card_uncut hc]; unfold loops at hL hl; omega
  rw [twoForest_iff g _ 0]
  have hn : (notConnectedTo0 g cut).1.map Sum.inl ++ (notConnectedTo0 g cut).2.map Sum.inr =
      ((List.finRange (V+1)).map Sum.inl ++ (List.finRange E).map Sum.inr).filter
        (fun y => decide (powMatrix g cut (Sum.inl 0) y = 0)) := by
    unfold notConnectedTo0
    rw [List.filter_append, List.filter_map, List.filter_map]
    rfl
  have hall : ((List.finRange (V+1)).map Sum.inl ++ (List.finRange E).map Sum.inr : List (Fin (V+1) ⊕ Fin E)).Nodup := by
    rw [List.nodup_append]
    refine ⟨(List.nodup_finRange _).map Sum.inl_injective, (List.nodup_finRange _).map Sum.inr_injective, ?_⟩
    intro a ha b hb
    obtain ⟨a, -, rfl⟩ := List.mem_map.1 ha
    obtain ⟨b, -, rfl⟩ := List.mem_map.1 hb
    simp
  unfold valid2tree
  simp only [hn]
  rw [List.all_eq_true]
  have hsymm : ∀ x y, powMatrix g cut x y ≠ 0 → powMatrix g cut y x ≠ 0 := by
    intro x y h
    rw [powMatrix_ne_zero g cut hnd] at h ⊢
    exact h.symm
  have hrefl : ∀ x, powMatrix g cut x x ≠ 0 := fun x => by
    rw [powMatrix_ne_zero g cut hnd]
  have key : (∀ c ∈ Misc.combinations (((List.finRange (V+1)).map Sum.inl ++ (List.finRange E).map Sum.inr).filter
        (fun y => decide (powMatrix g cut (Sum.inl 0) y = 0))) 2,
        pairOk g cut c = true) ↔
      ∀ x y, powMatrix g cut (Sum.inl 0) x = 0 → powMatrix g cut (Sum.inl 0) y = 0 → powMatrix g cut x y ≠ 0 := by
    generalize hl : ((List.finRange (V+1)).map Sum.inl ++ (List.finRange E).map Sum.inr).filter
        (fun y => decide (powMatrix g cut (Sum.inl 0) y = 0)) = l
    have hmem : ∀ x, x ∈ l ↔ powMatrix g cut (Sum.inl 0) x = 0 := by
      intro x
      rw [← hl, List.mem_filter]
      simp only [decide_eq_true_eq, and_iff_right_iff_imp]
      intro _
      rcases x with v | e <;> simp
    have hpair : ∀ c, c ∈ Misc.combinations l 2 ↔ c.Sublist l ∧ c.length = 2 := by
      intro c
      rw [(Misc.combinations_perm l 2).mem_iff, List.mem_sublistsLen]
    constructor
    · intro h x y hx hy
      by_cases hxy : x = y
      · rw [hxy]; exact hrefl y
      · have hx' := (hmem x).2 hx
        have hy' := (hmem y).2 hy
        have hsub : [x, y].Sublist l ∨ [y, x].Sublist l := by
          obtain ⟨a, b, rfl⟩ := List.append_of_mem hx'
          rcases List.mem_append.1 hy' with h1 | h1
          · right
            have : [y].Sublist a := List.singleton_sublist.2 h1
            simpa using this.append (List.Sublist.cons₂ x (List.nil_sublist b))
          · left
            rcases List.mem_cons.1 h1 with h1 | h1
            · exact absurd h1.symm hxy
            · have : [y].Sublist b := List.singleton_sublist.2 h1
              simpa using (List.nil_sublist a).append (List.Sublist.cons₂ x this)
        rcases hsub with h1 | h1
        · have := h [x, y] ((hpair _).2 ⟨h1, rfl⟩)
          simpa [pairOk] using this
        · have := h [y, x] ((hpair _).2 ⟨h1, rfl⟩)
          exact hsymm _ _ (by simpa [pairOk] using this)
    · intro h c hc
      obtain ⟨h1, h2⟩ := (hpair c).1 hc
      match c, h2 with
      | [i, j], _ =>
        simp only [pairOk, decide_eq_true_eq]
        exact h i j ((hmem i).1 (h1.subset (by simp))) ((hmem j).1 (h1.subset (by simp)))
  rw [key]
  have hz : ∀ x, powMatrix g cut (Sum.inl 0) x = 0 ↔ ¬ (sub g cut.toFinsetᶜ).Reachable 0 (base g x) := by
    intro x
    have := powMatrix_ne_zero g cut hnd (Sum.inl 0) x
    simp only [base] at this ⊢
    rw [← this, not_not]
  constructor
  · intro h
    refine ⟨hcard, fun a b ha hb => ?_⟩
    have := h (Sum.inl a) (Sum.inl b) ((hz _).2 ha) ((hz _).2 hb)
    rwa [powMatrix_ne_zero g cut hnd] at this
  · rintro ⟨-, h⟩ x y hx hy
    rw [powMatrix_ne_zero g cut hnd]
    exact h _ _ ((hz x).1 hx) ((hz y).1 hy)

theorem twoForest_card (g : Graph V P E) (hL : 0 < loops g) (T : Finset (Fin P)) (h : TwoForest g T) :
    Tᶜ.card = (loops g + 1).toNat := by
  have := ((twoForest_iff g T 0).1 h).1
  have h2 := Finset.card_compl T
  rw [Fintype.card_fin] at h2
  unfold loops; omega

variable {M : Type} [AddCommGroup M]

open Classical in
/-- the momentum on one side of a two-forest, up to the sign -/
theorem inflow_sides {sq : M → F} (hsq : ∀ v, sq (-v) = sq v) {p : Fin E → M} (hp : ∑ e, p e = 0) (g : Graph V P E)
    (T : Finset (Fin P)) (h : TwoForest g T) (v w : Fin (V+1)) : sq (inflow p g T v) = sq (inflow p g T w) := by
  have hcomp : ∀ v w, ¬ (sub g T).Reachable v w → inflow p g T v + inflow p g T w = 0 := by
    intro v w hvw
    rw [← hp]
    unfold inflow
    rw [← Finset.sum_union]
    · congr 1
      ext e
      simp only [Finset.mem_union, Finset.mem_filter, Finset.mem_univ, true_and, iff_true]
      by_cases he : (sub g T).Reachable v (g.ext e)
      · exact Or.inl he
      · exact Or.inr (((twoForest_iff g T v).1 h).2 w (g.ext e) hvw he)
    · rw [Finset.disjoint_filter]
      intro e _ h1 h2
      exact hvw (h1.trans h2.symm)
  by_cases hvw : (sub g T).Reachable v w
  · have : inflow p g T v = inflow p g T w := by
      unfold inflow
      congr 1
      ext e
      simp only [Finset.mem_filter, Finset.mem_univ, true_and]
      exact ⟨fun h => hvw.symm.trans h, fun h => hvw.trans h⟩
    rw [this]
  · have := hcomp v w hvw
    rw [eq_neg_of_add_eq_zero_left this, hsq]

open Classical in
/-- the momenta chosen by the code -/
theorem cutMomenta_sq {sq : M → F} (hsq : ∀ v, sq (-v) = sq v) {p : Fin E → M} (hp : ∑ e, p e = 0) (g : Graph V P E)
    (cut : List (Fin P)) (hc : cut.Sublist (List.finRange P)) (v : Fin (V+1)) (h : TwoForest g cut.toFinsetᶜ) :
    sq ((cutMomenta g cut).map p).sum = sq (inflow p g cut.toFinsetᶜ v) := by
  rw [inflow_sides hsq hp g _ h v 0]
  have hnd := nodup_of_sublist hc
  have he : ((notConnectedTo0 g cut).2.map p).sum = - inflow p g cut.toFinsetᶜ 0 := by
    rw [← add_eq_zero_iff_eq_neg, ← hp]
    have hnd' : (notConnectedTo0 g cut).2.Nodup := (List.nodup_finRange E).filter _
    rw [← List.sum_toFinset p hnd']
    unfold inflow
    rw [← Finset.sum_union]
    · congr 1
      ext e
      simp only [Finset.mem_union, List.mem_toFinset, notConnectedTo0, List.mem_filter, List.mem_finRange, true_and,
        decide_eq_true_eq, Finset.mem_filter, Finset.mem_univ, iff_true]
      have := powMatrix_ne_zero g cut hnd (Sum.inl 0) (Sum.inr e)
      simp only [base] at this
      rw [← this]
      exact Classical.em _
    · rw [Finset.disjoint_left]
      intro e h1 h2
      simp only [List.mem_toFinset, notConnectedTo0, List.mem_filter, List.mem_finRange, true_and,
        decide_eq_true_eq, Finset.mem_filter, Finset.mem_univ] at h1 h2
      have := powMatrix_ne_zero g cut hnd (Sum.inl 0) (Sum.inr e)
      simp only [base] at this
      exact this.2 h2 h1
  unfold cutMomenta
  simp only
  split
  · rw [he, hsq]
  · -- the other side
    have hsub : (notConnectedTo0 g cut).2.Sublist (List.finRange E) := List.filter_sublist
    cases hm : Misc.missing (List.finRange E) (notConnectedTo0 g cut).2 with
    | none => exact absurd hsub.subperm ((Misc.C09_missing _ _).1.1 hm)
    | some r =>
      obtain ⟨h1, -⟩ := (Misc.C09_missing _ _).2 r hm
      have h2 := (h1.map p).sum_eq
      rw [List.map_append, List.sum_append, he] at h2
      have h3 : ((List.finRange E).map p).sum = 0 := by rw [← hp, ← List.ofFn_eq_map, List.sum_ofFn]
      rw [h3] at h2
      simp only [Option.getD_some]
      rw [add_neg_eq_zero.1 h2]

open Classical in
/-- the part without masses -/
theorem massless_eval {sq : M → F} (hsq : ∀ v, sq (-v) = sq v) (h0 : sq 0 = 0) {p : Fin E → M} (hp : ∑ e, p e = 0)
    (g : Graph V P E) (hL : 0 < loops g) (v : Fin (V+1)) (x : Fin P → F) :
    ((massless sq p g).getD ⟨[]⟩).eval x = ∑ T with TwoForest g T, - sq (inflow p g T v) * ∏ i ∈ Tᶜ, x i := by
  have h1 : ((massless sq p g).getD ⟨[]⟩).eval x =
      (((Misc.combinations (List.finRange P) ((loops g) + 1).toNat).filter (fun cut => valid2tree g cut && !(cutMomenta g cut).isEmpty)).map
        (fun cut => - sq ((cutMomenta g cut).map p).sum * ∏ i ∈ cut.toFinset, x i)).sum := by
    unfold massless
    simp only
    have h2 : ∀ rows : List (Expo P × F), (((if rows.isEmpty = true then none else some ⟨rows⟩) : Option (Poly P F)).getD ⟨[]⟩).eval x =
        (⟨rows⟩ : Poly P F).eval x := by
      intro rows
      split
      · rename_i h; rw [List.isEmpty_iff] at h; rw [h]; rfl
      · rfl
    rw [h2]
    unfold eval
    simp only [List.map_map]
    congr 1
    refine List.map_congr_left fun cut _ => ?_
    simp only [Function.comp_apply]
    rw [mono_cut]
  rw [h1, ← sum_combinations (loops g + 1).toNat _ _ (valid2tree_iff g hL) (twoForest_card g hL)
    (fun T => - sq (inflow p g T v) * ∏ i ∈ Tᶜ, x i)]
  have hterm : ∀ cut ∈ (Misc.combinations (List.finRange P) ((loops g) + 1).toNat), valid2tree g cut = true →
      - sq ((cutMomenta g cut).map p).sum * ∏ i ∈ cut.toFinset, x i =
      - sq (inflow p g cut.toFinsetᶜ v) * ∏ i ∈ cut.toFinsetᶜᶜ, x i := by
    intro cut hcut hval
    obtain ⟨hc, hl⟩ := mem_combinations.1 hcut
    rw [cutMomenta_sq hsq hp g cut hc v ((valid2tree_iff g hL cut hc hl).1 hval), compl_compl]
  revert hterm
  generalize Misc.combinations (List.finRange P) ((loops g) + 1).toNat = l
  intro hterm
  induction l with
  | nil => simp
  | cons cut l ih =>
    have ih' := ih (fun c hc => hterm c (by simp [hc]))
    by_cases hv : valid2tree g cut = true
    · by_cases he : (cutMomenta g cut).isEmpty = true
      · rw [List.filter_cons_of_neg (by simp [he]), List.filter_cons_of_pos hv, List.map_cons, List.sum_cons, ih']
        rw [← hterm cut (by simp) hv]
        rw [List.isEmpty_iff] at he
        simp [he, h0]
      · rw [List.filter_cons_of_pos (by simp [hv, he]), List.filter_cons_of_pos hv, List.map_cons, List.sum_cons, List.map_cons,
          List.sum_cons, ih', hterm cut (by simp) hv]
    · rw [List.filter_cons_of_neg (by simp [hv]), List.filter_cons_of_neg hv, ih']

theorem massTerms_eval (msq : Fin P → Option F) (x : Fin P → F) :
    ((massTerms msq).getD ⟨[]⟩).eval x = ∑ i, (msq i).getD 0 * x i := by
  have h2 : ∀ rows : List (Expo P × F), (((if rows.isEmpty = true then none else some ⟨rows⟩) : Option (Poly P F)).getD ⟨[]⟩).eval x =
      (⟨rows⟩ : Poly P F).eval x := by
    intro rows
    split
    · rename_i h; rw [List.isEmpty_iff] at h; rw [h]; rfl
    · rfl
  unfold massTerms
  simp only
  rw [h2, ← List.sum_ofFn, List.ofFn_eq_map]
  unfold eval
  simp only
  generalize List.finRange P = l
  induction l with
  | nil => rfl
  | cons i l ih =>
    rw [List.filterMap_cons]
    cases hm : msq i with
    | none => simp [hm, ih]
    | some m =>
      simp only [Option.map_some, List.map_cons, List.sum_cons, hm, Option.getD_some, ih]
      congr 2
      unfold mono
      rw [Finset.prod_eq_single i]
      · simp
      · intro j _ hj; simp [hj]
      · intro h; exact absurd (Finset.mem_univ i) h

open Classical in
/-- **C31.** F is the sum over all two-forests of minus the square of the momentum that flows through the cut lines, times
the product of the Feynman parameters of the cut lines, plus U times the sum of the squared masses times the Feynman parameters.
Momentum conservation is assumed, therefore it does not matter in the component of which vertex the momentum is computed. -/
theorem C31_F {sq : M → F} (hsq : ∀ v, sq (-v) = sq v) (h0 : sq 0 = 0) {p : Fin E → M} (hp : ∑ e, p e = 0)
    (msq : Fin P → Option F) (g : Graph V P E) (hL : 0 < loops g) (v : Fin (V+1)) (x : Fin P → F) :
    (preliminaryF sq p msq g).eval x =
      ∑ T with TwoForest g T, - sq (inflow p g T v) * ∏ i ∈ Tᶜ, x i +
      (∑ T with SpanningTree g T, ∏ i ∈ Tᶜ, x i) * ∑ i, (msq i).getD 0 * x i := by
  rw [← massless_eval hsq h0 hp g hL v x, ← C31_U g hL x, ← massTerms_eval msq x]
  have hdefU : (preliminaryU (F := F) g).Defined x := by
    intro t ht i _
    unfold preliminaryU at ht
    obtain ⟨c, -, rfl⟩ := List.mem_map.1 ht
    simp only [cutExpo]
    split <;> omega
  have hUF : ∀ m : Option (Poly P F), m = massTerms msq → (massPart (preliminaryU (F := F) g) m).eval x = (preliminaryU (F := F) g).eval x * (m.getD ⟨[]⟩).eval x := by
    intro m hm
    cases m with
    | none =>
      simp only [massPart, Option.getD_none]
      rw [(C01_arith_eval (preliminaryU (F := F) g) ⟨[]⟩ 0 0 x).2.2.2.2.2.2.1]
      simp [eval]
    | some q =>
      simp only [massPart, Option.getD_some]
      refine (C01_arith_eval (preliminaryU (F := F) g) q 0 0 x).2.2.2.2.2.2.2.1 hdefU ?_
      intro t ht i _
      unfold massTerms at hm
      simp only at hm
      split at hm
      · simp at hm
      · simp only [Option.some.injEq] at hm
        subst hm
        simp only [List.mem_filterMap] at ht
        obtain ⟨j, -, hj⟩ := ht
        rw [Option.map_eq_some_iff] at hj
        obtain ⟨m, -, rfl⟩ := hj
        simp only
        split <;> omega
  unfold preliminaryF
  simp only
  cases hF : massless sq p g with
  | none =>
    simp only [Option.getD_none]
    rw [(C01_arith_eval _ ⟨[]⟩ 0 0 x).2.2.2.1, hUF _ rfl]
    simp [eval]
  | some F0 =>
    simp only [Option.getD_some]
    rw [(C01_arith_eval F0 _ 0 0 x).1, hUF _ rfl]

end field

/-! ### concrete cases -/

/-- the triangle -/
def triangle : Graph 2 3 3 := ⟨![(0,1), (1,2), (2,0)], ![0, 1, 2]⟩

example : 0 < loops triangle := by decide

/-- U of the triangle has three terms -/
example : (preliminaryU (F := ℚ) triangle).terms = [(![1,0,0], 1), (![0,1,0], 1), (![0,0,1], 1)] := by decide +kernel

/-- momenta with momentum conservation and a square -/
example : (∀ v : ℚ, (fun v => v^2) (-v) = (fun v => v^2) v) ∧ (fun v : ℚ => v^2) 0 = 0 ∧ ∑ e, (![1, 2, -3] : Fin 3 → ℚ) e = 0 := by
  refine ⟨fun v => by simp, by norm_num, by simp [Fin.sum_univ_three]; norm_num⟩

/-- F of the triangle -/
example : ((massless (F := ℚ) (fun v => v^2) (![1, 2, -3] : Fin 3 → ℚ) triangle).map (·.terms)) =
    some [(![1,1,0], -4), (![1,0,1], -1), (![0,1,1], -9)] := by decide +kernel

end FromGraph
end SecDec
