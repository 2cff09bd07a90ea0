import Verif.Spec.FromGraph
import Verif.Proof.Misc
import Mathlib.Tactic.Linarith
import Mathlib.Tactic.Abel
import Mathlib.Algebra.BigOperators.Fin
/-
Connectivity and powers of the transition matrix.
-/
namespace SecDec
namespace FromGraph
variable {V P E : Nat}

/-! ### powers of matrices -/
section pow
variable {ι : Type} [Fintype ι] [DecidableEq ι]

theorem pow_nonneg {N : Matrix ι ι ℤ} (h0 : ∀ i j, 0 ≤ N i j) (k : ℕ) (i j : ι) : 0 ≤ (N ^ k) i j := by
  induction k generalizing i j with
  | zero => rw [pow_zero, Matrix.one_apply]; split <;> norm_num
  | succ k ih =>
    rw [pow_succ, Matrix.mul_apply]
    exact Finset.sum_nonneg fun l _ => mul_nonneg (ih i l) (h0 l j)

theorem pow_ge_mul {N : Matrix ι ι ℤ} (h0 : ∀ i j, 0 ≤ N i j) (k : ℕ) (i l j : ι) : N i l * (N ^ k) l j ≤ (N ^ (k+1)) i j := by
  rw [pow_succ', Matrix.mul_apply]
  exact Finset.single_le_sum (f := fun l => N i l * (N ^ k) l j) (fun m _ => mul_nonneg (h0 i m) (pow_nonneg h0 k m j)) (Finset.mem_univ l)

theorem pow_diag {N : Matrix ι ι ℤ} (h0 : ∀ i j, 0 ≤ N i j) (h1 : ∀ i, 1 ≤ N i i) (k : ℕ) (i : ι) : 1 ≤ (N ^ k) i i := by
  induction k with
  | zero => rw [pow_zero, Matrix.one_apply, if_pos rfl]
  | succ k ih =>
    have := pow_ge_mul h0 k i i i
    have := h1 i
    nlinarith

theorem pow_walk {N : Matrix ι ι ℤ} (h0 : ∀ i j, 0 ≤ N i j) (h1 : ∀ i, 1 ≤ N i i) (G : SimpleGraph ι)
    (hG : ∀ i j, G.Adj i j → N i j ≠ 0) {i j : ι} (p : G.Walk i j) (k : ℕ) (hk : p.length ≤ k) : 1 ≤ (N ^ k) i j := by
  induction p generalizing k with
  | nil => exact pow_diag h0 h1 k _
  | @cons u v w h p ih =>
    cases k with
    | zero => simp at hk
    | succ k =>
      have h3 := ih k (by simpa using hk)
      have h4 := pow_ge_mul h0 k u v w
      have h5 : 1 ≤ N u v := by have := h0 u v; have := hG u v h; omega
      nlinarith

theorem pow_reachable {N : Matrix ι ι ℤ} (G : SimpleGraph ι) (hG : ∀ i j, i ≠ j → N i j ≠ 0 → G.Adj i j) (k : ℕ) (i j : ι)
    (h : (N ^ k) i j ≠ 0) : G.Reachable i j := by
  induction k generalizing j with
  | zero =>
    rw [pow_zero, Matrix.one_apply] at h
    split at h
    · rename_i h'; rw [h']
    · exact absurd rfl h
  | succ k ih =>
    rw [pow_succ, Matrix.mul_apply] at h
    obtain ⟨l, -, hl⟩ := Finset.exists_ne_zero_of_sum_ne_zero h
    have h1 := ih l (left_ne_zero_of_mul hl)
    by_cases hlj : l = j
    · rwa [hlj] at h1
    · exact h1.trans (hG l j hlj (right_ne_zero_of_mul hl)).reachable

theorem pow_ne_zero_iff {N : Matrix ι ι ℤ} (h0 : ∀ i j, 0 ≤ N i j) (h1 : ∀ i, 1 ≤ N i i) (G : SimpleGraph ι)
    (hG : ∀ i j, G.Adj i j ↔ i ≠ j ∧ N i j ≠ 0) (k : ℕ) (hk : Fintype.card ι ≤ k) (i j : ι) :
    (N ^ k) i j ≠ 0 ↔ G.Reachable i j := by
  constructor
  · exact pow_reachable G (fun i j h h' => (hG i j).2 ⟨h, h'⟩) k i j
  · rintro ⟨p⟩
    have h3 := pow_walk h0 h1 G (fun i j h => ((hG i j).1 h).2) (p.toPath : G.Walk i j) k
      ((p.toPath.2.length_lt).le.trans hk)
    omega

end pow

/-! ### the transition matrix -/

/-- the contribution of one line -/
def edgeM (a b : Fin (V+1) ⊕ Fin E) : Matrix (Fin (V+1) ⊕ Fin E) (Fin (V+1) ⊕ Fin E) Int :=
  Matrix.single a b 1 + Matrix.single b a 1

theorem addEdge_eq (M : Matrix (Fin (V+1) ⊕ Fin E) (Fin (V+1) ⊕ Fin E) Int) (a b : Fin (V+1) ⊕ Fin E) (k : Int) :
    addEdge M a b k = M + k • edgeM a b := by
  unfold addEdge edgeM
  rw [smul_add, Matrix.smul_single, Matrix.smul_single]
  simp [add_assoc]

theorem foldl_addEdge {α : Type} (l : List α) (M : Matrix (Fin (V+1) ⊕ Fin E) (Fin (V+1) ⊕ Fin E) Int)
    (a b : α → Fin (V+1) ⊕ Fin E) (k : Int) :
    l.foldl (fun M i => addEdge M (a i) (b i) k) M = M + k • (l.map (fun i => edgeM (a i) (b i))).sum := by
  induction l generalizing M with
  | nil => simp
  | cons x l ih =>
    rw [List.foldl_cons, ih, addEdge_eq, List.map_cons, List.sum_cons, smul_add, add_assoc]

/-- the matrix of an internal line -/
def lineM (g : Graph V P E) (i : Fin P) : Matrix (Fin (V+1) ⊕ Fin E) (Fin (V+1) ⊕ Fin E) Int :=
  edgeM (Sum.inl (g.edges i).1) (Sum.inl (g.edges i).2)

/-- the matrix of an external line -/
def extM (g : Graph V P E) (e : Fin E) : Matrix (Fin (V+1) ⊕ Fin E) (Fin (V+1) ⊕ Fin E) Int :=
  edgeM (Sum.inr e) (Sum.inl (g.ext e))

theorem cutMatrix_eq (g : Graph V P E) (cut : List (Fin P)) (hc : cut.Nodup) :
    cutMatrix g cut = 1 + ∑ i ∈ cut.toFinsetᶜ, lineM g i + ∑ e, extM g e := by
  unfold cutMatrix vertMatrix
  rw [foldl_addEdge, foldl_addEdge, foldl_addEdge]
  have h1 : ((List.finRange P).map (fun i => edgeM (Sum.inl (g.edges i).1) (Sum.inl (g.edges i).2) :
      Fin P → Matrix (Fin (V+1) ⊕ Fin E) (Fin (V+1) ⊕ Fin E) Int)).sum = ∑ i, lineM g i := by
    rw [← List.ofFn_eq_map, List.sum_ofFn]; rfl
  have h2 : ((List.finRange E).map (fun i => edgeM (Sum.inr i) (Sum.inl (g.ext i)) :
      Fin E → Matrix (Fin (V+1) ⊕ Fin E) (Fin (V+1) ⊕ Fin E) Int)).sum = ∑ e, extM g e := by
    rw [← List.ofFn_eq_map, List.sum_ofFn]; rfl
  have h3 : (cut.map (fun i => edgeM (Sum.inl (g.edges i).1) (Sum.inl (g.edges i).2) :
      Fin P → Matrix (Fin (V+1) ⊕ Fin E) (Fin (V+1) ⊕ Fin E) Int)).sum = ∑ i ∈ cut.toFinset, lineM g i :=
    (List.sum_toFinset (lineM g) hc).symm
  rw [h1, h2, h3, ← Finset.sum_add_sum_compl cut.toFinset (lineM g)]
  simp only [one_smul, neg_smul]
  abel

theorem edgeM_apply (a b x y : Fin (V+1) ⊕ Fin E) :
    edgeM a b x y = (if a = x ∧ b = y then 1 else 0) + (if b = x ∧ a = y then 1 else 0) := by
  unfold edgeM
  rw [Matrix.add_apply, Matrix.single_apply, Matrix.single_apply]

theorem edgeM_nonneg (a b x y : Fin (V+1) ⊕ Fin E) : 0 ≤ edgeM a b x y := by
  rw [edgeM_apply]; split <;> split <;> norm_num

theorem ite_add_ite_ne_zero (p q : Prop) [Decidable p] [Decidable q] :
    (if p then (1 : ℤ) else 0) + (if q then 1 else 0) ≠ 0 ↔ p ∨ q := by
  by_cases hp : p <;> by_cases hq : q <;> simp [hp, hq]

theorem edgeM_ne_zero (a b x y : Fin (V+1) ⊕ Fin E) : edgeM a b x y ≠ 0 ↔ (a = x ∧ b = y) ∨ (b = x ∧ a = y) := by
  rw [edgeM_apply]
  exact ite_add_ite_ne_zero _ _

theorem cutMatrix_apply (g : Graph V P E) (cut : List (Fin P)) (hc : cut.Nodup) (x y : Fin (V+1) ⊕ Fin E) :
    cutMatrix g cut x y = (if x = y then 1 else 0) + ∑ i ∈ cut.toFinsetᶜ, lineM g i x y + ∑ e, extM g e x y := by
  rw [cutMatrix_eq g cut hc, Matrix.add_apply, Matrix.add_apply, Matrix.sum_apply, Matrix.sum_apply, Matrix.one_apply]

theorem cutMatrix_nonneg (g : Graph V P E) (cut : List (Fin P)) (hc : cut.Nodup) (x y : Fin (V+1) ⊕ Fin E) :
    0 ≤ cutMatrix g cut x y := by
  rw [cutMatrix_apply g cut hc]
  have h1 : 0 ≤ ∑ i ∈ cut.toFinsetᶜ, lineM g i x y := Finset.sum_nonneg fun i _ => edgeM_nonneg _ _ _ _
  have h2 : 0 ≤ ∑ e, extM g e x y := Finset.sum_nonneg fun i _ => edgeM_nonneg _ _ _ _
  split <;> linarith

theorem cutMatrix_diag (g : Graph V P E) (cut : List (Fin P)) (hc : cut.Nodup) (x : Fin (V+1) ⊕ Fin E) :
    1 ≤ cutMatrix g cut x x := by
  rw [cutMatrix_apply g cut hc]
  have h1 : 0 ≤ ∑ i ∈ cut.toFinsetᶜ, lineM g i x x := Finset.sum_nonneg fun i _ => edgeM_nonneg _ _ _ _
  have h2 : 0 ≤ ∑ e, extM g e x x := Finset.sum_nonneg fun i _ => edgeM_nonneg _ _ _ _
  rw [if_pos rfl]; linarith

theorem cutMatrix_ne_zero (g : Graph V P E) (cut : List (Fin P)) (hc : cut.Nodup) (x y : Fin (V+1) ⊕ Fin E) (hxy : x ≠ y) :
    cutMatrix g cut x y ≠ 0 ↔ (∃ i ∈ cut.toFinsetᶜ, lineM g i x y ≠ 0) ∨ ∃ e, extM g e x y ≠ 0 := by
  rw [cutMatrix_apply g cut hc, if_neg hxy, zero_add]
  have h1 : ∀ i ∈ cut.toFinsetᶜ, 0 ≤ lineM g i x y := fun i _ => edgeM_nonneg _ _ _ _
  have h2 : ∀ e ∈ (Finset.univ : Finset (Fin E)), 0 ≤ extM g e x y := fun i _ => edgeM_nonneg _ _ _ _
  rw [Ne, add_eq_zero_iff_of_nonneg (Finset.sum_nonneg h1) (Finset.sum_nonneg h2),
    Finset.sum_eq_zero_iff_of_nonneg h1, Finset.sum_eq_zero_iff_of_nonneg h2]
  push Not
  constructor
  · intro h
    by_cases h3 : ∀ i ∈ cut.toFinsetᶜ, lineM g i x y = 0
    · obtain ⟨e, -, he⟩ := h h3
      exact Or.inr ⟨e, he⟩
    · push Not at h3
      exact Or.inl h3
  · rintro (⟨i, hi, h⟩ | ⟨e, he⟩) h3
    · exact absurd (h3 i hi) h
    · exact ⟨e, Finset.mem_univ e, he⟩

/-- the graph of internal and external vertices -/
def big (g : Graph V P E) (cut : List (Fin P)) : SimpleGraph (Fin (V+1) ⊕ Fin E) where
  Adj x y := x ≠ y ∧ ((∃ i ∈ cut.toFinsetᶜ, lineM g i x y ≠ 0) ∨ ∃ e, extM g e x y ≠ 0)
  symm := ⟨by
    rintro a b ⟨h, h'⟩
    refine ⟨h.symm, ?_⟩
    simp only [lineM, extM, edgeM_ne_zero] at h' ⊢
    rcases h' with ⟨i, hi, h'⟩ | ⟨e, h'⟩
    · exact Or.inl ⟨i, hi, by tauto⟩
    · exact Or.inr ⟨e, by tauto⟩⟩
  loopless := ⟨by rintro a ⟨h, -⟩; exact h rfl⟩

/-- the vertex a vertex is attached to -/
def base (g : Graph V P E) : Fin (V+1) ⊕ Fin E → Fin (V+1)
  | Sum.inl v => v
  | Sum.inr e => g.ext e

theorem big_reachable (g : Graph V P E) (cut : List (Fin P)) (x y : Fin (V+1) ⊕ Fin E) :
    (big g cut).Reachable x y ↔ (sub g cut.toFinsetᶜ).Reachable (base g x) (base g y) := by
  have hadj : ∀ x y, (big g cut).Adj x y → (sub g cut.toFinsetᶜ).Reachable (base g x) (base g y) := by
    rintro x y ⟨hxy, h⟩
    simp only [lineM, extM, edgeM_ne_zero] at h
    rcases h with ⟨i, hi, ⟨rfl, rfl⟩ | ⟨rfl, rfl⟩⟩ | ⟨e, ⟨rfl, rfl⟩ | ⟨rfl, rfl⟩⟩
    · exact SimpleGraph.Adj.reachable ⟨fun h => hxy (by simp only [base] at h; rw [h]), i, hi, Or.inl rfl⟩
    · exact SimpleGraph.Adj.reachable ⟨fun h => hxy (by simp only [base] at h; rw [h]), i, hi, Or.inr rfl⟩
    · exact SimpleGraph.Reachable.refl _
    · exact SimpleGraph.Reachable.refl _
  have hbase : ∀ x, (big g cut).Reachable x (Sum.inl (base g x)) := by
    rintro (v | e)
    · exact SimpleGraph.Reachable.refl _
    · refine SimpleGraph.Adj.reachable ⟨by simp, Or.inr ⟨e, ?_⟩⟩
      rw [extM, edgeM_ne_zero]
      exact Or.inl ⟨rfl, rfl⟩
  constructor
  · rintro ⟨p⟩
    induction p with
    | nil => exact SimpleGraph.Reachable.refl _
    | cons h p ih => exact (hadj _ _ h).trans ih
  · intro h
    refine (hbase x).trans (SimpleGraph.Reachable.trans ?_ (hbase y).symm)
    generalize base g x = a at h ⊢
    generalize base g y = b at h ⊢
    obtain ⟨p⟩ := h
    induction p with
    | nil => exact SimpleGraph.Reachable.refl _
    | @cons u v w h p ih =>
      refine SimpleGraph.Reachable.trans (SimpleGraph.Adj.reachable ?_) ih
      obtain ⟨hne, i, hi, h⟩ := h
      refine ⟨fun h => hne (by simpa using h), Or.inl ⟨i, hi, ?_⟩⟩
      rw [lineM, edgeM_ne_zero]
      rcases h with h | h <;> simp [h]

/-- **key.** an entry of the power of the matrix of the cut graph is not zero iff the vertices are connected -/
theorem powMatrix_ne_zero (g : Graph V P E) (cut : List (Fin P)) (hc : cut.Nodup) (x y : Fin (V+1) ⊕ Fin E) :
    powMatrix g cut x y ≠ 0 ↔ (sub g cut.toFinsetᶜ).Reachable (base g x) (base g y) := by
  rw [← big_reachable]
  unfold powMatrix
  refine pow_ne_zero_iff (cutMatrix_nonneg g cut hc) (cutMatrix_diag g cut hc) (big g cut) ?_ _ (by simp) x y
  intro i j
  constructor
  · rintro ⟨h, h'⟩; exact ⟨h, (cutMatrix_ne_zero g cut hc i j h).2 h'⟩
  · rintro ⟨h, h'⟩; exact ⟨h, (cutMatrix_ne_zero g cut hc i j h).1 h'⟩

/-! ### counting edges -/

/-- the vertices joined by a line -/
def ends (g : Graph V P E) (i : Fin P) : Sym2 (Fin (V+1)) := s((g.edges i).1, (g.edges i).2)

theorem edgeSet_sub (g : Graph V P E) (T : Finset (Fin P)) :
    (sub g T).edgeSet = {e | ∃ i ∈ T, (g.edges i).1 ≠ (g.edges i).2 ∧ e = ends g i} := by
  ext e
  induction e using Sym2.ind with
  | h a b =>
    rw [SimpleGraph.mem_edgeSet]
    simp only [sub, Set.mem_ofPred_eq, ends, Sym2.eq_iff]
    constructor
    · rintro ⟨hne, i, hi, h⟩
      refine ⟨i, hi, ?_, ?_⟩
      · rcases h with h | h <;> rw [h]
        · exact hne
        · exact hne.symm
      · rcases h with h | h <;> rw [h] <;> simp
    · rintro ⟨i, hi, hne, h⟩
      refine ⟨?_, i, hi, ?_⟩
      · rcases h with ⟨rfl, rfl⟩ | ⟨rfl, rfl⟩
        · exact hne
        · exact hne.symm
      · rcases h with ⟨rfl, rfl⟩ | ⟨rfl, rfl⟩ <;> simp

theorem edgeSet_image (g : Graph V P E) (T : Finset (Fin P)) :
    (sub g T).edgeSet = ((T.filter (fun i => (g.edges i).1 ≠ (g.edges i).2)).image (ends g) : Finset _) := by
  rw [edgeSet_sub]
  ext e
  simp only [Set.mem_ofPred_eq, Finset.coe_image, Set.mem_image, Finset.mem_coe, Finset.mem_filter]
  constructor
  · rintro ⟨i, h1, h2, rfl⟩; exact ⟨i, ⟨h1, h2⟩, rfl⟩
  · rintro ⟨i, ⟨h1, h2⟩, rfl⟩; exact ⟨i, h1, h2, rfl⟩

theorem card_edgeSet_le (g : Graph V P E) (T : Finset (Fin P)) : Nat.card (sub g T).edgeSet ≤ T.card := by
  rw [edgeSet_image]
  rw [Nat.card_coe_set_eq, Set.ncard_coe_finset]
  exact Finset.card_image_le.trans (Finset.card_filter_le _ _)

theorem ends_eq_iff (g : Graph V P E) (i j : Fin P) : ends g i = ends g j ↔ g.edges j = g.edges i ∨ g.edges j = (g.edges i).swap := by
  unfold ends
  rw [Sym2.eq_iff]
  constructor
  · rintro (⟨h1, h2⟩ | ⟨h1, h2⟩)
    · left; exact Prod.ext h1.symm h2.symm
    · right; exact Prod.ext h2.symm h1.symm
  · rintro (h | h)
    · left; rw [h]; exact ⟨rfl, rfl⟩
    · right; rw [h]; exact ⟨rfl, rfl⟩

theorem noMultiple_iff (g : Graph V P E) (T : Finset (Fin P)) : NoMultiple g T ↔ Nat.card (sub g T).edgeSet = T.card := by
  rw [edgeSet_image, Nat.card_coe_set_eq, Set.ncard_coe_finset]
  constructor
  · intro h
    rw [Finset.filter_true_of_mem fun i hi => (h i hi).1, Finset.card_image_of_injOn]
    intro i hi j hj hij
    by_contra hne
    have := (h i hi).2 j hj hne
    rcases (ends_eq_iff g i j).1 hij with h | h
    · exact this.1 h
    · exact this.2 h
  · intro h
    have h1 := Finset.card_image_le (s := T.filter (fun i => (g.edges i).1 ≠ (g.edges i).2)) (f := ends g)
    have h2 := Finset.card_filter_le T (fun i => (g.edges i).1 ≠ (g.edges i).2)
    have h3 : (T.filter (fun i => (g.edges i).1 ≠ (g.edges i).2)) = T :=
      Finset.eq_of_subset_of_card_le (Finset.filter_subset _ _) (by omega)
    have h4 : Set.InjOn (ends g) (T : Set (Fin P)) := by
      rw [← Finset.card_image_iff]
      rw [h3] at h
      exact h
    intro i hi
    refine ⟨?_, fun j hj hij => ?_⟩
    · rw [← h3] at hi
      exact (Finset.mem_filter.1 hi).2
    · constructor
      · intro h5; exact hij (h4 hi hj ((ends_eq_iff g i j).2 (Or.inl h5)))
      · intro h5; exact hij (h4 hi hj ((ends_eq_iff g i j).2 (Or.inr h5)))

/-- spanning trees are the connected sets of `V` lines -/
theorem spanningTree_iff (g : Graph V P E) (T : Finset (Fin P)) :
    SpanningTree g T ↔ (sub g T).Connected ∧ T.card = V := by
  unfold SpanningTree
  rw [noMultiple_iff, SimpleGraph.isTree_iff_connected_and_card]
  have hV : Nat.card (Fin (V+1)) = V + 1 := by simp
  constructor
  · rintro ⟨⟨h1, h2⟩, h3⟩
    exact ⟨h1, by omega⟩
  · rintro ⟨h1, h2⟩
    have h3 := h1.card_vert_le_card_edgeSet_add_one
    have h4 := card_edgeSet_le g T
    exact ⟨⟨h1, by omega⟩, by omega⟩

/-- two-forests are the sets of `V - 1` lines with at most two components -/
theorem twoForest_iff (g : Graph V P E) (T : Finset (Fin P)) (v : Fin (V+1)) :
    TwoForest g T ↔ T.card + 1 = V ∧
      ∀ a b, ¬ (sub g T).Reachable v a → ¬ (sub g T).Reachable v b → (sub g T).Reachable a b := by
  have hV : Nat.card (Fin (V+1)) = V + 1 := by simp
  -- adding an edge between two components
  have hadd : ∀ a b, ¬ (sub g T).Reachable a b → (∀ c, (sub g T).Reachable a c ∨ (sub g T).Reachable b c) →
      (sub g T ⊔ SimpleGraph.edge a b).Connected ∧ Nat.card (sub g T ⊔ SimpleGraph.edge a b).edgeSet = Nat.card (sub g T).edgeSet + 1 := by
    intro a b hab hc
    have hne : a ≠ b := by rintro rfl; exact hab (SimpleGraph.Reachable.refl _)
    constructor
    · have : Nonempty (Fin (V+1)) := ⟨0⟩
      have hab' : (sub g T ⊔ SimpleGraph.edge a b).Reachable a b :=
        SimpleGraph.Adj.reachable (by simp [SimpleGraph.edge_adj, hne])
      have hle : ∀ {x y}, (sub g T).Reachable x y → (sub g T ⊔ SimpleGraph.edge a b).Reachable x y := fun h => h.mono le_sup_left
      have ha : ∀ c, (sub g T ⊔ SimpleGraph.edge a b).Reachable a c := fun c =>
        (hc c).elim hle (fun h => hab'.trans (hle h))
      exact ⟨fun x y => (ha x).symm.trans (ha y)⟩
    · rw [SimpleGraph.edgeSet_sup, SimpleGraph.edgeSet_edge_of_ne hne, Nat.card_coe_set_eq, Nat.card_coe_set_eq,
        Set.union_singleton, Set.ncard_insert_of_notMem]
      rw [SimpleGraph.mem_edgeSet]
      exact fun h => hab h.reachable
  constructor
  · rintro ⟨h1, h2, a, b, h3, h4⟩
    obtain ⟨h5, h6⟩ := hadd a b h3 h4
    have htree : (sub g T ⊔ SimpleGraph.edge a b).IsTree := ⟨h5, h1.sup_edge_of_not_reachable h3⟩
    have h7 := (SimpleGraph.isTree_iff_connected_and_card.1 htree).2
    have h8 := (noMultiple_iff g T).1 h2
    refine ⟨by omega, ?_⟩
    intro x y hx hy
    rcases h4 v with hv | hv
    · have hx' : (sub g T).Reachable b x := (h4 x).resolve_left fun h => hx (hv.symm.trans h)
      have hy' : (sub g T).Reachable b y := (h4 y).resolve_left fun h => hy (hv.symm.trans h)
      exact hx'.symm.trans hy'
    · have hx' : (sub g T).Reachable a x := (h4 x).resolve_right fun h => hx (hv.symm.trans h)
      have hy' : (sub g T).Reachable a y := (h4 y).resolve_right fun h => hy (hv.symm.trans h)
      exact hx'.symm.trans hy'
  · rintro ⟨h1, h2⟩
    have hle := card_edgeSet_le g T
    have hex : ∃ b, ¬ (sub g T).Reachable v b := by
      by_contra hcon
      push Not at hcon
      have : (sub g T).Connected := by
        have : Nonempty (Fin (V+1)) := ⟨0⟩
        exact ⟨fun x y => (hcon x).symm.trans (hcon y)⟩
      have := this.card_vert_le_card_edgeSet_add_one
      omega
    obtain ⟨b, hb⟩ := hex
    have hc : ∀ c, (sub g T).Reachable v c ∨ (sub g T).Reachable b c := by
      intro c
      by_cases hvc : (sub g T).Reachable v c
      · exact Or.inl hvc
      · exact Or.inr (h2 b c hb hvc)
    obtain ⟨h5, h6⟩ := hadd v b hb hc
    have h7 := h5.card_vert_le_card_edgeSet_add_one
    have htree := SimpleGraph.isTree_iff_connected_and_card.2 ⟨h5, by omega⟩
    refine ⟨htree.isAcyclic.anti le_sup_left, (noMultiple_iff g T).2 (by omega), v, b, hb, hc⟩

end FromGraph
end SecDec
