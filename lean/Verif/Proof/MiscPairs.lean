import Mathlib.LinearAlgebra.Matrix.Determinant.Basic
import Mathlib.Data.List.OfFn
import Mathlib.Data.List.GetD
import Verif.Proof.Misc
namespace SecDec
namespace Misc
variable {α : Type}

/-- The elements covered by a list of pairs. -/
def flat (m : List (α × α)) : List α := m.flatMap (fun p => [p.1, p.2])

/-- `a` and `b` are paired with each other in `m` (in either order). -/
def Paired (m : List (α × α)) (a b : α) : Prop := (a, b) ∈ m ∨ (b, a) ∈ m

theorem flat_cons (p : α × α) (m : List (α × α)) : flat (p :: m) = p.1 :: p.2 :: flat m := rfl

theorem mem_flat_of_paired {m : List (α × α)} {a b : α} (h : Paired m a b) : a ∈ flat m ∧ b ∈ flat m := by
  unfold flat
  simp only [List.mem_flatMap, List.mem_cons, List.not_mem_nil, or_false]
  rcases h with h | h
  · exact ⟨⟨_, h, Or.inl rfl⟩, ⟨_, h, Or.inr rfl⟩⟩
  · exact ⟨⟨_, h, Or.inr rfl⟩, ⟨_, h, Or.inl rfl⟩⟩

theorem allPairsRec_sound (k : Nat) (l : List α) (hl : l.length = 2 * k) (m : List (α × α))
    (hm : m ∈ allPairsRec l) : (flat m).Perm l := by
  induction k generalizing l m with
  | zero =>
    have : l = [] := List.eq_nil_of_length_eq_zero (by omega)
    subst this
    simp [allPairsRec] at hm; subst hm; simp [flat]
  | succ k ih =>
    match l, hl with
    | a :: b :: rest, hl =>
      rw [allPairsRec] at hm
      obtain ⟨i, _, hm⟩ := List.mem_flatMap.1 hm
      obtain ⟨m', hm', rfl⟩ := List.mem_map.1 hm
      have hlen : ((b :: rest).eraseIdx i).length = 2 * k := by
        have := i.isLt
        rw [List.length_eraseIdx_of_lt (by simp; omega)]
        simp at hl ⊢; omega
      have := ih _ hlen m' hm'
      rw [flat_cons]
      refine List.Perm.cons _ ?_
      refine (this.cons _).trans ?_
      exact List.getElem_cons_eraseIdx_perm (by have := i.isLt; simp; omega)

theorem allPairsRec_complete (k : Nat) (l : List α) (hl : l.length = 2 * k) (hnd : l.Nodup)
    (m' : List (α × α)) (hm' : (flat m').Perm l) :
    ∃ m ∈ allPairsRec l, ∀ x y, Paired m x y ↔ Paired m' x y := by
  induction k generalizing l m' with
  | zero =>
    have : l = [] := List.eq_nil_of_length_eq_zero (by omega)
    subst this
    refine ⟨[], by simp [allPairsRec], ?_⟩
    have : m' = [] := by
      cases m' with
      | nil => rfl
      | cons p m => simp [flat_cons] at hm'
    subst this; simp
  | succ k ih =>
    match l, hl with
    | a :: b :: rest, hl =>
      have ha : a ∈ flat m' := hm'.symm.subset (by simp)
      unfold flat at ha
      obtain ⟨p, hp, hap⟩ := List.mem_flatMap.1 ha
      obtain ⟨s, t, rfl⟩ := List.append_of_mem hp
      -- partner
      obtain ⟨c, hc, hpair⟩ : ∃ c, [p.1, p.2].Perm [a, c] ∧ (p = (a, c) ∨ p = (c, a)) := by
        simp only [List.mem_cons, List.not_mem_nil, or_false] at hap
        rcases hap with h | h
        · exact ⟨p.2, by rw [h], Or.inl (by rw [h])⟩
        · exact ⟨p.1, by rw [h]; exact List.Perm.swap _ _ _, Or.inr (by rw [h])⟩
      have hperm : (flat (s ++ p :: t)).Perm (a :: c :: flat (s ++ t)) := by
        unfold flat
        rw [List.flatMap_append, List.flatMap_cons, List.flatMap_append]
        refine (List.perm_append_comm_assoc _ _ _).trans ?_
        exact hc.append_right _
      have h2 : (c :: flat (s ++ t)).Perm (b :: rest) := (hperm.symm.trans hm').cons_inv
      have hcmem : c ∈ b :: rest := h2.subset (by simp)
      obtain ⟨i, hi, hci⟩ := List.getElem_of_mem hcmem
      have h3 : (flat (s ++ t)).Perm ((b :: rest).eraseIdx i) := by
        have := h2.trans (List.getElem_cons_eraseIdx_perm hi).symm
        rw [hci] at this
        exact this.cons_inv
      have hlen : ((b :: rest).eraseIdx i).length = 2 * k := by
        rw [List.length_eraseIdx_of_lt hi]
        simp at hl ⊢; omega
      obtain ⟨m, hm, hmp⟩ := ih _ hlen ((List.eraseIdx_sublist _ _).nodup (List.nodup_cons.1 hnd).2) (s ++ t) h3
      refine ⟨(a, c) :: m, ?_, ?_⟩
      · rw [allPairsRec]
        refine List.mem_flatMap.2 ⟨⟨i, by simpa using hi⟩, by simp, ?_⟩
        refine List.mem_map.2 ⟨m, hm, ?_⟩
        simp only [Fin.getElem_fin]
        rw [hci]
      · intro x y
        have hx := hmp x y
        unfold Paired at hx ⊢
        simp only [List.mem_cons, List.mem_append] at hx ⊢
        rcases hpair with rfl | rfl
        · constructor
          · rintro ((h | h) | (h | h))
            · exact Or.inl (Or.inr (Or.inl h))
            · rcases hx.1 (Or.inl h) with (h | h) | (h | h) <;> simp [h]
            · exact Or.inr (Or.inr (Or.inl h))
            · rcases hx.1 (Or.inr h) with (h | h) | (h | h) <;> simp [h]
          · rintro ((h | h | h) | (h | h | h))
            · rcases hx.2 (Or.inl (Or.inl h)) with h | h <;> simp [h]
            · exact Or.inl (Or.inl h)
            · rcases hx.2 (Or.inl (Or.inr h)) with h | h <;> simp [h]
            · rcases hx.2 (Or.inr (Or.inl h)) with h | h <;> simp [h]
            · exact Or.inr (Or.inl h)
            · rcases hx.2 (Or.inr (Or.inr h)) with h | h <;> simp [h]
        · have sw : ∀ u v : α, (u, v) = (a, c) ↔ (v, u) = (c, a) := by
            intro u v; simp only [Prod.mk.injEq]; exact and_comm
          constructor
          · rintro ((h | h) | (h | h))
            · exact Or.inr (Or.inr (Or.inl ((sw _ _).1 h)))
            · rcases hx.1 (Or.inl h) with (h | h) | (h | h) <;> simp [h]
            · exact Or.inl (Or.inr (Or.inl ((sw _ _).1 h)))
            · rcases hx.1 (Or.inr h) with (h | h) | (h | h) <;> simp [h]
          · rintro ((h | h | h) | (h | h | h))
            · rcases hx.2 (Or.inl (Or.inl h)) with h | h <;> simp [h]
            · exact Or.inr (Or.inl ((sw _ _).2 h))
            · rcases hx.2 (Or.inl (Or.inr h)) with h | h <;> simp [h]
            · rcases hx.2 (Or.inr (Or.inl h)) with h | h <;> simp [h]
            · exact Or.inl (Or.inl ((sw _ _).2 h))
            · rcases hx.2 (Or.inr (Or.inr h)) with h | h <;> simp [h]

theorem allPairsRec_distinct (k : Nat) (l : List α) (hl : l.length = 2 * k) (hnd : l.Nodup) :
    (allPairsRec l).Pairwise (fun m m' => ∃ x y, Paired m x y ∧ ¬ Paired m' x y) := by
  induction k generalizing l with
  | zero =>
    have : l = [] := List.eq_nil_of_length_eq_zero (by omega)
    subst this
    simp [allPairsRec]
  | succ k ih =>
    match l, hl with
    | a :: b :: rest, hl =>
      have ha : a ∉ b :: rest := (List.nodup_cons.1 hnd).1
      have hnd' := (List.nodup_cons.1 hnd).2
      have hlen : ∀ i : Fin (rest.length + 1), ((b :: rest).eraseIdx i).length = 2 * k := by
        intro i
        have := i.isLt
        rw [List.length_eraseIdx_of_lt (by simp; omega)]
        simp at hl ⊢; omega
      have hsub : ∀ (i : Fin (rest.length + 1)) m, m ∈ allPairsRec ((b :: rest).eraseIdx i) →
          ∀ x y, Paired m x y → x ∈ b :: rest ∧ y ∈ b :: rest := by
        intro i m hm x y h
        have hp := allPairsRec_sound k _ (hlen i) m hm
        obtain ⟨h1, h2⟩ := mem_flat_of_paired h
        exact ⟨(List.eraseIdx_subset) (hp.subset h1), (List.eraseIdx_subset) (hp.subset h2)⟩
      rw [allPairsRec, List.pairwise_flatMap]
      constructor
      · intro i _
        rw [List.pairwise_map]
        have hI := ih _ (hlen i) ((List.eraseIdx_sublist _ _).nodup hnd')
        refine List.Pairwise.imp_of_mem ?_ hI
        rintro m m' hm hm' ⟨x, y, h1, h2⟩
        obtain ⟨hx, hy⟩ := hsub i m hm x y h1
        refine ⟨x, y, ?_, ?_⟩
        · rcases h1 with h | h
          · exact Or.inl (List.mem_cons_of_mem _ h)
          · exact Or.inr (List.mem_cons_of_mem _ h)
        · rintro (h | h)
          · rcases List.mem_cons.1 h with h | h
            · have := (Prod.mk.inj h).1; subst this; exact ha hx
            · exact h2 (Or.inl h)
          · rcases List.mem_cons.1 h with h | h
            · have := (Prod.mk.inj h).1; subst this; exact ha hy
            · exact h2 (Or.inr h)
      · refine (List.pairwise_iff_getElem.2 ?_)
        intro i j hi hj hij v hv w hw
        obtain ⟨m, hm, rfl⟩ := List.mem_map.1 hv
        obtain ⟨m', hm', rfl⟩ := List.mem_map.1 hw
        simp only [List.getElem_finRange] at *
        refine ⟨a, (b :: rest)[i]'(by simpa using hi), Or.inl ?_, ?_⟩
        · exact List.mem_cons_self
        · have hi' : i < (b :: rest).length := by simpa using hi
          have hj' : j < (b :: rest).length := by simpa using hj
          rintro (h | h)
          · rcases List.mem_cons.1 h with h | h
            · have h5 := (Prod.mk.inj h).2
              simp only [Fin.getElem_fin, Fin.val_cast] at h5
              have := (List.Nodup.getElem_inj_iff hnd' (hi := hi') (hj := hj')).1 h5
              omega
            · exact ha (hsub _ m' hm' _ _ (Or.inl h)).1
          · rcases List.mem_cons.1 h with h | h
            · have h5 := (Prod.mk.inj h).1
              apply ha; rw [← h5]; exact List.getElem_mem _
            · exact ha (hsub _ m' hm' _ _ (Or.inr h)).1

theorem allPairsRec_length (k : Nat) (l : List α) (hl : l.length = 2 * k) :
    (allPairsRec l).length = Nat.doubleFactorial (2 * k - 1) := by
  induction k generalizing l with
  | zero =>
    have : l = [] := List.eq_nil_of_length_eq_zero (by omega)
    subst this; simp [allPairsRec]
  | succ k ih =>
    match l, hl with
    | a :: b :: rest, hl =>
      rw [allPairsRec, List.length_flatMap]
      have hlen : ∀ i : Fin (rest.length + 1), ((b :: rest).eraseIdx i).length = 2 * k := by
        intro i
        have := i.isLt
        rw [List.length_eraseIdx_of_lt (by simp; omega)]
        simp at hl ⊢; omega
      have : ∀ i : Fin (rest.length + 1), ((allPairsRec ((b :: rest).eraseIdx i)).map ((a, (b :: rest)[i]) :: ·)).length
          = Nat.doubleFactorial (2 * k - 1) := by
        intro i; rw [List.length_map]; exact ih _ (hlen i)
      rw [List.map_congr_left (fun i _ => this i)]
      simp only [List.map_const', List.length_finRange, List.sum_replicate, smul_eq_mul]
      have hr : rest.length + 1 = 2 * k + 1 := by simp at hl; omega
      rw [hr]
      cases k with
      | zero => simp
      | succ k =>
        have : 2 * (k + 1 + 1) - 1 = (2 * k + 1) + 2 := by omega
        rw [this, Nat.doubleFactorial_add_two]
        congr 1

/-! argsort stability -/

theorem pair_sublist_of_lt (l : List α) (b a : Nat) (hb : b < l.length) (ha : a < l.length) (h : b < a) :
    [l[b], l[a]].Sublist l := by
  have e : l.take a ++ l.drop a = l := List.take_append_drop a l
  have h1 : [l[b]].Sublist (l.take a) := by
    rw [List.singleton_sublist]
    exact List.mem_take_iff_getElem.2 ⟨b, by omega, rfl⟩
  have h2 : [l[a]].Sublist (l.drop a) := by
    rw [List.singleton_sublist, List.drop_eq_getElem_cons ha]; exact List.mem_cons_self
  have := h1.append h2
  rwa [e] at this

theorem argsort2D_stable (rows : List (List Int)) :
    (rows.zipIdx.mergeSort (fun a b => rowLe a.1 b.1)).Pairwise
      (fun a b => rowLe a.1 b.1 = true ∧ (a.1 = b.1 → a.2 < b.2)) := by
  have hs := sorted_mergeSort_key rows.zipIdx (fun p => p.1)
  have hsnd : (rows.zipIdx.map (·.2)) = List.range' 0 rows.length := by simp
  have hnd : rows.zipIdx.Nodup := by
    apply List.Nodup.of_map (fun p => p.2)
    rw [hsnd]; exact List.nodup_range'
  have hperm := List.mergeSort_perm rows.zipIdx (fun a b => rowLe a.1 b.1)
  have hnd2 := hperm.nodup_iff.2 hnd
  have hzlt : rows.zipIdx.Pairwise (fun a b => a.2 < b.2) := by
    rw [← List.pairwise_map (f := fun (p : List Int × Nat) => p.2) (R := fun a b => a < b), hsnd]
    exact List.pairwise_lt_range'
  set L := rows.zipIdx.mergeSort (fun a b => rowLe a.1 b.1) with hL
  rw [List.pairwise_iff_getElem] at hs ⊢
  intro i j hi hj hij
  refine ⟨hs i j hi hj hij, ?_⟩
  intro heq
  by_contra hcon
  have hmi : L[i] ∈ rows.zipIdx := hperm.subset (List.getElem_mem _)
  have hmj : L[j] ∈ rows.zipIdx := hperm.subset (List.getElem_mem _)
  obtain ⟨a, ha, hae⟩ := List.getElem_of_mem hmi
  obtain ⟨b, hb, hbe⟩ := List.getElem_of_mem hmj
  rw [List.pairwise_iff_getElem] at hzlt
  have hab : b < a := by
    rcases lt_trichotomy a b with h | h | h
    · have := hzlt a b ha hb h
      rw [hae, hbe] at this; omega
    · subst h
      rw [hae] at hbe
      have := (List.Nodup.getElem_inj_iff hnd2).1 hbe
      omega
    · exact h
  have hsub : [L[j], L[i]].Sublist rows.zipIdx := by
    rw [← hae, ← hbe]
    exact pair_sublist_of_lt _ b a hb ha hab
  have h2 := List.pair_sublist_mergeSort (le := fun a b => rowLe a.1 b.1)
    (by intro a b c; exact rowLe_trans _ _ _) (by intro a b; exact rowLe_total _ _)
    (a := L[j]) (b := L[i]) (by rw [heq]; exact rowLe_refl _) hsub
  rw [← hL] at h2
  obtain ⟨f, hf⟩ := List.sublist_iff_exists_fin_orderEmbedding_get_eq.1 h2
  have f0 := hf ⟨0, by simp⟩
  have f1 := hf ⟨1, by simp⟩
  have flt : f ⟨0, by simp⟩ < f ⟨1, by simp⟩ := f.strictMono (by simp)
  simp only [List.get_eq_getElem, List.getElem_cons_zero, List.getElem_cons_succ] at f0 f1
  have e0 := (List.Nodup.getElem_inj_iff hnd2).1 f0
  have e1 := (List.Nodup.getElem_inj_iff hnd2).1 f1
  have : (f ⟨0, by simp⟩ : Nat) < (f ⟨1, by simp⟩ : Nat) := flt
  omega

/-! det -/

theorem eraseIdx_ofFn {R : Type} (D : Nat) (f : Fin (D+1) → R) (i : Fin (D+1)) :
    (List.ofFn f).eraseIdx i = List.ofFn (fun k => f (i.succAbove k)) := by
  have hi := i.isLt
  apply List.ext_getElem
  · rw [List.length_eraseIdx_of_lt (by simp; omega)]; simp
  · intro j h1 h2
    rw [List.getElem_eraseIdx]
    simp only [List.getElem_ofFn]
    split
    · rename_i h
      congr 1
      rw [Fin.succAbove_of_castSucc_lt _ _ (by simp [Fin.lt_def]; exact h)]
      rfl
    · rename_i h
      congr 1
      rw [Fin.succAbove_of_le_castSucc _ _ (by simp [Fin.le_def]; omega)]
      rfl

theorem det_fold {R : Type} [CommRing R] (t : Nat → R) (k : Nat) :
    (List.range (k+1)).foldl (fun result i =>
      if i = 0 then t i else if i % 2 = 0 then result + t i else result - t i) 0
    = ∑ i ∈ Finset.range (k+1), (-1)^i * t i := by
  induction k with
  | zero => simp
  | succ k ih =>
    rw [List.range_succ, List.foldl_append, ih, Finset.sum_range_succ _ (k+1)]
    simp only [List.foldl_cons, List.foldl_nil]
    rw [if_neg (by omega)]
    split
    · rename_i h
      rw [Even.neg_one_pow (Nat.even_iff.2 h)]; ring
    · rename_i h
      rw [Odd.neg_one_pow (Nat.odd_iff.2 (by omega))]; ring

theorem detRec_ofFn {R : Type} [CommRing R] (D : Nat) (M : Matrix (Fin (D+1)) (Fin (D+1)) R) :
    detRec (D+1) (List.ofFn (fun i => List.ofFn (M i))) = M.det := by
  induction D with
  | zero => simp [detRec]
  | succ D ih =>
    rw [detRec, Matrix.det_succ_row_zero]
    · simp only
      rw [det_fold (fun i => ((List.ofFn (fun i => List.ofFn (M i))).headD []).getD i 0 *
        detRec (D+1) (((List.ofFn (fun i => List.ofFn (M i))).drop 1).map (fun row => row.eraseIdx i)))]
      rw [Finset.sum_range]
      apply Finset.sum_congr rfl
      intro i _
      have hrow : ((List.ofFn (fun i => List.ofFn (M i))).headD []).getD (↑i) 0 = M 0 i := by
        rw [List.ofFn_succ, List.headD_cons, List.getD_eq_getElem _ _ (by rw [List.length_ofFn]; exact i.isLt)]
        rw [List.getElem_ofFn]
      have hsub : ((List.ofFn (fun i => List.ofFn (M i))).drop 1).map (fun row => row.eraseIdx i)
          = List.ofFn (fun r : Fin (D+1) => List.ofFn (M.submatrix Fin.succ i.succAbove r)) := by
        rw [List.ofFn_succ, List.drop_one, List.tail_cons, List.map_ofFn]
        congr 1
        funext r
        simp only [Function.comp]
        rw [eraseIdx_ofFn]; rfl
      rw [hrow, hsub, ih]
      ring
    · simp

end Misc
end SecDec
