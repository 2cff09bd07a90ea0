import Verif.Spec.Pinch
import Mathlib.Logic.Relation
/-
The lists after the removal of the lines with the power zero.
-/
namespace SecDec
namespace FromGraph

variable {N A K D S : Type} [DecidableEq N] [DecidableEq K] [Zero K]

/-- connected by the given lines -/
def Conn (Z : List (A × N × N)) : N → N → Prop := Relation.EqvGen (fun a b => ∃ m, (m, a, b) ∈ Z)

/-- a line with renamed vertices -/
def mapLine (r : N → N) (l : A × N × N) : A × N × N := (l.1, r l.2.1, r l.2.2)

/-- the entries of the lines with the power zero -/
def zeros {α K : Type} [DecidableEq K] [Zero K] (powers : List K) (l : List α) : List α :=
  ((powers.zip l).filter (fun q => decide (q.1 = 0))).map Prod.snd

omit [DecidableEq N] in
theorem Conn.mono {Z Z' : List (A × N × N)} (h : ∀ l ∈ Z, l ∈ Z') {a b : N} (hc : Conn Z a b) : Conn Z' a b :=
  by
  induction hc with
  | rel x y h' => obtain ⟨m, hm⟩ := h'; exact Relation.EqvGen.rel _ _ ⟨m, h _ hm⟩
  | refl x => exact Relation.EqvGen.refl _
  | symm x y _ ih => exact Relation.EqvGen.symm _ _ ih
  | trans x y z _ _ ih1 ih2 => exact Relation.EqvGen.trans _ _ _ ih1 ih2

/-- removing one line -/
theorem conn_rename {Z : List (A × N × N)} {m : A} {v1 v2 : N} (a b : N) :
    Conn (Z.map (mapLine (rename v1 v2))) (rename v1 v2 a) (rename v1 v2 b) ↔ Conn ((m, v1, v2) :: Z) a b := by
  have hr : ∀ x, Conn ((m, v1, v2) :: Z) (rename v1 v2 x) x := by
    intro x
    unfold rename
    split
    · rename_i h; subst h
      exact Relation.EqvGen.symm _ _ (Relation.EqvGen.rel _ _ ⟨m, by simp⟩)
    · exact Relation.EqvGen.refl _
  constructor
  · intro h
    have h1 : ∀ x y, Conn (Z.map (mapLine (rename v1 v2))) x y → Conn ((m, v1, v2) :: Z) x y := by
      intro x y hxy
      induction hxy with
      | rel x y h =>
        obtain ⟨k, hk⟩ := h
        obtain ⟨⟨m', c, d⟩, hl, he⟩ := List.mem_map.1 hk
        simp only [mapLine, Prod.mk.injEq] at he
        obtain ⟨-, rfl, rfl⟩ := he
        refine Relation.EqvGen.trans _ _ _ (hr c) (Relation.EqvGen.trans _ d _ (Relation.EqvGen.rel _ _ ⟨m', by simp [hl]⟩)
          (Relation.EqvGen.symm _ _ (hr d)))
      | refl x => exact Relation.EqvGen.refl _
      | symm x y _ ih => exact Relation.EqvGen.symm _ _ ih
      | trans x y z _ _ ih1 ih2 => exact Relation.EqvGen.trans _ _ _ ih1 ih2
    exact Relation.EqvGen.trans _ _ _ (Relation.EqvGen.symm _ _ (hr a)) (Relation.EqvGen.trans _ _ _ (h1 _ _ h) (hr b))
  · intro h
    induction h with
    | rel x y h =>
      obtain ⟨k, hk⟩ := h
      rcases List.mem_cons.1 hk with he | hk
      · simp only [Prod.mk.injEq] at he
        obtain ⟨-, rfl, rfl⟩ := he
        have h1 : rename x y x = y := by simp [rename]
        have h2 : rename x y y = y := by unfold rename; split <;> rfl
        rw [h1, h2]; exact Relation.EqvGen.refl _
      · refine Relation.EqvGen.rel _ _ ⟨k, ?_⟩
        exact List.mem_map.2 ⟨_, hk, rfl⟩
    | refl x => exact Relation.EqvGen.refl _
    | symm x y _ ih => exact Relation.EqvGen.symm _ _ ih
    | trans x y z _ _ ih1 ih2 => exact Relation.EqvGen.trans _ _ _ ih1 ih2

/-- a prefix is treated, the rest is not -/
def keepTo {α : Type} (n : Nat) (powers : List K) (l : List α) : List α := keep (powers.take n) (l.take n) ++ l.drop n

theorem keep_length {α : Type} (powers : List K) (l : List α) (h : powers.length = l.length) :
    (keep powers l).length = (powers.filter (fun p => decide (p ≠ 0))).length := by
  unfold keep
  rw [List.length_map]
  have : powers.filter (fun p => decide (p ≠ 0)) = ((powers.zip l).filter (fun q => decide (q.1 ≠ 0))).map Prod.fst := by
    conv_lhs => rw [← List.map_fst_zip (l₁ := powers) (l₂ := l) (by omega)]
    rw [List.filter_map]; rfl
  rw [this, List.length_map]

theorem keep_snoc {α : Type} (p : List K) (l : List α) (h : p.length = l.length) (k : K) (a : α) :
    keep (p ++ [k]) (l ++ [a]) = keep p l ++ (if k = 0 then [] else [a]) := by
  unfold keep
  rw [List.zip_append h, List.filter_append, List.map_append]
  congr 1
  by_cases hk : k = 0 <;> simp [hk]

theorem zeros_snoc {α : Type} (p : List K) (l : List α) (h : p.length = l.length) (k : K) (a : α) :
    zeros (p ++ [k]) (l ++ [a]) = zeros p l ++ (if k = 0 then [a] else []) := by
  unfold zeros
  rw [List.zip_append h, List.filter_append, List.map_append]
  congr 1
  by_cases hk : k = 0 <;> simp [hk]

theorem keep_map {α β : Type} (f : α → β) (p : List K) (l : List α) : keep p (l.map f) = (keep p l).map f := by
  unfold keep
  rw [List.zip_map_right, List.filter_map, List.map_map, List.map_map]
  rfl

theorem zeros_map {α β : Type} (f : α → β) (p : List K) (l : List α) : zeros p (l.map f) = (zeros p l).map f := by
  unfold zeros
  rw [List.zip_map_right, List.filter_map, List.map_map, List.map_map]
  rfl

theorem take_succ_of {α : Type} {l : List α} {n : Nat} {a : α} (h : l[n]? = some a) : l.take (n+1) = l.take n ++ [a] := by
  rw [List.take_add_one, h]; rfl

theorem drop_of {α : Type} {l : List α} {n : Nat} {a : α} (h : l[n]? = some a) : l.drop n = a :: l.drop (n+1) := by
  obtain ⟨h1, h2⟩ := List.getElem?_eq_some_iff.1 h
  rw [← h2]; exact List.drop_eq_getElem_cons h1

/-- the line `n` stays -/
theorem keepTo_stay {α : Type} {n : Nat} {powers : List K} {l : List α} {k : K} {a : α} (hk : powers[n]? = some k) (ha : l[n]? = some a)
    (h0 : k ≠ 0) : keepTo n powers l = keepTo (n+1) powers l := by
  obtain ⟨h1, -⟩ := List.getElem?_eq_some_iff.1 hk
  obtain ⟨h2, -⟩ := List.getElem?_eq_some_iff.1 ha
  unfold keepTo
  rw [take_succ_of hk, take_succ_of ha, keep_snoc _ _ (by simp; omega), if_neg h0, drop_of ha]
  simp

/-- the line `n` goes -/
theorem keepTo_drop {α : Type} {n : Nat} {powers : List K} {l : List α} {a : α} (hk : powers[n]? = some 0) (ha : l[n]? = some a) :
    keepTo n (dropAt n powers) (dropAt n l) = keepTo (n+1) powers l := by
  obtain ⟨h1, -⟩ := List.getElem?_eq_some_iff.1 hk
  obtain ⟨h2, -⟩ := List.getElem?_eq_some_iff.1 ha
  have ht : ∀ {β : Type} (m : List β), n < m.length → (dropAt n m).take n = m.take n ∧ (dropAt n m).drop n = m.drop (n+1) := by
    intro β m hm
    unfold dropAt
    have : (m.take n).length = n := by simp; omega
    exact ⟨List.take_left' this, List.drop_left' this⟩
  unfold keepTo
  rw [(ht powers h1).1, (ht l h2).1, (ht l h2).2, take_succ_of hk, take_succ_of ha, keep_snoc _ _ (by simp; omega), if_pos rfl]
  simp

/-- **the loop** -/
theorem pinch_loop (n : Nat) : ∀ s : Lines N A K D S, s.powers.length = s.internal.length → s.derivs.length = s.internal.length →
    s.params.length = s.internal.length → s.P = s.internal.length → n ≤ s.internal.length →
    ∃ r : N → N, (∀ a b, r a = r b ↔ Conn (zeros (s.powers.take n) (s.internal.take n)) a b) ∧
      (List.range n).reverse.foldl pinchStep s =
        { internal := (keepTo n s.powers s.internal).map (mapLine r)
          P := (keepTo n s.powers s.internal).length
          powers := keepTo n s.powers s.powers
          derivs := keepTo n s.powers s.derivs
          params := keepTo n s.powers s.params
          ext := s.ext.map r } := by
  induction n with
  | zero =>
    intro s h1 h2 h3 h4 _
    refine ⟨id, fun a b => ?_, ?_⟩
    · constructor
      · rintro rfl; exact Relation.EqvGen.refl _
      · intro h
        have : ∀ a b, Conn (A := A) ([] : List (A × N × N)) a b → a = b := by
          intro a b h
          induction h with
          | rel x y h => obtain ⟨m, hm⟩ := h; simp at hm
          | refl x => rfl
          | symm x y _ ih => exact ih.symm
          | trans x y z _ _ ih1 ih2 => exact ih1.trans ih2
        exact this a b (by simpa [zeros] using h)
    · have hid : mapLine (A := A) (id : N → N) = id := by funext l; rfl
      simp only [List.range_zero, List.reverse_nil, List.foldl_nil, keepTo, List.take_zero, keep, List.zip_nil_left, List.filter_nil,
        List.map_nil, List.nil_append, List.drop_zero, hid, List.map_id, ← h4]
  | succ n ih =>
    intro s h1 h2 h3 h4 hn
    rw [List.range_succ, List.reverse_append, List.reverse_singleton, List.singleton_append, List.foldl_cons]
    have hk : s.powers[n]? = some (s.powers[n]'(by omega)) := List.getElem?_eq_getElem _
    have hi : s.internal[n]? = some (s.internal[n]'(by omega)) := List.getElem?_eq_getElem _
    have hd : s.derivs[n]? = some (s.derivs[n]'(by omega)) := List.getElem?_eq_getElem _
    have hp : s.params[n]? = some (s.params[n]'(by omega)) := List.getElem?_eq_getElem _
    generalize s.powers[n]'(by omega) = k at hk
    generalize s.internal[n]'(by omega) = l at hi
    generalize s.derivs[n]'(by omega) = d at hd
    generalize s.params[n]'(by omega) = x at hp
    by_cases h0 : k = 0
    · subst h0
      obtain ⟨m, v1, v2⟩ := l
      have hstep : pinchStep s n =
          { internal := (dropAt n s.internal).map (mapLine (rename v1 v2))
            P := s.P - 1
            powers := dropAt n s.powers
            derivs := dropAt n s.derivs
            params := dropAt n s.params
            ext := s.ext.map (rename v1 v2) } := by
        unfold pinchStep
        rw [if_pos hk, hi]
        rfl
      have hlen : ∀ {β : Type} (l : List β), l.length = s.internal.length → (dropAt n l).length = s.internal.length - 1 := by
        intro β l hl
        simp only [dropAt, List.length_append, List.length_take, List.length_drop]; omega
      rw [hstep]
      obtain ⟨r, hr, he⟩ := ih
          { internal := (dropAt n s.internal).map (mapLine (rename v1 v2))
            P := s.P - 1
            powers := dropAt n s.powers
            derivs := dropAt n s.derivs
            params := dropAt n s.params
            ext := s.ext.map (rename v1 v2) } (by simp [hlen _ h1, hlen s.internal rfl]) (by simp [hlen _ h2, hlen s.internal rfl])
        (by simp [hlen _ h3, hlen s.internal rfl]) (by simp [hlen s.internal rfl, h4]) (by simp [hlen s.internal rfl]; omega)
      refine ⟨r ∘ rename v1 v2, fun a b => ?_, ?_⟩
      · rw [Function.comp_apply, Function.comp_apply, hr]
        have ht : ∀ {β : Type} (m : List β), n < m.length → (dropAt n m).take n = m.take n := by
          intro β m hm
          unfold dropAt
          exact List.take_left' (by simp; omega)
        simp only
        rw [← List.map_take, ht _ (by omega), ht _ (by omega), zeros_map, conn_rename (m := m)]
        rw [take_succ_of hk, take_succ_of hi, zeros_snoc _ _ (by simp; omega), if_pos rfl]
        constructor
        · exact Conn.mono (by simp; tauto)
        · exact Conn.mono (by simp; tauto)
      · rw [he]
        simp only
        have hkm : keepTo n (dropAt n s.powers) ((dropAt n s.internal).map (mapLine (rename v1 v2))) =
            (keepTo (n+1) s.powers s.internal).map (mapLine (rename v1 v2)) := by
          rw [← keepTo_drop hk hi]
          unfold keepTo
          rw [← List.map_take, ← List.map_drop, keep_map, List.map_append]
        rw [hkm, keepTo_drop hk hk, keepTo_drop hk hd, keepTo_drop hk hp, List.map_map, List.map_map, List.length_map]
        rfl
    · have hstep : pinchStep s n = s := by
        unfold pinchStep
        rw [if_neg]
        rw [hk]; simpa using h0
      rw [hstep]
      obtain ⟨r, hr, he⟩ := ih s h1 h2 h3 h4 (by omega)
      refine ⟨r, fun a b => ?_, ?_⟩
      · rw [hr, take_succ_of hk, take_succ_of hi, zeros_snoc _ _ (by simp; omega), if_neg h0, List.append_nil]
      · rw [he, keepTo_stay hk hi h0, keepTo_stay hk hk h0, keepTo_stay hk hd h0, keepTo_stay hk hp h0]

/-- the result of the loop -/
theorem pinch_eq (s : Lines N A K D S) (hs : s.WellFormed) : ∃ r : N → N, (∀ a b, r a = r b ↔ Conn (zeros s.powers s.internal) a b) ∧
    pinch s = { internal := (keep s.powers s.internal).map (mapLine r)
                P := (keep s.powers s.internal).length
                powers := keep s.powers s.powers
                derivs := keep s.powers s.derivs
                params := keep s.powers s.params
                ext := s.ext.map r } := by
  obtain ⟨h1, h2, h3, h4⟩ := hs
  obtain ⟨r, hr, he⟩ := pinch_loop s.P s (by omega) (by omega) (by omega) (by omega) (by omega)
  have hkt : ∀ {β : Type} (l : List β), l.length = s.P → keepTo s.P s.powers l = keep s.powers l := by
    intro β l hl
    unfold keepTo
    rw [List.take_of_length_le (by omega), List.take_of_length_le (by omega), List.drop_of_length_le (by omega), List.append_nil]
  refine ⟨r, fun a b => ?_, ?_⟩
  · rw [hr, List.take_of_length_le (by omega), List.take_of_length_le (by omega)]
  · unfold pinch
    rw [he, hkt _ (by omega), hkt _ (by omega), hkt _ (by omega), hkt _ (by omega)]

end FromGraph
end SecDec
