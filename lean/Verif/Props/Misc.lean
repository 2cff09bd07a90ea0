import Mathlib.Data.Fin.VecNotation
import Mathlib.LinearAlgebra.Matrix.Notation
import Verif.Proof.MiscPairs
/-!
Properties C09–C12: helpers of `misc.py`.
-/
namespace SecDec
namespace Misc
variable {α : Type}

/-! ### C09 enumeration helpers -/

/-- C09: `powerset(s, min_length, stride)` yields, each exactly as often as it occurs as a
subsequence of `s`, the subsequences of length `min_length + k*stride`, and nothing else. -/
theorem C09_powerset (s : List α) (m st : Nat) (hst : 0 < st) :
    ∃ out, powerset s m st = some out ∧
      out.Perm (s.sublists.filter (fun l => decide (m ≤ l.length ∧ st ∣ l.length - m))) :=
  powerset_perm s m st hst

/-- C09: `stride = 0` raises. -/
theorem C09_powerset_stride_zero (s : List α) (m : Nat) : powerset s m 0 = none := by
  simp [powerset]

/-- C09: shorter subsets are yielded before longer ones. -/
theorem C09_powerset_order (s : List α) (m st : Nat) (hst : 0 < st) (out : List (List α))
    (h : powerset s m st = some out) : out.Pairwise (fun a b => a.length ≤ b.length) := by
  unfold powerset at h
  rw [if_neg (by omega), pyRange_eq st (s.length+1) hst _ _ (by omega), Option.some.injEq] at h
  subst h
  rw [List.pairwise_flatMap]
  have hlen : ∀ r, ∀ x ∈ combinations s r, x.length = r := by
    intro r x hx
    exact List.length_of_sublistsLen ((combinations_perm s r).subset hx)
  constructor
  · intro r _
    refine List.pairwise_of_forall_mem_list ?_
    intro a ha b hb
    rw [hlen r a ha, hlen r b hb]
  · refine ((List.pairwise_lt_range (n := s.length + 1)).filter _).imp ?_
    intro r r' hr x hx y hy
    rw [hlen _ _ hx, hlen _ _ hy]; omega

/-- C09 (documentation defect): the docstring of `powerset` promises sets "that have a multiple of
`stride` elements"; with `min_length = 1, stride = 2` sets with one element are generated. -/
theorem C09_powerset_not_multiple_of_stride :
    ∃ out, powerset [1, 2, 3] 1 2 = some out ∧ [1] ∈ out ∧ ¬ (2 ∣ [1].length) := by
  refine ⟨_, rfl, ?_, ?_⟩ <;> decide

example : 0 < 2 ∧ (powerset [1, 2, 3] 0 2 = some [[], [1, 2], [1, 3], [2, 3]]) := by decide

/-- C09: `rangecomb(low, high)` yields exactly the integer vectors in the box `low ≤ v ≤ high`, each
once, in increasing lexicographic order; it fails exactly if the lengths differ. -/
theorem C09_rangecomb (low high : List Int) :
    (low.length ≠ high.length → rangecomb low high = none) ∧
    (low.length = high.length → ∃ out, rangecomb low high = some out ∧
      (∀ v, v ∈ out ↔ List.Forall₂ (· ≤ ·) low v ∧ List.Forall₂ (· ≤ ·) v high) ∧
      out.Nodup ∧ out.Pairwise (fun a b => rowLe a b = true)) := by
  constructor
  · intro h; unfold rangecomb; rw [if_neg h]
  · intro h
    refine ⟨_, by unfold rangecomb; rw [if_pos h], ?_, ?_⟩
    · intro v
      rw [mem_product]
      clear * - h
      induction low generalizing high v with
      | nil =>
        cases high with
        | nil =>
          simp
        | cons => simp at h
      | cons a low ih =>
        cases high with
        | nil => simp at h
        | cons b high =>
          cases v with
          | nil => simp
          | cons c v =>
            have := ih high (by simpa using h) v
            simp only [List.map_cons, List.zip_cons_cons, List.forall₂_cons, this, mem_arange]
            constructor
            · rintro ⟨⟨h1, h2⟩, h3, h4⟩; exact ⟨⟨h1, h3⟩, by omega, h4⟩
            · rintro ⟨⟨h1, h3⟩, h2, h4⟩; exact ⟨⟨h1, by omega⟩, h3, h4⟩
    · have := product_sorted ((low.zip (high.map (· + 1))).map (fun p => arange p.1 p.2)) (by
        intro l hl
        obtain ⟨p, _, rfl⟩ := List.mem_map.1 hl
        exact arange_sorted _ _)
      exact ⟨this.imp (fun h => h.2), this.imp (fun h => h.1)⟩

example : rangecomb [-1, -2] [0, 0] = some [[-1, -2], [-1, -1], [-1, 0], [0, -2], [0, -1], [0, 0]] := by
  decide

/-- C09: `missing(full, part)` raises exactly if `part` is not contained in `full` as a multiset;
otherwise it returns the multiset difference, in the order of `full`. -/
theorem C09_missing [DecidableEq α] (full part : List α) :
    (missing full part = none ↔ ¬ List.Subperm part full) ∧
    (∀ r, missing full part = some r → (r ++ part).Perm full ∧ r.Sublist full) := by
  refine ⟨⟨missing_none full part, ?_⟩, fun r h => missing_some full part r h⟩
  intro h
  cases hm : missing full part with
  | none => rfl
  | some r =>
    exfalso
    apply h
    obtain ⟨h1, _⟩ := missing_some full part r hm
    exact (List.sublist_append_right r part).subperm.trans h1.subperm

example : missing [1, 2, 3, 1] [1, 2] = some [3, 1] ∧ missing [1, 2, 3] [1, 4] = none := by decide

/-- C09: `all_pairs(l)` for distinct elements: it fails exactly for odd length; every value yielded
is a perfect matching of `l`; every perfect matching (a list of pairs covering `l`) is yielded, up to
the order of pairs and inside pairs; no matching is yielded twice; there are `(2k-1)!!` of them. -/
theorem C09_all_pairs (l : List α) (hnd : l.Nodup) :
    (l.length % 2 = 1 → allPairs l = none) ∧
    (∀ k, l.length = 2 * k → ∃ out, allPairs l = some out ∧
      (∀ m ∈ out, (m.flatMap (fun p => [p.1, p.2])).Perm l) ∧
      (∀ m' : List (α × α), (m'.flatMap (fun p => [p.1, p.2])).Perm l →
        ∃ m ∈ out, ∀ x y, ((x, y) ∈ m ∨ (y, x) ∈ m) ↔ ((x, y) ∈ m' ∨ (y, x) ∈ m')) ∧
      out.Pairwise (fun m m' => ∃ x y, ((x, y) ∈ m ∨ (y, x) ∈ m) ∧ ¬ ((x, y) ∈ m' ∨ (y, x) ∈ m')) ∧
      out.length = Nat.doubleFactorial (2 * k - 1)) := by
  constructor
  · intro h; simp [allPairs, h]
  · intro k hk
    refine ⟨allPairsRec l, by simp [allPairs, hk], ?_, ?_, ?_, ?_⟩
    · exact fun m hm => allPairsRec_sound k l hk m hm
    · exact fun m' hm' => allPairsRec_complete k l hk hnd m' hm'
    · exact allPairsRec_distinct k l hk hnd
    · exact allPairsRec_length k l hk

example : [1, 2, 3, 4].Nodup ∧ [1, 2, 3, 4].length = 2 * 2 := by decide

/-- C09: `chunks(l, n)`: concatenation gives back `l`; every chunk is non-empty; all chunks but the
last have exactly `n` elements (`1` for `n = 0`) and the last at most `n`. -/
theorem C09_chunks (l : List α) (n : Nat) :
    (chunks l n).flatten = l ∧
    ∀ k (hk : k < (chunks l n).length),
      (chunks l n)[k].length ≤ max n 1 ∧ 0 < (chunks l n)[k].length ∧
      (k + 1 < (chunks l n).length → (chunks l n)[k].length = max n 1) := by
  have hn : 0 < (if n = 0 then n + 1 else n) := by split <;> omega
  have hmax : (if n = 0 then n + 1 else n) = max n 1 := by split <;> omega
  unfold chunks
  simp only
  refine ⟨?_, ?_⟩
  · rw [chunksLoop_flatten l _ hn _ 0 (by omega)]; rfl
  · intro k hk
    obtain ⟨h1, h2⟩ := chunksLoop_getElem l _ _ 0 k hk
    rw [h1]
    refine ⟨?_, ?_, ?_⟩
    · rw [List.length_take]; omega
    · rw [List.length_take, List.length_drop]; omega
    · intro hk1
      obtain ⟨_, h4⟩ := chunksLoop_getElem l _ _ 0 (k+1) hk1
      rw [List.length_take, List.length_drop, ← hmax]
      rw [Nat.add_mul] at h4
      omega

example : chunks [1, 2, 3, 4, 5] 2 = [[1, 2], [3, 4], [5]] ∧ chunks [1, 2] 0 = [[1], [2]] := by decide

/-! ### C10 determinant -/

/-- C10: `det(M)` is the determinant, for every non-empty square matrix. -/
theorem C10_det {R : Type} [CommRing R] (D : Nat) (M : Matrix (Fin (D+1)) (Fin (D+1)) R) :
    det (List.ofFn (fun i => List.ofFn (M i))) = some M.det := by
  unfold det
  rw [if_pos]
  · rw [List.length_ofFn, detRec_ofFn]
  · refine ⟨by simp, ?_⟩
    intro r hr
    rw [List.mem_ofFn] at hr
    obtain ⟨i, rfl⟩ := hr
    simp

/-- C10: `det` rejects every non-square array. -/
theorem C10_det_nonsquare {R : Type} [CommRing R] (M : List (List R))
    (h : ∃ r ∈ M, r.length ≠ M.length) : det M = none := by
  unfold det
  rw [if_neg]
  rintro ⟨_, h2⟩
  obtain ⟨r, hr, hne⟩ := h
  exact hne (h2 r hr)

example : det [[1, 2], [3, (4 : Int)]] = some (-2) := by decide
example : ∃ r ∈ [[1, 2], [(3 : Int)]], r.length ≠ 2 := by decide

/-! ### C11 argsort -/

/-- C11: `argsort_2D_array` returns a permutation of the row indices that sorts the rows
lexicographically and keeps equal rows in their original order. -/
theorem C11_argsort (rows : List (List Int)) :
    (argsort2D rows).Perm (List.range rows.length) ∧
    (argsort2D rows).Pairwise (fun i j => ∃ a b, rows[i]? = some a ∧ rows[j]? = some b ∧
      rowLe a b = true ∧ (a = b → i < j)) := by
  refine ⟨argsort2D_perm_range rows, ?_⟩
  unfold argsort2D
  rw [List.pairwise_map]
  refine List.Pairwise.imp_of_mem ?_ (argsort2D_stable rows)
  rintro ⟨a, i⟩ ⟨b, j⟩ ha hb ⟨h1, h2⟩
  rw [List.mem_mergeSort] at ha hb
  exact ⟨a, b, List.mk_mem_zipIdx_iff_getElem?.1 ha, List.mk_mem_zipIdx_iff_getElem?.1 hb, h1, h2⟩

/-- `rowLe` is the lexicographic order on rows of equal length. -/
theorem C11_rowLe_spec (a b : List Int) (h : a.length = b.length) :
    rowLe a b = true ↔ a = b ∨ ∃ k, ∃ (ha : k < a.length) (hb : k < b.length),
      a.take k = b.take k ∧ a[k] < b[k] := by
  induction a generalizing b with
  | nil =>
    have : b = [] := List.eq_nil_of_length_eq_zero (by simpa using h.symm)
    subst this; simp [rowLe]
  | cons x xs ih =>
    cases b with
    | nil => simp at h
    | cons y ys =>
      have h' : xs.length = ys.length := by simpa using h
      rcases lt_trichotomy x y with hxy | hxy | hxy
      · simp only [rowLe, hxy, if_true, true_iff]
        right; exact ⟨0, by simp, by simp, by simp, by simpa using hxy⟩
      · subst hxy
        simp only [rowLe, lt_irrefl, if_false, ih ys h', List.cons.injEq, true_and]
        constructor
        · rintro (h1 | ⟨k, ha, hb, h2, h3⟩)
          · exact Or.inl h1
          · exact Or.inr ⟨k+1, by simpa using ha, by simpa using hb, by simp [h2], by simpa using h3⟩
        · rintro (h1 | ⟨k, ha, hb, h2, h3⟩)
          · exact Or.inl h1
          · cases k with
            | zero => simp at h3
            | succ k =>
              refine Or.inr ⟨k, by simpa using ha, by simpa using hb, by simpa using h2, by simpa using h3⟩
      · have hn : ¬ x < y := by omega
        simp only [rowLe, hn, hxy, if_false, if_true]
        constructor
        · intro h; simp at h
        · rintro (h1 | ⟨k, ha, hb, h2, h3⟩)
          · have := (List.cons.inj h1).1; omega
          · cases k with
            | zero => simp at h3; omega
            | succ k => simp at h2; omega

example : rowLe [1, 2, 3] [2, 0, 0] = true ∧ rowLe [2, 0, 0] [1, 2, 3] = false := by decide

/-! ### C12 rec_subs -/

/-- C12: a value returned by `rec_subs` is obtained by applying the substitution `k ≥ 1` times
(at most `n`), and the last application did not change it; the error is raised exactly if none of
the first `n` applications is without effect. -/
theorem C12_rec_subs {E : Type} (step : E → E) (same : E → E → Bool) (n : Nat) (expr : E) :
    (∀ r, recSubs step same n expr = some r ↔
      ∃ k < n, r = step^[k+1] expr ∧ same r (step^[k] expr) = true ∧
        ∀ j < k, same (step^[j+1] expr) (step^[j] expr) = false) ∧
    (recSubs step same n expr = none ↔ ∀ k < n, same (step^[k+1] expr) (step^[k] expr) = false) := by
  induction n generalizing expr with
  | zero => simp [recSubs]
  | succ n ih =>
    unfold recSubs
    simp only
    by_cases h : same (step expr) expr = true
    · rw [if_pos h]
      constructor
      · intro r
        constructor
        · intro hr
          have : step expr = r := by simpa using hr
          subst this
          exact ⟨0, by omega, rfl, h, by simp⟩
        · rintro ⟨k, hk, hr, hs, hj⟩
          cases k with
          | zero => rw [hr]; rfl
          | succ k =>
            have := hj 0 (by omega)
            simp [h] at this
      · constructor
        · intro hc; simp at hc
        · intro hc
          have := hc 0 (by omega)
          simp [h] at this
    · rw [if_neg h]
      have hf : same (step expr) expr = false := by simpa using h
      obtain ⟨i1, i2⟩ := ih (step expr)
      constructor
      · intro r
        rw [i1 r]
        constructor
        · rintro ⟨k, hk, hr, hs, hj⟩
          refine ⟨k+1, by omega, hr, hs, ?_⟩
          intro j hj'
          cases j with
          | zero => exact hf
          | succ j => exact hj j (by omega)
        · rintro ⟨k, hk, hr, hs, hj⟩
          cases k with
          | zero =>
            exfalso
            rw [hr] at hs
            exact h hs
          | succ k =>
            exact ⟨k, by omega, hr, hs, fun j hj' => hj (j+1) (by omega)⟩
      · rw [i2]
        constructor
        · intro hc k hk
          cases k with
          | zero => exact hf
          | succ k => exact hc k (by omega)
        · intro hc k hk
          exact hc (k+1) (by omega)

/-- C12: with a syntactic equality test the returned value is a fixpoint of the substitution, so no
partially substituted result is returned. -/
theorem C12_rec_subs_fixpoint {E : Type} [DecidableEq E] (step : E → E) (n : Nat) (expr r : E)
    (h : recSubs step (fun a b => decide (a = b)) n expr = some r) : step r = r := by
  obtain ⟨k, _, hr, hs, _⟩ := ((C12_rec_subs step _ n expr).1 r).1 h
  have hs' : r = step^[k] expr := by simpa using hs
  rw [Function.iterate_succ_apply', ← hs'] at hr
  exact hr.symm

example : recSubs (fun n : Nat => n - 1) (fun a b => decide (a = b)) 200 3 = some 0 ∧
    recSubs (fun n : Nat => n + 1) (fun a b => decide (a = b)) 200 3 = none := by decide

end Misc
end SecDec
