import Mathlib.Data.Fintype.Perm
import Mathlib.Data.Set.Finite.Lattice
import Mathlib.Data.Set.Finite.List
import Mathlib.Data.List.Permutation
import Verif.Proof.MatrixSortPak
namespace SecDec.MatrixSort

/-! ### light_Pak_sort -/

theorem argsort2D_head {rows : List (List Int)} (h : rows ≠ []) :
    ∃ k, (argsort2D rows).head? = some k ∧ k < rows.length := by
  have hp := argsort2D_perm_range rows
  cases hL : argsort2D rows with
  | nil =>
    rw [hL] at hp
    have := hp.length_eq
    simp at this
    exact absurd (List.length_eq_zero_iff.1 this.symm) h
  | cons k t =>
    rw [hL] at hp
    exact ⟨k, rfl, List.mem_range.1 (hp.mem_iff.1 (by simp))⟩

theorem lightStep_perm {n : Nat} {M : Mat} (hM : HasCols n M) {i : Nat} (h1 : 1 ≤ i) (hi : i < n) :
    ∃ R, lightStep n M i = some R ∧ SameUpToPermutation n M R := by
  unfold lightStep
  simp only []
  set perms := (List.range' i (n - i)).map (fun j => sortRows (swapCols i j M)) with hp
  have hne : perms.map (transpose n) ≠ [] := by
    intro h
    have := congrArg List.length h
    simp [hp] at this; omega
  obtain ⟨k, hk, hlt⟩ := argsort2D_head (rows := (perms.map (transpose n)).map List.flatten)
    (by simpa using hne)
  have hlt' : k < perms.length := by simpa using hlt
  refine ⟨perms[k], ?_, ?_⟩
  · unfold argsortND
    rw [hk]
    simp [hlt']
  · have hm : perms[k] ∈ perms := List.getElem_mem hlt'
    obtain ⟨j, hj, hj2⟩ := List.mem_map.1 hm
    rw [← hj2]
    have hj' := List.mem_range'_1.1 hj
    exact permutedBy_sort_swap ⟨i, hi⟩ ⟨j, by omega⟩
      (fixesFirst_swap _ _ (by simp; omega) (by simp; omega)) hM

theorem lightFold_perm {n : Nat} (d i : Nat) (h1 : 1 ≤ i) (hd : i + d ≤ n) (M : Mat)
    (hM : HasCols n M) :
    ∃ R, (List.range' i d).foldlM (lightStep n) M = some R ∧ SameUpToPermutation n M R := by
  induction d generalizing i M with
  | zero => exact ⟨M, rfl, PermutedBy.refl fixesFirst_one hM⟩
  | succ d ih =>
    obtain ⟨R1, e1, p1⟩ := lightStep_perm hM h1 (show i < n by omega)
    obtain ⟨R, e, p⟩ := ih (i+1) (by omega) (by omega) R1 p1.hasCols
    refine ⟨R, ?_, PermutedBy.trans fixesFirst_mul p1 p⟩
    rw [List.range'_succ, List.foldlM_cons, e1]
    exact e

/-! ### iterative_sort -/

theorem takeIdx_range {α : Type} (l : List α) : takeIdx l (List.range l.length) = l := by
  have h : l.zipIdx.map (·.2) = List.range l.length := by simp [List.range_eq_range']
  have h2 : l.zipIdx.map (·.1) = l := by simp
  unfold takeIdx
  rw [← h, List.filterMap_map]
  conv_rhs => rw [← h2, ← List.filterMap_eq_map]
  apply List.filterMap_congr
  intro p hp
  obtain ⟨a, i⟩ := p
  simpa using List.mk_mem_zipIdx_iff_getElem?.1 hp

theorem argsort2D_of_sorted {rows : List (List Int)}
    (h : rows.Pairwise (fun a b => rowLe a b = true)) : argsort2D rows = List.range rows.length := by
  unfold argsort2D
  rw [List.mergeSort_of_pairwise]
  · simp [List.range_eq_range']
  · have h2 : rows.zipIdx.map (·.1) = rows := by simp
    rw [← h2] at h
    exact (List.pairwise_map.1 h)

theorem sorted_of_takeIdx_eq {rows : List (List Int)} (h : takeIdx rows (argsort2D rows) = rows) :
    rows.Pairwise (fun a b => rowLe a b = true) := by
  rw [takeIdx_argsort2D] at h
  rw [← h]
  exact sorted_sort rows

theorem argsort2D_eq_range_iff (rows : List (List Int)) :
    argsort2D rows = List.range rows.length ↔ rows.Pairwise (fun a b => rowLe a b = true) := by
  constructor
  · intro h
    apply sorted_of_takeIdx_eq
    rw [h, takeIdx_range]
  · exact argsort2D_of_sorted

/-- sorting rows makes the row-major sequence of entries smaller -/
theorem flatten_sorted_le {n : Nat} {S M : Mat} (hp : S.Perm M) (hM : HasCols n M)
    (hs : S.Pairwise (fun a b => rowLe a b = true)) : rowLe S.flatten M.flatten = true := by
  induction S generalizing M with
  | nil =>
    rw [List.nil_perm] at hp
    subst hp; rfl
  | cons s S ih =>
    cases M with
    | nil => simp at hp
    | cons m M =>
      simp only [List.flatten_cons]
      have hsl : s.length = n := hM s (hp.mem_iff.1 (by simp))
      have hml : m.length = n := hM m (by simp)
      rw [List.pairwise_cons] at hs
      by_cases h : s = m
      · subst h
        rw [rowLe_append_left]
        exact ih (List.perm_cons _ |>.1 hp) (fun r hr => hM r (List.mem_cons_of_mem _ hr)) hs.2
      · apply rowLe_append_of_ne (by rw [hsl, hml]) _ h
        have : m ∈ s :: S := hp.mem_iff.2 (by simp)
        rcases List.mem_cons.1 this with e | e
        · exact absurd e.symm h
        · exact hs.1 m e

theorem rowLe_getD {k : Nat} {s l : List Int} (hs : k < s.length) (hl : k < l.length)
    (ht : s.take k = l.take k) (h : rowLe s l = true) : s.getD k 0 ≤ l.getD k 0 := by
  induction k generalizing s l with
  | zero =>
    cases s with
    | nil => simp at hs
    | cons a s =>
      cases l with
      | nil => simp at hl
      | cons b l =>
        simp only [rowLe] at h
        simp only [List.getD_cons_zero]
        by_contra hc
        rw [if_neg (by omega), if_pos (by omega)] at h
        cases h
  | succ k ih =>
    cases s with
    | nil => simp at hs
    | cons a s =>
      cases l with
      | nil => simp at hl
      | cons b l =>
        simp only [List.take_succ_cons, List.cons.injEq] at ht
        obtain ⟨rfl, ht⟩ := ht
        simp only [rowLe, lt_self_iff_false, if_false] at h
        simp only [List.getD_cons_succ]
        exact ih (by simpa using hs) (by simpa using hl) ht h

/-- the first column in which a sorted list of rows can differ gets smaller -/
theorem column_sorted_le {k : Nat} {S L : Mat} (hp : S.Perm L) (hL : HasCols (k+1) L)
    (hs : S.Pairwise (fun a b => rowLe a b = true))
    (ht : S.map (List.take k) = L.map (List.take k)) :
    rowLe (column k S) (column k L) = true := by
  induction S generalizing L with
  | nil =>
    rw [List.nil_perm] at hp
    subst hp; rfl
  | cons s S ih =>
    cases L with
    | nil => simp at hp
    | cons l L =>
      have hsl : s.length = k+1 := hL s (hp.mem_iff.1 (by simp))
      have hll : l.length = k+1 := hL l (by simp)
      simp only [List.map_cons, List.cons.injEq] at ht
      rw [List.pairwise_cons] at hs
      have hle : rowLe s l = true := by
        have : l ∈ s :: S := hp.mem_iff.2 (by simp)
        rcases List.mem_cons.1 this with e | e
        · rw [e]; exact rowLe_refl _
        · exact hs.1 l e
      have hk := rowLe_getD (by omega) (by omega) ht.1 hle
      simp only [column, List.map_cons, rowLe]
      split
      · rfl
      · rename_i hlt
        rw [if_neg (by omega)]
        have heq : s.getD k 0 = l.getD k 0 := by omega
        have : s = l := by
          rw [← List.take_of_length_le (l := s) (i := k+1) (by omega),
            ← List.take_of_length_le (l := l) (i := k+1) (by omega),
            List.take_succ_eq_append_getElem (by omega), List.take_succ_eq_append_getElem (by omega),
            ht.1]
          rw [List.getD_eq_getElem _ _ (by omega), List.getD_eq_getElem _ _ (by omega)] at heq
          rw [heq]
        subst this
        exact ih (List.perm_cons _ |>.1 hp) (fun r hr => hL r (List.mem_cons_of_mem _ hr)) hs.2 ht.2

theorem column_take {k j : Nat} (h : k < j) (N : Mat) : column k (N.map (List.take j)) = column k N := by
  unfold column
  rw [List.map_map]
  apply List.map_congr_left
  intro r _
  simp [List.getD, h]

theorem take_eq_of_colsKey {k : Nat} {A B : Mat} (hl : A.length = B.length)
    (hA : ∀ r ∈ A, k ≤ r.length) (hB : ∀ r ∈ B, k ≤ r.length) (h : colsKey k A = colsKey k B) :
    A.map (List.take k) = B.map (List.take k) := by
  rw [colsKey_take k A, colsKey_take k B] at h
  refine colsKey_inj (n := k) (by simpa using hl) ?_ ?_ h
  · intro r hr
    obtain ⟨r', hr', rfl⟩ := List.mem_map.1 hr
    simp [hA r' hr']
  · intro r hr
    obtain ⟨r', hr', rfl⟩ := List.mem_map.1 hr
    simp [hB r' hr']

theorem colsKey_cons_eq {k : Nat} {c : List Int} {A B : Mat} (hl : A.length = B.length)
    (h : colsKey k (c :: A) = colsKey k (c :: B)) : colsKey k A = colsKey k B := by
  induction k with
  | zero => simp [colsKey, transpose]
  | succ k ih =>
    obtain ⟨h1, h2⟩ := (colsKey_succ_eq_iff (by simpa using hl)).1 h
    refine (colsKey_succ_eq_iff hl).2 ⟨ih h1, ?_⟩
    simpa [column] using h2

/-- sorting the columns after a fixed first one makes the row-major sequence smaller -/
theorem colsKey_sorted_le {r : Nat} {c : List Int} {S L : Mat} (hp : S.Perm L) (hL : HasCols r L)
    (hs : S.Pairwise (fun a b => rowLe a b = true)) (k : Nat) (hk : k ≤ r) :
    rowLe (colsKey k (c :: S)) (colsKey k (c :: L)) = true := by
  induction k with
  | zero => simp [colsKey, transpose, rowLe]
  | succ k ih =>
    have hlen := hp.length_eq
    have hS : HasCols r S := HasCols.perm hp.symm hL
    have ih := ih (by omega)
    rw [colsKey_succ, colsKey_succ]
    by_cases h : colsKey k (c :: S) = colsKey k (c :: L)
    · rw [h, rowLe_append_left]
      have h1 := take_eq_of_colsKey hlen (fun r' hr => by rw [hS r' hr]; omega)
        (fun r' hr => by rw [hL r' hr]; omega) (colsKey_cons_eq hlen h)
      have h2 := column_sorted_le (k := k) (S := S.map (List.take (k+1)))
        (L := L.map (List.take (k+1))) (hp.map _) ?_ ?_ ?_
      · rw [column_take (by omega), column_take (by omega)] at h2
        simpa [column, rowLe] using h2
      · intro r' hr'
        obtain ⟨r'', hr'', rfl⟩ := List.mem_map.1 hr'
        simp [hL r'' hr'']; omega
      · rw [List.pairwise_map]
        exact hs.imp (fun h => rowLe_take _ h)
      · rw [List.map_map, List.map_map]
        have e : (List.take k ∘ List.take (k+1) : List Int → List Int) = List.take k := by
          funext x; simp [List.take_take]
        rw [e]; exact h1
    · exact rowLe_append_of_ne (by rw [colsKey_length, colsKey_length]; simp [hlen]) ih h

theorem transpose_hasCols (n : Nat) (M : Mat) : HasCols M.length (transpose n M) := by
  intro r hr
  obtain ⟨c, _, rfl⟩ := List.mem_map.1 hr
  exact column_length c M

theorem transpose_getD (n : Nat) (M : Mat) (t : Nat) (ht : t < M.length) (hM : HasCols n M) :
    (transpose n M).map (fun c => c.getD t 0) = M[t] := by
  have hl := hM M[t] (List.getElem_mem ht)
  apply List.ext_getElem
  · simp [transpose, hl]
  · intro c h1 h2
    simp [transpose, column, ht, h2]

theorem transpose_transpose (n : Nat) (M : Mat) (hM : HasCols n M) :
    transpose M.length (transpose n M) = M := by
  apply List.ext_getElem
  · simp [transpose]
  · intro t h1 h2
    have := transpose_getD n M t h2 hM
    simpa [transpose, column] using this

/-- the second half of one pass -/
def sortCols (n : Nat) (M : Mat) : Mat :=
  M.map (fun row => row.take 1 ++ takeIdx (row.drop 1) (argsort2D (transpose n M).tail))

theorem sortCols_eq_transpose {n : Nat} (hn : 1 ≤ n) {M : Mat} (hM : HasCols n M) :
    sortCols n M = transpose M.length
      (column 0 M :: takeIdx (transpose n M).tail (argsort2D (transpose n M).tail)) := by
  set key := argsort2D (transpose n M).tail
  apply List.ext_getElem
  · simp [transpose, sortCols]
  · intro t h1 h2
    have ht : t < M.length := by simpa [sortCols] using h1
    have hrow := transpose_getD n M t ht hM
    have htr : transpose n M = column 0 M :: (transpose n M).tail := by
      obtain ⟨m, rfl⟩ := Nat.exists_eq_add_of_le' hn
      simp [transpose, List.range_succ_eq_map]
    rw [htr, List.map_cons] at hrow
    simp only [sortCols, List.getElem_map, transpose, column, List.getElem_range, List.map_cons]
    rw [← takeIdx_map]
    have e1 : M[t].take 1 = [(List.map (fun row => row.getD 0 0) M).getD t 0] := by
      rw [← hrow]; simp [column]
    have e2 : M[t].drop 1 = (transpose n M).tail.map (fun c => c.getD t 0) := by
      rw [← hrow]; simp
    rw [e1, e2]
    rfl

theorem sortCols_flatten_le {n : Nat} (hn : 1 ≤ n) {M : Mat} (hM : HasCols n M) :
    rowLe (sortCols n M).flatten M.flatten = true := by
  have htr : transpose n M = column 0 M :: (transpose n M).tail := by
    obtain ⟨m, rfl⟩ := Nat.exists_eq_add_of_le' hn
    simp [transpose, List.range_succ_eq_map]
  have h1 : M.flatten = colsKey M.length (column 0 M :: (transpose n M).tail) := by
    rw [← htr, colsKey, transpose_transpose n M hM]
  rw [sortCols_eq_transpose hn hM, h1, takeIdx_argsort2D]
  refine colsKey_sorted_le (List.mergeSort_perm _ _) ?_ (sorted_sort _) _ (le_refl _)
  intro r hr
  exact transpose_hasCols n M r (List.mem_of_mem_tail hr)

theorem transpose_tail_length (n : Nat) (M : Mat) : (transpose n M).tail.length = n - 1 := by
  simp [transpose]

/-- a permutation of the columns after the first as an `Equiv.Perm` -/
theorem exists_perm_of_key {n : Nat} (key : List Nat) (hk : key.Perm (List.range (n-1))) :
    ∃ σ : Equiv.Perm (Fin n), FixesFirst σ ∧ ∀ row : List Int, row.length = n →
      permuteCols σ row = row.take 1 ++ takeIdx (row.drop 1) key := by
  have hlen : key.length = n - 1 := by simpa using hk.length_eq
  have hmem : ∀ x ∈ key, x < n - 1 := fun x hx => List.mem_range.1 (hk.mem_iff.1 hx)
  have hnd : key.Nodup := hk.nodup_iff.2 List.nodup_range
  let f : Fin n → Fin n := fun c =>
    if h : c.val = 0 then c
    else ⟨key[c.val - 1]'(by have := c.2; omega) + 1, by
      have := hmem (key[c.val - 1]'(by have := c.2; omega)) (List.getElem_mem _); omega⟩
  have hinj : Function.Injective f := by
    intro a b hab
    simp only [f] at hab
    split at hab <;> split at hab
    · exact hab
    · rename_i h1 h2
      have := congrArg Fin.val hab
      simp at this; omega
    · rename_i h1 h2
      have := congrArg Fin.val hab
      simp at this; omega
    · rename_i h1 h2
      have h3 := congrArg Fin.val hab
      simp only [Nat.add_right_cancel_iff] at h3
      have := (List.Nodup.getElem_inj_iff hnd).1 h3
      exact Fin.ext (by omega)
  let σ : Equiv.Perm (Fin n) := Equiv.ofBijective f (Finite.injective_iff_bijective.1 hinj)
  refine ⟨σ, ?_, ?_⟩
  · intro c hc
    simp [σ, f, hc]
  · intro row hrow
    have htake : takeIdx (row.drop 1) key = key.map (fun i => row.getD (i+1) 0) := by
      unfold takeIdx
      rw [← List.filterMap_eq_map]
      apply List.filterMap_congr
      intro x hx
      have := hmem x hx
      simp [List.getElem?_eq_getElem (show x + 1 < row.length by omega)]
    rw [htake]
    apply List.ext_getElem
    · simp [permuteCols, hlen, hrow]; omega
    · intro c h1 h2
      have hc : c < n := by simpa [permuteCols] using h1
      simp only [permuteCols, List.getElem_ofFn, σ, Equiv.ofBijective_apply, f]
      by_cases h0 : c = 0
      · subst h0
        have : 0 < (row.take 1).length := by simp; omega
        rw [List.getElem_append_left this]
        simp [List.getElem?_eq_getElem (show 0 < row.length by omega)]
      · have hl1 : (row.take 1).length = 1 := by simp; omega
        rw [List.getElem_append_right (by omega)]
        simp [h0, hl1]

theorem sortCols_same {n : Nat} {M : Mat} (hM : HasCols n M) :
    SameUpToPermutation n M (sortCols n M) := by
  have hk := argsort2D_perm_range (transpose n M).tail
  rw [transpose_tail_length] at hk
  obtain ⟨σ, h1, h2⟩ := exists_perm_of_key _ hk
  refine ⟨σ, h1, ?_⟩
  rw [show M.map (permuteCols σ) = sortCols n M from
    List.map_congr_left (fun r hr => h2 r (hM r hr))]

theorem sortCols_eq_self_iff {n : Nat} (hn : 1 ≤ n) {M : Mat} (hM : HasCols n M) :
    sortCols n M = M ↔ (transpose n M).tail.Pairwise (fun a b => rowLe a b = true) := by
  have htr : transpose n M = column 0 M :: (transpose n M).tail := by
    obtain ⟨m, rfl⟩ := Nat.exists_eq_add_of_le' hn
    simp [transpose, List.range_succ_eq_map]
  constructor
  · intro h
    apply sorted_of_takeIdx_eq
    rw [sortCols_eq_transpose hn hM] at h
    set X := column 0 M :: takeIdx (transpose n M).tail (argsort2D (transpose n M).tail) with hX
    have hXc : HasCols M.length X := by
      intro r hr
      rcases List.mem_cons.1 hr with rfl | hr
      · exact column_length _ _
      · rw [takeIdx_argsort2D, List.mem_mergeSort] at hr
        exact transpose_hasCols n M r (List.mem_of_mem_tail hr)
    have hXl : X.length = n := by
      rw [hX, takeIdx_argsort2D]; simp [transpose]; omega
    have h2 := transpose_transpose M.length X hXc
    rw [hXl, h] at h2
    rw [htr] at h2
    have := congrArg List.tail h2
    simpa [hX] using this.symm
  · intro h
    rw [sortCols_eq_transpose hn hM, argsort2D_of_sorted h, takeIdx_range, ← htr,
      transpose_transpose n M hM]

theorem iterPass_eq (n : Nat) (M : Mat) : iterPass n M =
    (argsort2D M, argsort2D (transpose n (sortRows M)).tail, sortCols n (sortRows M)) := rfl

theorem iterPass_same {n : Nat} {M : Mat} (hM : HasCols n M) :
    SameUpToPermutation n M (iterPass n M).2.2 := by
  rw [iterPass_eq]
  have h1 : SameUpToPermutation n M (sortRows M) :=
    ⟨1, fixesFirst_one, by rw [map_permuteCols_one M hM]; exact (sortRows_perm M).symm⟩
  exact PermutedBy.trans fixesFirst_mul h1 (sortCols_same h1.hasCols)

theorem flatten_inj {n : Nat} (hn : 1 ≤ n) {A B : Mat} (hA : HasCols n A) (hB : HasCols n B)
    (h : A.flatten = B.flatten) : A = B := by
  induction A generalizing B with
  | nil =>
    cases B with
    | nil => rfl
    | cons b B =>
      have := hB b (by simp)
      have h' := congrArg List.length h
      simp [this] at h'; omega
  | cons a A ih =>
    cases B with
    | nil =>
      have := hA a (by simp)
      have h' := congrArg List.length h
      simp [this] at h'; omega
    | cons b B =>
      simp only [List.flatten_cons] at h
      obtain ⟨rfl, h2⟩ := List.append_inj h (by rw [hA a (by simp), hB b (by simp)])
      rw [ih (fun r hr => hA r (List.mem_cons_of_mem _ hr))
        (fun r hr => hB r (List.mem_cons_of_mem _ hr)) h2]

/-- A pass either finishes the loop without changing the matrix or makes it strictly smaller. -/
theorem iterPass_progress {n : Nat} (hn : 1 ≤ n) {M : Mat} (hM : HasCols n M) :
    (((iterPass n M).1 = List.range M.length ∧ (iterPass n M).2.1 = List.range (n-1)) ∧
      (iterPass n M).2.2 = M ∧ M.Pairwise (fun a b => rowLe a b = true) ∧
      (transpose n M).tail.Pairwise (fun a b => rowLe a b = true)) ∨
    (¬ ((iterPass n M).1 = List.range M.length ∧ (iterPass n M).2.1 = List.range (n-1)) ∧
      rowLe (iterPass n M).2.2.flatten M.flatten = true ∧ (iterPass n M).2.2 ≠ M) := by
  rw [iterPass_eq]
  have hS : HasCols n (sortRows M) := HasCols.perm (sortRows_perm M).symm hM
  have hle1 : rowLe (sortRows M).flatten M.flatten = true :=
    flatten_sorted_le (sortRows_perm M) hM (by rw [sortRows_eq]; exact sorted_sort M)
  have hle2 := sortCols_flatten_le hn hS
  have hle := rowLe_trans _ _ _ hle2 hle1
  by_cases hc : argsort2D M = List.range M.length ∧
      argsort2D (transpose n (sortRows M)).tail = List.range (n-1)
  · left
    refine ⟨hc, ?_⟩
    have h1 := (argsort2D_eq_range_iff M).1 hc.1
    have hSM : sortRows M = M := by
      unfold sortRows; rw [hc.1, takeIdx_range]
    have h2 := hc.2
    rw [← transpose_tail_length n (sortRows M), argsort2D_eq_range_iff, hSM] at h2
    refine ⟨?_, h1, h2⟩
    show sortCols n (sortRows M) = M
    rw [hSM]
    exact (sortCols_eq_self_iff hn hM).2 h2
  · right
    refine ⟨hc, hle, ?_⟩
    intro he
    apply hc
    have he : sortCols n (sortRows M) = M := he
    have hSM : sortRows M = M := by
      apply flatten_inj hn hS hM
      apply rowLe_antisymm _ _ hle1
      rw [he] at hle2
      exact hle2
    have h1 : argsort2D M = List.range M.length := by
      rw [argsort2D_eq_range_iff]
      rw [← hSM, sortRows_eq]; exact sorted_sort M
    refine ⟨h1, ?_⟩
    rw [← transpose_tail_length n (sortRows M), argsort2D_eq_range_iff]
    rw [← sortCols_eq_self_iff hn hS, he, hSM]

theorem finite_same (n : Nat) (M : Mat) : {N : Mat | SameUpToPermutation n M N}.Finite := by
  have : {N : Mat | SameUpToPermutation n M N} ⊆
      ⋃ σ : Equiv.Perm (Fin n), {N : Mat | N ∈ (M.map (permuteCols σ)).permutations} := by
    rintro N ⟨σ, _, h⟩
    simp only [Set.mem_iUnion, Set.mem_ofPred_eq]
    exact ⟨σ, List.mem_permutations.2 h.symm⟩
  refine Set.Finite.subset (Set.finite_iUnion fun σ => ?_) this
  exact List.finite_toSet _

theorem iterativeSort_terminates {n : Nat} (hn : 1 ≤ n) {M : Mat} (hM : HasCols n M) :
    ∃ fuel R, iterativeSort n fuel M = some R ∧ SameUpToPermutation n M R ∧
      R.Pairwise (fun a b => rowLe a b = true) ∧
      (transpose n R).tail.Pairwise (fun a b => rowLe a b = true) := by
  classical
  let T : Finset Mat := (finite_same n M).toFinset
  have hT : ∀ N, N ∈ T ↔ SameUpToPermutation n M N := by intro N; simp [T]
  let below : Mat → Finset Mat := fun N =>
    T.filter (fun A => rowLe A.flatten N.flatten = true ∧ A ≠ N)
  have main : ∀ k N, N ∈ T → (below N).card ≤ k → ∃ fuel R, iterativeSort n fuel N = some R ∧
      SameUpToPermutation n M R ∧ R.Pairwise (fun a b => rowLe a b = true) ∧
      (transpose n R).tail.Pairwise (fun a b => rowLe a b = true) := by
    intro k
    induction k with
    | zero =>
      intro N hN hc
      have hNs := (hT N).1 hN
      rcases iterPass_progress hn hNs.hasCols with ⟨h1, h2, h3, h4⟩ | ⟨h1, h2, h3⟩
      · refine ⟨1, N, ?_, hNs, h3, h4⟩
        rw [iterativeSort]; rw [if_pos h1, h2]
      · exfalso
        have : (iterPass n N).2.2 ∈ below N := by
          simp only [below, Finset.mem_filter]
          exact ⟨(hT _).2 (PermutedBy.trans fixesFirst_mul hNs (iterPass_same hNs.hasCols)), h2, h3⟩
        have := Finset.card_pos.2 ⟨_, this⟩
        omega
    | succ k ih =>
      intro N hN hc
      have hNs := (hT N).1 hN
      rcases iterPass_progress hn hNs.hasCols with ⟨h1, h2, h3, h4⟩ | ⟨h1, h2, h3⟩
      · refine ⟨1, N, ?_, hNs, h3, h4⟩
        rw [iterativeSort]; rw [if_pos h1, h2]
      · have hP : (iterPass n N).2.2 ∈ T :=
          (hT _).2 (PermutedBy.trans fixesFirst_mul hNs (iterPass_same hNs.hasCols))
        have hcard : (below (iterPass n N).2.2).card < (below N).card := by
          apply Finset.card_lt_card
          refine ⟨?_, ?_⟩
          · intro A hA
            simp only [below, Finset.mem_filter] at hA ⊢
            refine ⟨hA.1, rowLe_trans _ _ _ hA.2.1 h2, ?_⟩
            rintro rfl
            apply h3
            exact flatten_inj hn ((hT _).1 hP).hasCols hNs.hasCols
              (rowLe_antisymm _ _ h2 hA.2.1)
          · intro hsub
            have hm : (iterPass n N).2.2 ∈ below N := by
              simp only [below, Finset.mem_filter]
              exact ⟨hP, h2, h3⟩
            have := hsub hm
            simp [below] at this
        obtain ⟨fuel, R, e, h5⟩ := ih _ hP (by omega)
        refine ⟨fuel+1, R, ?_, h5⟩
        rw [iterativeSort]; rw [if_neg h1, e]
  exact main _ M ((hT M).2 (PermutedBy.refl fixesFirst_one hM)) (le_refl _)

end SecDec.MatrixSort
