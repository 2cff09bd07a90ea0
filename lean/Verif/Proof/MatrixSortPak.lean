import Verif.Proof.MatrixSort
namespace SecDec.MatrixSort

/-! ### lexicographic comparison and concatenation -/

theorem rowLe_append_left (a b b' : List Int) : rowLe (a ++ b) (a ++ b') = rowLe b b' := by
  induction a with
  | nil => rfl
  | cons x xs ih => simp [rowLe, ih]

theorem rowLe_of_append {a a' b b' : List Int} (hl : a.length = a'.length)
    (h : rowLe (a ++ b) (a' ++ b') = true) : rowLe a a' = true := by
  induction a generalizing a' with
  | nil => simp [rowLe]
  | cons x xs ih =>
    cases a' with
    | nil => simp at hl
    | cons y ys =>
      simp only [List.cons_append, rowLe] at h ⊢
      split at h
      · rw [if_pos (by assumption)]
      · rw [if_neg (by assumption)]
        split at h
        · cases h
        · rw [if_neg (by assumption)]
          exact ih (by simpa using hl) h

theorem rowLe_append_of_ne {a a' b b' : List Int} (hl : a.length = a'.length)
    (h : rowLe a a' = true) (hne : a ≠ a') : rowLe (a ++ b) (a' ++ b') = true := by
  induction a generalizing a' with
  | nil => cases a' with
    | nil => exact absurd rfl hne
    | cons => simp at hl
  | cons x xs ih =>
    cases a' with
    | nil => simp at hl
    | cons y ys =>
      simp only [List.cons_append, rowLe] at h ⊢
      split
      · rfl
      · rename_i hxy
        rw [if_neg hxy] at h
        split
        · rename_i hyx
          rw [if_pos hyx] at h; cases h
        · rename_i hyx
          rw [if_neg hyx] at h
          have : x = y := by omega
          subst this
          exact ih (by simpa using hl) h (by intro e; exact hne (by rw [e]))

/-! ### the key of the first `k` columns -/

def colsKey (k : Nat) (N : Mat) : List Int := (transpose k N).flatten

theorem colsKey_succ (k : Nat) (N : Mat) : colsKey (k+1) N = colsKey k N ++ column k N := by
  simp [colsKey, transpose, List.range_succ]

theorem column_length (c : Nat) (N : Mat) : (column c N).length = N.length := by simp [column]

theorem colsKey_length (k : Nat) (N : Mat) : (colsKey k N).length = k * N.length := by
  induction k with
  | zero => simp [colsKey, transpose]
  | succ k ih => rw [colsKey_succ, List.length_append, ih, column_length, Nat.succ_mul]

theorem colsKey_split (k d : Nat) (N : Mat) : ∃ t, colsKey (k+d) N = colsKey k N ++ t := by
  induction d with
  | zero => exact ⟨[], by simp⟩
  | succ d ih =>
    obtain ⟨t, ht⟩ := ih
    refine ⟨t ++ column (k+d) N, ?_⟩
    rw [show k + (d+1) = (k+d)+1 from rfl, colsKey_succ, ht, List.append_assoc]

theorem colsKey_le_prefix {k n : Nat} (hk : k ≤ n) {A B : Mat} (hl : A.length = B.length)
    (h : rowLe (colsKey n A) (colsKey n B) = true) : rowLe (colsKey k A) (colsKey k B) = true := by
  obtain ⟨d, rfl⟩ := Nat.exists_eq_add_of_le hk
  obtain ⟨t, ht⟩ := colsKey_split k d A
  obtain ⟨u, hu⟩ := colsKey_split k d B
  rw [ht, hu] at h
  exact rowLe_of_append (by rw [colsKey_length, colsKey_length, hl]) h

theorem colsKey_eq_prefix {k n : Nat} (hk : k ≤ n) {A B : Mat} (hl : A.length = B.length)
    (h : colsKey n A = colsKey n B) : colsKey k A = colsKey k B := by
  apply rowLe_antisymm
  · exact colsKey_le_prefix hk hl (by rw [h]; exact rowLe_refl _)
  · exact colsKey_le_prefix hk hl.symm (by rw [h]; exact rowLe_refl _)

theorem colsKey_take (k : Nat) (N : Mat) : colsKey k N = colsKey k (N.map (List.take k)) := by
  unfold colsKey transpose column
  congr 1
  apply List.map_congr_left
  intro c hc
  rw [List.map_map]
  apply List.map_congr_left
  intro r _
  have : c < k := by simpa using hc
  simp [List.getD, this]

theorem colsKey_succ_eq_iff {k : Nat} {A B : Mat} (hl : A.length = B.length) :
    colsKey (k+1) A = colsKey (k+1) B ↔ colsKey k A = colsKey k B ∧ column k A = column k B := by
  rw [colsKey_succ, colsKey_succ]
  constructor
  · intro h
    exact List.append_inj h (by rw [colsKey_length, colsKey_length, hl])
  · rintro ⟨h1, h2⟩; rw [h1, h2]

theorem colsKey_inj {n : Nat} {A B : Mat} (hl : A.length = B.length) (hA : HasCols n A)
    (hB : HasCols n B) (h : colsKey n A = colsKey n B) : A = B := by
  have hcol : ∀ c, c < n → column c A = column c B := by
    intro c hc
    have := colsKey_eq_prefix (k := c+1) (n := n) (by omega) hl h
    exact ((colsKey_succ_eq_iff hl).1 this).2
  apply List.ext_getElem hl
  intro r h1 h2
  have la := hA A[r] (List.getElem_mem h1)
  have lb := hB B[r] (List.getElem_mem h2)
  apply List.ext_getElem (by rw [la, lb])
  intro c c1 c2
  have hc := hcol c (by omega)
  have : (column c A)[r]? = (column c B)[r]? := by rw [hc]
  simp only [column, List.getElem?_map, List.getElem?_eq_getElem h1, List.getElem?_eq_getElem h2,
    Option.map_some, Option.some.injEq] at this
  rwa [List.getD_eq_getElem _ _ c1, List.getD_eq_getElem _ _ c2] at this

/-! ### sorted prefixes -/

theorem rowLe_take {a b : List Int} (k : Nat) (h : rowLe a b = true) :
    rowLe (a.take k) (b.take k) = true := by
  induction a generalizing b k with
  | nil => simp [rowLe]
  | cons x xs ih =>
    cases b with
    | nil => simp [rowLe] at h
    | cons y ys =>
      cases k with
      | zero => simp [rowLe]
      | succ k =>
        simp only [List.take_succ_cons, rowLe] at h ⊢
        split at h
        · rw [if_pos (by assumption)]
        · rw [if_neg (by assumption)]
          split at h
          · cases h
          · rw [if_neg (by assumption)]
            exact ih _ h

theorem sortRows_map_take (k : Nat) (A : Mat) :
    (sortRows A).map (List.take k) = sortRows (A.map (List.take k)) := by
  rw [sortRows_eq, sortRows_eq]
  apply sorted_unique
  · exact ((List.mergeSort_perm _ _).map _).trans (List.mergeSort_perm _ _).symm
  · rw [List.pairwise_map]
    exact (sorted_sort A).imp (fun h => rowLe_take k h)
  · exact sorted_sort _

/-- Sorted matrices with the same multiset of row prefixes have the same first columns. -/
theorem colsKey_sort_congr (k : Nat) {A B : Mat}
    (h : A.map (List.take k) = B.map (List.take k)) :
    colsKey k (sortRows A) = colsKey k (sortRows B) := by
  rw [colsKey_take, sortRows_map_take, h, ← sortRows_map_take, ← colsKey_take]

theorem take_permuteCols {n k : Nat} {σ τ : Equiv.Perm (Fin n)} (h : ∀ c : Fin n, c.val < k → σ c = τ c)
    (row : List Int) : (permuteCols σ row).take k = (permuteCols τ row).take k := by
  apply List.ext_getElem
  · simp [permuteCols]
  · intro c h1 h2
    have hc : c < k := by
      have := h1; simp [permuteCols] at this; omega
    simp only [List.getElem_take, permuteCols, List.getElem_ofFn]
    rw [h _ hc]

theorem colsKey_sort_permute {n k : Nat} {σ τ : Equiv.Perm (Fin n)}
    (h : ∀ c : Fin n, c.val < k → σ c = τ c) (M : Mat) :
    colsKey k (sortRows (M.map (permuteCols σ))) = colsKey k (sortRows (M.map (permuteCols τ))) := by
  apply colsKey_sort_congr
  rw [List.map_map, List.map_map]
  exact List.map_congr_left (fun r _ => take_permuteCols h r)

/-! ### keepSmallest -/

theorem takeWhile_eq_filter {α : Type} (le : α → α → Prop) (p : α → Bool) (l : List α)
    (hs : l.Pairwise le) (hp : ∀ x ∈ l, ∀ y ∈ l, le y x → p x = true → p y = true) :
    l.takeWhile p = l.filter p := by
  induction l with
  | nil => rfl
  | cons a as ih =>
    rw [List.pairwise_cons] at hs
    by_cases ha : p a = true
    · rw [List.takeWhile_cons_of_pos ha, List.filter_cons_of_pos ha]
      rw [ih hs.2 (fun x hx y hy => hp x (List.mem_cons_of_mem _ hx) y (List.mem_cons_of_mem _ hy))]
    · rw [List.takeWhile_cons_of_neg ha, List.filter_cons_of_neg ha]
      symm
      rw [List.filter_eq_nil_iff]
      intro b hb hpb
      exact ha (hp b (List.mem_cons_of_mem _ hb) a (by simp) (hs.1 b hb) hpb)

/-- What one step of Pak_sort keeps, when all candidates agree on the columns before `i`. -/
theorem mem_pakStep {n i r : Nat} (hi : i < n) {rem : List Nat} {opts : List Mat} {pfx : List Int}
    (hr : ∀ m ∈ candidates i rem opts, m.length = r)
    (hp : ∀ m ∈ candidates i rem opts, colsKey i m = pfx) (m : Mat) :
    m ∈ pakStep n i rem opts ↔ m ∈ candidates i rem opts ∧
      ∀ m' ∈ candidates i rem opts, rowLe (colsKey (i+1) m) (colsKey (i+1) m') = true := by
  set C := candidates i rem opts with hC
  have hmem : ∀ x, x ∈ sortMats n C ↔ x ∈ C := fun x => mem_sortMats
  have hs : (sortMats n C).Pairwise (fun a b => rowLe (colsKey n a) (colsKey n b) = true) := by
    rw [sortMats_eq]
    exact sorted_mergeSort_key C (fun a => (transpose n a).flatten)
  unfold pakStep
  rw [← hC]
  cases hL : sortMats n C with
  | nil =>
    have : ∀ x, x ∉ C := by intro x hx; rw [← hmem, hL] at hx; simp at hx
    simp [keepSmallest, this]
  | cons f rest =>
    rw [hL] at hs hmem
    have hfC : f ∈ C := (hmem f).1 (by simp)
    have hfmin : ∀ x ∈ C, rowLe (colsKey n f) (colsKey n x) = true := by
      intro x hx
      rw [← hmem] at hx
      rcases List.mem_cons.1 hx with rfl | hx
      · exact rowLe_refl _
      · exact (List.pairwise_cons.1 hs).1 x hx
    have hfmin' : ∀ x ∈ C, rowLe (colsKey (i+1) f) (colsKey (i+1) x) = true := fun x hx =>
      colsKey_le_prefix hi (by rw [hr f hfC, hr x hx]) (hfmin x hx)
    have hcol : ∀ x ∈ C, (column i x == column i f) = true ↔ colsKey (i+1) x = colsKey (i+1) f := by
      intro x hx
      rw [colsKey_succ_eq_iff (by rw [hr f hfC, hr x hx]), beq_iff_eq, hp x hx, hp f hfC]
      simp
    simp only [keepSmallest]
    rw [mem_foldl_addNew, takeWhile_eq_filter _ _ _ hs]
    · simp only [List.not_mem_nil, false_or, List.mem_filter]
      rw [hmem]
      constructor
      · rintro ⟨h1, h2⟩
        refine ⟨h1, fun m' hm' => ?_⟩
        rw [(hcol m h1).1 h2]
        exact hfmin' m' hm'
      · rintro ⟨h1, h2⟩
        exact ⟨h1, (hcol m h1).2 (rowLe_antisymm _ _ (h2 f hfC) (hfmin' m h1))⟩
    · intro x hx y hy hyx hpx
      have hx' := (hmem x).1 hx
      have hy' := (hmem y).1 hy
      rw [hcol y hy']
      rw [hcol x hx'] at hpx
      apply rowLe_antisymm
      · rw [← hpx]
        exact colsKey_le_prefix hi (by rw [hr x hx', hr y hy']) hyx
      · exact hfmin' y hy'

/-! ### the greedy search finds the smallest equivalent matrix -/

/-- row-sorted matrices equivalent to `M` -/
def Equivs (n : Nat) (M : Mat) (N : Mat) : Prop :=
  SameUpToPermutation n M N ∧ sortRows N = N

structure PakInv (n : Nat) (M : Mat) (i : Nat) (opts : List Mat) (pfx : List Int) : Prop where
  equiv : ∀ m ∈ opts, SameUpToPermutation n M m
  pfx_eq : ∀ m ∈ opts, colsKey i (sortRows m) = pfx
  closure : ∀ N, Equivs n M N → colsKey i N = pfx →
    ∃ m ∈ opts, ∃ σ : Equiv.Perm (Fin n), (∀ c : Fin n, c.val < i → σ c = c) ∧
      N = sortRows (m.map (permuteCols σ))
  least : ∀ N, Equivs n M N → rowLe pfx (colsKey i N) = true

theorem same_sort_permute {n : Nat} {M m : Mat} (σ : Equiv.Perm (Fin n)) (h1 : FixesFirst σ)
    (h : SameUpToPermutation n M m) : SameUpToPermutation n M (sortRows (m.map (permuteCols σ))) :=
  PermutedBy.trans fixesFirst_mul h ⟨σ, h1, (sortRows_perm _).symm⟩

theorem pakInv_step {n : Nat} {M : Mat} {i : Nat} (hi1 : 1 ≤ i) (hin : i < n) {opts : List Mat}
    (hne : opts ≠ []) {pfx : List Int} (inv : PakInv n M i opts pfx) :
    ∃ pfx', PakInv n M (i+1) (pakStep n i (List.range' i (n-i)) opts) pfx' := by
  set C := candidates i (List.range' i (n-i)) opts with hC
  set I : Fin n := ⟨i, hin⟩
  -- description of candidates
  have hcand : ∀ x, x ∈ C ↔ ∃ m ∈ opts, ∃ j : Fin n, i ≤ j.val ∧
      x = sortRows (m.map (permuteCols (Equiv.swap I j))) := by
    intro x
    rw [hC, mem_candidates]
    constructor
    · rintro ⟨o, ho, j, hj, rfl⟩
      have hj' := List.mem_range'_1.1 hj
      refine ⟨o, ho, ⟨j, by omega⟩, hj'.1, ?_⟩
      rw [← swapCols_eq I ⟨j, by omega⟩ o (inv.equiv o ho).hasCols]
    · rintro ⟨o, ho, j, hj, rfl⟩
      refine ⟨o, ho, j.val, List.mem_range'_1.2 ⟨hj, by have := j.2; omega⟩, ?_⟩
      rw [← swapCols_eq I j o (inv.equiv o ho).hasCols]
  have hswapfix : ∀ j : Fin n, i ≤ j.val → ∀ c : Fin n, c.val < i → Equiv.swap I j c = c := by
    intro j hj c hc
    apply Equiv.swap_apply_of_ne_of_ne
    · rintro rfl; exact absurd hc (by simp [I])
    · rintro rfl; omega
  have hswapfirst : ∀ j : Fin n, i ≤ j.val → FixesFirst (Equiv.swap I j) := by
    intro j hj c hc
    exact hswapfix j hj c (by omega)
  have hCequiv : ∀ x ∈ C, Equivs n M x := by
    intro x hx
    obtain ⟨m, hm, j, hj, rfl⟩ := (hcand x).1 hx
    exact ⟨same_sort_permute _ (hswapfirst j hj) (inv.equiv m hm), sortRows_idem _⟩
  have hClen : ∀ x ∈ C, x.length = M.length := fun x hx => (hCequiv x hx).1.length
  have hCpfx : ∀ x ∈ C, colsKey i x = pfx := by
    intro x hx
    obtain ⟨m, hm, j, hj, rfl⟩ := (hcand x).1 hx
    have h1 := colsKey_sort_permute (k := i) (σ := Equiv.swap I j) (τ := 1)
      (fun c hc => hswapfix j hj c hc) m
    rw [h1, map_permuteCols_one m (inv.equiv m hm).hasCols]
    exact inv.pfx_eq m hm
  have hstep := mem_pakStep hin (rem := List.range' i (n-i)) (opts := opts) hClen hCpfx
  have hne' : pakStep n i (List.range' i (n-i)) opts ≠ [] :=
    pakStep_ne_nil (by intro h; have := congrArg List.length h; simp at this; omega) hne
  obtain ⟨b, hb⟩ := List.exists_mem_of_ne_nil _ hne'
  obtain ⟨hbC, hbmin⟩ := (hstep b).1 hb
  -- every equivalent matrix with prefix pfx is reached through some candidate
  have hreach : ∀ N, Equivs n M N → colsKey i N = pfx → ∃ x ∈ C, ∃ τ : Equiv.Perm (Fin n),
      (∀ c : Fin n, c.val < i+1 → τ c = c) ∧ N = sortRows (x.map (permuteCols τ)) ∧
      colsKey (i+1) x = colsKey (i+1) N := by
    intro N hN hpN
    obtain ⟨m, hm, σ, hσ, rfl⟩ := inv.closure N hN hpN
    have hj : i ≤ (σ I).val := by
      by_contra hlt
      have h1 : σ (σ I) = σ I := hσ _ (by omega)
      have h2 : σ I = I := σ.injective h1
      rw [h2] at hlt
      exact hlt (le_refl _)
    set s := Equiv.swap I (σ I) with hs
    have hss : s * s = 1 := by ext c; simp [hs]
    set τ := s * σ with hτ
    have hστ : s * τ = σ := by rw [hτ, ← mul_assoc, hss, one_mul]
    have hτfix : ∀ c : Fin n, c.val < i+1 → τ c = c := by
      intro c hc
      rw [hτ, Equiv.Perm.mul_apply]
      by_cases hci : c = I
      · rw [hci, hs, Equiv.swap_apply_right]
      · have hci' : c.val < i := by
          have : c.val ≠ i := fun h => hci (Fin.ext h)
          omega
        rw [hσ c hci']
        exact hswapfix _ hj c hci'
    refine ⟨sortRows (m.map (permuteCols s)), (hcand _).2 ⟨m, hm, σ I, hj, rfl⟩, τ, hτfix, ?_, ?_⟩
    · have h2 := ((sortRows_perm (m.map (permuteCols s))).map (permuteCols τ))
      rw [map_permuteCols_mul, hστ] at h2
      exact (sortRows_congr h2).symm
    · apply colsKey_sort_permute
      intro c hc
      rw [← hστ, Equiv.Perm.mul_apply, hτfix c hc]
  refine ⟨colsKey (i+1) b, ?_, ?_, ?_, ?_⟩
  · intro m hm
    exact (hCequiv m ((hstep m).1 hm).1).1
  · intro m hm
    obtain ⟨hmC, hmmin⟩ := (hstep m).1 hm
    rw [(hCequiv m hmC).2]
    exact rowLe_antisymm _ _ (hmmin b hbC) (hbmin m hmC)
  · intro N hN hpN
    have hlen : N.length = b.length := by rw [hN.1.length, hClen b hbC]
    have hpi : colsKey i N = pfx := by
      rw [((colsKey_succ_eq_iff hlen).1 hpN).1]; exact hCpfx b hbC
    obtain ⟨x, hx, τ, hτ, hNx, hk⟩ := hreach N hN hpi
    refine ⟨x, (hstep x).2 ⟨hx, fun m' hm' => ?_⟩, τ, hτ, hNx⟩
    rw [hk, hpN]
    exact hbmin m' hm'
  · intro N hN
    have hlen : (colsKey i b).length = (colsKey i N).length := by
      rw [colsKey_length, colsKey_length, hN.1.length, hClen b hbC]
    by_cases hpi : colsKey i N = pfx
    · obtain ⟨x, hx, τ, hτ, hNx, hk⟩ := hreach N hN hpi
      rw [← hk]
      exact hbmin x hx
    · rw [colsKey_succ, colsKey_succ]
      apply rowLe_append_of_ne hlen
      · rw [hCpfx b hbC]; exact inv.least N hN
      · rw [hCpfx b hbC]; exact fun h => hpi h.symm

theorem pakInv_init {n : Nat} {M : Mat} (hM : HasCols n M) :
    PakInv n M 1 [M] (colsKey 1 (sortRows M)) := by
  have key : ∀ N, Equivs n M N → ∃ σ : Equiv.Perm (Fin n), (∀ c : Fin n, c.val < 1 → σ c = c) ∧
      N = sortRows (M.map (permuteCols σ)) := by
    rintro N ⟨⟨σ, hσ, hp⟩, hs⟩
    exact ⟨σ, fun c hc => hσ c (by omega), by rw [sortRows_congr hp, hs]⟩
  refine ⟨?_, ?_, ?_, ?_⟩
  · intro m hm
    rw [List.mem_singleton] at hm; subst hm
    exact PermutedBy.refl fixesFirst_one hM
  · intro m hm
    rw [List.mem_singleton] at hm; subst hm; rfl
  · intro N hN _
    obtain ⟨σ, h1, h2⟩ := key N hN
    exact ⟨M, by simp, σ, h1, h2⟩
  · intro N hN
    obtain ⟨σ, h1, rfl⟩ := key N hN
    have := colsKey_sort_permute (k := 1) (σ := σ) (τ := 1) (fun c hc => h1 c hc) M
    rw [this, map_permuteCols_one M hM]
    exact rowLe_refl _

theorem pakGroup_inv {n : Nat} {M : Mat} (d i : Nat) (hi : 1 ≤ i) (hd : i + d = n)
    (opts : List Mat) (hne : opts ≠ []) (pfx : List Int) (inv : PakInv n M i opts pfx) :
    pakGroup n (List.range' i d) opts ≠ [] ∧
    ∃ pfx', PakInv n M n (pakGroup n (List.range' i d) opts) pfx' := by
  induction d generalizing i opts pfx with
  | zero =>
    have : i = n := by omega
    subst this
    exact ⟨hne, pfx, inv⟩
  | succ d ih =>
    rw [List.range'_succ]
    simp only [pakGroup]
    rw [← List.range'_succ]
    have hd' : d + 1 = n - i := by omega
    rw [hd']
    obtain ⟨pfx', inv'⟩ := pakInv_step hi (by omega) hne inv
    exact ih (i+1) (by omega) (by omega) _
      (pakStep_ne_nil (by intro h; have := congrArg List.length h; simp at this; omega) hne) _ inv'

theorem pakStep_sorted {n i : Nat} {rem : List Nat} {opts : List Mat} :
    ∀ m ∈ pakStep n i rem opts, sortRows m = m := by
  intro m hm
  obtain ⟨o, _, j, _, rfl⟩ := mem_pakStep_of hm
  exact sortRows_idem _

theorem pakGroup_sorted {n : Nat} (g : List Nat) (opts : List Mat)
    (h : g ≠ [] ∨ ∀ m ∈ opts, sortRows m = m) :
    ∀ m ∈ pakGroup n g opts, sortRows m = m := by
  induction g generalizing opts with
  | nil =>
    rcases h with h | h
    · exact absurd rfl h
    · exact h
  | cons i rest ih =>
    simp only [pakGroup]
    exact ih _ (Or.inr pakStep_sorted)

/-- For at least two columns `Pak_sort` returns the least row-sorted equivalent matrix. -/
theorem pakSort_least {n : Nat} (hn : 2 ≤ n) {M : Mat} (hM : HasCols n M) :
    ∃ R, pakSort n M = some R ∧ Equivs n M R ∧
      ∀ N, Equivs n M N → rowLe (colsKey n R) (colsKey n N) = true := by
  obtain ⟨hne, pfx', inv⟩ := pakGroup_inv (n-1) 1 (le_refl _) (by omega) [M] (by simp) _
    (pakInv_init hM)
  have hsorted : ∀ m ∈ pakGroup n (List.range' 1 (n-1)) [M], sortRows m = m :=
    pakGroup_sorted _ _ (Or.inl (by intro h; have := congrArg List.length h; simp at this; omega))
  cases hL : pakGroup n (List.range' 1 (n-1)) [M] with
  | nil => exact absurd hL hne
  | cons R rest =>
    rw [hL] at inv hsorted
    refine ⟨R, ?_, ⟨inv.equiv R (by simp), hsorted R (by simp)⟩, ?_⟩
    · simp [pakSort, hL]
    · intro N hN
      have h1 := inv.pfx_eq R (by simp)
      rw [hsorted R (by simp)] at h1
      rw [h1]
      exact inv.least N hN

theorem equivs_congr {n : Nat} {M M' : Mat} (hM : HasCols n M) (h : SameUpToPermutation n M M')
    (N : Mat) : Equivs n M N ↔ Equivs n M' N := by
  have hs : SameUpToPermutation n M' M := PermutedBy.symm fixesFirst_inv hM h
  constructor
  · rintro ⟨h1, h2⟩; exact ⟨PermutedBy.trans fixesFirst_mul hs h1, h2⟩
  · rintro ⟨h1, h2⟩; exact ⟨PermutedBy.trans fixesFirst_mul h h1, h2⟩

theorem pakSort_canonical {n : Nat} (hn : 2 ≤ n) {M M' : Mat} (hM : HasCols n M)
    (h : SameUpToPermutation n M M') : pakSort n M = pakSort n M' := by
  obtain ⟨R, h1, h2, h3⟩ := pakSort_least hn hM
  obtain ⟨R', h1', h2', h3'⟩ := pakSort_least hn h.hasCols
  rw [h1, h1']
  have e1 := h3 R' ((equivs_congr hM h R').2 h2')
  have e2 := h3' R ((equivs_congr hM h R).1 h2)
  have := colsKey_inj (n := n) (A := R) (B := R') (by rw [h2.1.length, h2'.1.length, h.length])
    h2.1.hasCols h2'.1.hasCols (rowLe_antisymm _ _ e1 e2)
  rw [this]

end SecDec.MatrixSort
