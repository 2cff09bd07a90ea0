import Verif.Proof.MatrixSortIter
/-
C13: the sorting functions of matrix_sort.py only permute; `Pak_sort` is canonical;
`iterative_sort` terminates.
-/
namespace SecDec.MatrixSort

/-- C13: `Pak_sort(matrix)` always succeeds and returns the input with rows and columns other than
the first permuted. -/
theorem C13_pak_only_permutes {n : Nat} {M : Mat} (hM : HasCols n M) :
    ∃ R, pakSort n M = some R ∧ SameUpToPermutation n M R := by
  obtain ⟨h1, h2⟩ := pakGroup_perm (n := n) fixesFirst_mul M (List.range' 1 (n-1))
    (fun i j hi hj => fixesFirst_swap i j
      (by have := List.mem_range'_1.1 hi; omega) (by have := List.mem_range'_1.1 hj; omega))
    (fun i hi => by have := List.mem_range'_1.1 hi; omega) [M] (by simp)
    (fun m hm => by rw [List.mem_singleton] at hm; subst hm; exact PermutedBy.refl fixesFirst_one hM)
  cases hL : pakGroup n (List.range' 1 (n-1)) [M] with
  | nil => exact absurd hL h1
  | cons R rest =>
    rw [hL] at h2
    exact ⟨R, by simp [pakSort, hL], h2 R (by simp)⟩

/-- C13: `Pak_sort(matrix, *indices)` with valid column indices always succeeds, and columns only
move inside the given groups. -/
theorem C13_pak_groups_only_permutes {n : Nat} {M : Mat} (hM : HasCols n M)
    (groups : List (List Nat)) (h0 : groups ≠ []) (hlt : ∀ g ∈ groups, ∀ i ∈ g, i < n) :
    ∃ R, pakSort n M groups = some R ∧ PermutedBy (n := n) (MovesInside groups) M R := by
  have hmul : ∀ σ τ : Equiv.Perm (Fin n), MovesInside groups σ → MovesInside groups τ →
      MovesInside groups (σ * τ) := by
    intro σ τ hσ hτ label hl c
    rw [Equiv.Perm.mul_apply, hσ label hl, hτ label hl]
  have hone : MovesInside groups (1 : Equiv.Perm (Fin n)) := fun _ _ _ => rfl
  obtain ⟨h1, h2⟩ := pakGroups_perm (n := n) hmul M
    (groups.map (fun g => g.mergeSort (fun a b => decide (a ≤ b)))) (by
      intro g hg i j hi hj label hl c
      obtain ⟨g', hg', rfl⟩ := List.mem_map.1 hg
      rw [List.mem_mergeSort] at hi hj
      have := hl g' hg' i.val hi j.val hj
      by_cases hci : c = i
      · subst hci; rw [Equiv.swap_apply_left, this]
      · by_cases hcj : c = j
        · subst hcj; rw [Equiv.swap_apply_right, this]
        · rw [Equiv.swap_apply_of_ne_of_ne hci hcj]) (by
      intro g hg i hi
      obtain ⟨g', hg', rfl⟩ := List.mem_map.1 hg
      rw [List.mem_mergeSort] at hi
      exact hlt g' hg' i hi) [M] (by simp)
    (fun m hm => by rw [List.mem_singleton] at hm; subst hm; exact PermutedBy.refl hone hM)
  have hemp : groups.isEmpty = false := by simpa using h0
  simp only [pakSort, hemp]
  generalize hL : List.foldl (fun options g => pakGroup n g options) [M]
    (groups.map (fun g => g.mergeSort (fun a b => decide (a ≤ b)))) = L at h1 h2
  cases L with
  | nil => exact absurd rfl h1
  | cons R rest => exact ⟨R, by simp [hL], h2 R (by simp)⟩

/-- C13: with at least one column besides the coefficient column, `Pak_sort` is canonical: its
result does not depend on the initial order of rows and columns. -/
theorem C13_pak_canonical {n : Nat} (hn : 2 ≤ n) {M M' : Mat} (hM : HasCols n M)
    (h : SameUpToPermutation n M M') : pakSort n M = pakSort n M' :=
  pakSort_canonical hn hM h

/-- C13: hence `Pak_sort` decides equivalence: two matrices have the same result exactly if they
differ by a permutation of rows and of columns other than the first. -/
theorem C13_pak_decides_equivalence {n : Nat} (hn : 2 ≤ n) {M M' : Mat} (hM : HasCols n M)
    (hM' : HasCols n M') : pakSort n M = pakSort n M' ↔ SameUpToPermutation n M M' := by
  constructor
  · intro h
    obtain ⟨R, e, hR⟩ := C13_pak_only_permutes hM
    obtain ⟨R', e', hR'⟩ := C13_pak_only_permutes hM'
    rw [e, e', Option.some.injEq] at h
    subst h
    exact PermutedBy.trans fixesFirst_mul hR (PermutedBy.symm fixesFirst_inv hM' hR')
  · exact C13_pak_canonical hn hM

/-- Defect: with the coefficient column only (no variables), `Pak_sort` returns its input and is
not canonical. -/
theorem C13_pak_one_column_not_canonical :
    SameUpToPermutation 1 [[1], [0]] [[0], [1]] ∧
    pakSort 1 [[1], [0]] ≠ pakSort 1 [[0], [1]] := by
  refine ⟨⟨1, fixesFirst_one, ?_⟩, by decide⟩
  rw [map_permuteCols_one (n := 1) _ (by unfold HasCols; decide)]
  decide

/-- C13: `light_Pak_sort` always succeeds and only permutes. -/
theorem C13_light_only_permutes {n : Nat} (hn : 1 ≤ n) {M : Mat} (hM : HasCols n M) :
    ∃ R, lightPakSort n M = some R ∧ SameUpToPermutation n M R :=
  lightFold_perm (n-1) 1 (le_refl _) (by omega) M hM

/-- C13: `iterative_sort` terminates on every matrix; the result is a permutation of the input and
is sorted along both axes (all rows; all columns but the first). -/
theorem C13_iterative_terminates_and_permutes {n : Nat} (hn : 1 ≤ n) {M : Mat} (hM : HasCols n M) :
    ∃ fuel R, iterativeSort n fuel M = some R ∧ SameUpToPermutation n M R ∧
      R.Pairwise (fun a b => rowLe a b = true) ∧
      (transpose n R).tail.Pairwise (fun a b => rowLe a b = true) :=
  iterativeSort_terminates hn hM

/-! Non-vacuity: a 3-column matrix and a non-trivial permutation of it. -/

example : HasCols 3 [[7, 1, 0], [5, 0, 1], [7, 2, 2]] := by unfold HasCols; decide

example : SameUpToPermutation 3 [[7, 1, 0], [5, 0, 1], [7, 2, 2]] [[5, 1, 0], [7, 0, 1], [7, 2, 2]] :=
  ⟨Equiv.swap 1 2, by unfold FixesFirst; decide, by decide⟩

example : ¬ SameUpToPermutation 3 [[7, 1, 0]] [[1, 7, 0]] := by
  rintro ⟨σ, h, hp⟩
  unfold FixesFirst at h
  revert hp h; revert σ; decide

example : ∃ R, pakSort 3 [[7, 1, 0], [5, 0, 1]] [[1, 2]] = some R ∧
    PermutedBy (n := 3) (MovesInside [[1, 2]]) [[7, 1, 0], [5, 0, 1]] R :=
  C13_pak_groups_only_permutes (by unfold HasCols; decide) _ (by decide) (by decide)

end SecDec.MatrixSort
