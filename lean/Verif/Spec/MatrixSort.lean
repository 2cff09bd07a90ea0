import Mathlib.Logic.Equiv.Basic
import Mathlib.GroupTheory.Perm.Basic
/-
Specification vocabulary for matrix_sort.py: permutations of rows and columns, independent of
the model's sorting functions.
-/
namespace SecDec.MatrixSort

/-- A matrix with `n` columns. -/
def HasCols (n : Nat) (M : List (List Int)) : Prop := ∀ row ∈ M, row.length = n

/-- The row whose entry in column `c` is the entry of `row` in column `σ c`. -/
def permuteCols {n : Nat} (σ : Equiv.Perm (Fin n)) (row : List Int) : List Int :=
  List.ofFn (fun c => row.getD (σ c) 0)

/-- `M'` arises from `M` by permuting the columns by some `σ` satisfying `P`, and permuting rows. -/
def PermutedBy {n : Nat} (P : Equiv.Perm (Fin n) → Prop) (M M' : List (List Int)) : Prop :=
  ∃ σ : Equiv.Perm (Fin n), P σ ∧ (M.map (permuteCols σ)).Perm M'

/-- A column permutation that does not move the first column (the coefficients). -/
def FixesFirst {n : Nat} (σ : Equiv.Perm (Fin n)) : Prop := ∀ c : Fin n, c.val = 0 → σ c = c

/-- `M'` is `M` with rows permuted and columns other than the first one permuted. -/
def SameUpToPermutation (n : Nat) (M M' : List (List Int)) : Prop :=
  PermutedBy (n := n) FixesFirst M M'

/-- A column permutation that only moves columns inside the given groups: it preserves every
labelling of the columns which is constant on each group, and fixes the columns in no group. -/
def MovesInside {n : Nat} (groups : List (List Nat)) (σ : Equiv.Perm (Fin n)) : Prop :=
  ∀ label : Nat → Nat, (∀ g ∈ groups, ∀ a ∈ g, ∀ b ∈ g, label a = label b) →
    ∀ c : Fin n, label (σ c) = label c

end SecDec.MatrixSort
