import Verif.Model.Iterate
import Mathlib.Data.Nat.GCD.Basic

/-!
# Specification of lattices for the integration
-/

namespace SecDec
namespace Iterate

/-- `v` generates a lattice of `n` points in `d` dimensions whose projections on the axes are all different. -/
def GoodVector (d n : ℕ) (v : List ℕ) : Prop := v.length = d ∧ ∀ x ∈ v, Nat.Coprime x n

/-- `x` is a median of the numbers `v 0, …, v (count - 1)`: more than half of them are at most `x`, and more than half of them are at least
`x` (for an odd number of numbers this determines `x`). -/
def IsMedian (v : ℕ → ℝ) (count : ℕ) (x : ℝ) : Prop :=
  open Classical in
  count < 2 * ((List.range count).filter (fun s => v s ≤ x)).length ∧ count < 2 * ((List.range count).filter (fun s => x ≤ v s)).length

end Iterate
end SecDec
