import Mathlib.MeasureTheory.Constructions.Pi
import Mathlib.MeasureTheory.Integral.Bochner.Set
import Mathlib.MeasureTheory.Measure.Lebesgue.Basic
import Verif.Model.Qmc
/-
What the integration kernels are meant to compute: a sum over the points of a shifted rank-one lattice.
-/
namespace SecDec
namespace Qmc
open MeasureTheory

/-- The `i`-th point of the lattice of `n` points with generating vector `z`, shifted by `s`: `{i z / n + s}`. -/
noncomputable def latticePoint {d : ℕ} (n : ℕ) (z : Fin d → ℕ) (s : Fin d → ℝ) (i : ℕ) : Fin d → ℝ :=
  fun j => Int.fract ((i : ℝ) * (z j : ℝ) / (n : ℝ) + s j)

/-- The unit cube. -/
def unitCube (d : ℕ) : Set (Fin d → ℝ) := Set.pi Set.univ fun _ => Set.Icc 0 1

/-- The integrand after the transform: `g(f(x)) ∏ w(x_j)`, where `g` is `0` at the points at which the integrand fails. -/
noncomputable def transformed {d : ℕ} (T : Transform) (g : (Fin d → ℝ) → ℂ) (x : Fin d → ℝ) : ℂ :=
  ((∏ j, T.w (x j) : ℝ) : ℂ) * g (fun j => T.f (x j))

/-- The sum of finitely many values each of which may be missing (NaN): missing if one of them is. -/
noncomputable def osum (s : Finset ℕ) (v : ℕ → Option ℂ) : Option ℂ :=
  open Classical in if ∀ i ∈ s, (v i).isSome then some (∑ i ∈ s, (v i).getD 0) else none

/-- The contribution of the `i`-th lattice point: the value of the integrand at the transformed point times the weight. -/
noncomputable def Kernel.term {d : ℕ} (K : Kernel d) (i : ℕ) : Option ℂ :=
  let x := latticePoint K.lattice K.genvec K.shift i
  (K.body fun j => K.transform.f (x j)).map fun v => ((∏ j, K.transform.w (x j) : ℝ) : ℂ) * v

/-- The sum over the lattice points with the numbers `i1 ≤ i < i2`. -/
noncomputable def Kernel.latticeSum {d : ℕ} (K : Kernel d) (i1 i2 : ℕ) : Option ℂ := osum (Finset.Ico i1 i2) K.term

/-- A kernel call as the evaluator makes it: the generating vector consists of residues modulo the lattice size, which is less
than `2^53`, and the shift is drawn from `[0,1)`. -/
structure Kernel.Valid {d : ℕ} (K : Kernel d) : Prop where
  pos : 0 < K.lattice
  size : K.lattice < 2^53
  genvec : ∀ j, K.genvec j < K.lattice
  shift0 : ∀ j, 0 ≤ K.shift j
  shift1 : ∀ j, K.shift j < 1

end Qmc
end SecDec
