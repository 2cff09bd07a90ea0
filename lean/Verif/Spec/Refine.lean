import Mathlib.Analysis.Complex.Basic
import Mathlib.Analysis.SpecialFunctions.Pow.Real
/-
What "the errors of the sums reach their goals" means.
-/
namespace SecDec

/-- Which part of the error of a sum counts, given the error mode by its documented name: the absolute value, the real part, the
imaginary part, the larger one of these two, or both. -/
inductive ErrMode where
  | abs | real | imag | largest | all

/-- The functions that measure the relevant parts of a complex error `e`. -/
noncomputable def ErrMode.measures : ErrMode → ℂ → List (ℂ → ℝ)
  | .abs, _ => [fun z => ‖z‖]
  | .real, _ => [fun z => |z.re|]
  | .imag, _ => [fun z => |z.im|]
  | .largest, e => if e.im < e.re then [fun z => |z.re|] else [fun z => |z.im|]
  | .all, _ => [fun z => |z.re|, fun z => |z.im|]

/-- The size of the value to which the relative goal refers. -/
noncomputable def ErrMode.scale : ErrMode → (ℂ → ℝ) → ℂ → ℝ
  | .largest, _, v => max |v.re| |v.im|
  | _, m, v => m v

/-- The goal for the error `e` of a sum with value `v`: `epsrel` times the value or the error, whichever is larger, but not less
than `epsabs`. -/
noncomputable def goalOf (mode : ErrMode) (m : ℂ → ℝ) (epsrel epsabs : ℝ) (v e : ℂ) : ℝ :=
  max (epsrel * max (mode.scale m v) (m e)) epsabs

end SecDec
