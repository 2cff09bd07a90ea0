import Mathlib.Probability.Moments.Variance
import Mathlib.Data.Complex.Basic
/-
What "the errors are propagated correctly" means: the results of the kernels are random numbers, of which no two of the
real and imaginary parts are correlated, and `var` are their variances.
-/
namespace SecDec
open MeasureTheory ProbabilityTheory

/-- The real part (`false`) or the imaginary part (`true`) of a complex random number. -/
def part {Ω κ : Type*} (K : κ → Ω → ℂ) : κ × Bool → Ω → ℝ
  | (k, false) => fun ω => (K k ω).re
  | (k, true) => fun ω => (K k ω).im

/-- The results `K` of the kernels have finite variances, stored in `var`, and are uncorrelated. -/
structure Uncorrelated {Ω κ : Type*} [MeasurableSpace Ω] (μ : Measure Ω) (K : κ → Ω → ℂ) (var : κ → ℂ) : Prop where
  finite : ∀ p, MemLp (part K p) 2 μ
  cov : ∀ p q, p ≠ q → cov[part K p, part K q; μ] = 0
  re : ∀ k, (var k).re = Var[fun ω => (K k ω).re; μ]
  im : ∀ k, (var k).im = Var[fun ω => (K k ω).im; μ]

end SecDec
