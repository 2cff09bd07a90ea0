import Mathlib.Probability.Moments.Variance
import Mathlib.Data.Complex.Basic
/-
What a number with a statistical error stands for: a random number with this mean and this standard deviation.
-/
namespace SecDec
open MeasureTheory ProbabilityTheory

/-- `X` has the mean `m` and the standard deviation `s`. -/
structure HasMeanStd {Ω : Type*} [MeasurableSpace Ω] (μ : Measure Ω) (X : Ω → ℝ) (m s : ℝ) : Prop where
  finite : MemLp X 2 μ
  mean : ∫ ω, X ω ∂μ = m
  nonneg : 0 ≤ s
  var : Var[X; μ] = s ^ 2

/-- The same for the real and the imaginary part of a complex random number. -/
structure HasMeanStdC {Ω : Type*} [MeasurableSpace Ω] (μ : Measure Ω) (Z : Ω → ℂ) (m s : ℂ) : Prop where
  re : HasMeanStd μ (fun ω => (Z ω).re) m.re s.re
  im : HasMeanStd μ (fun ω => (Z ω).im) m.im s.im

/-- The real and the imaginary part are uncorrelated. -/
def PartsUncorrelated {Ω : Type*} [MeasurableSpace Ω] (μ : Measure Ω) (Z : Ω → ℂ) : Prop :=
  cov[fun ω => (Z ω).re, fun ω => (Z ω).im; μ] = 0

end SecDec
