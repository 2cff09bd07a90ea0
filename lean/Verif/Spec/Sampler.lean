import Verif.Model.Sampler
import Mathlib.Logic.Relation
/-
Specification for C68: the estimate of an integral from a number of shifted lattices.
-/
namespace SecDec
namespace Sampler

/-- The mean of a list of real numbers. -/
noncomputable def mean (l : List ℝ) : ℝ := l.sum / l.length

/-- The squared standard error of the mean: the unbiased sample variance divided by the number of samples. -/
noncomputable def meanVariance (l : List ℝ) : ℝ := (l.map fun x => (x - mean l) ^ 2).sum / (l.length - 1) / l.length

/-- The result is the estimate made from the values `l`, one for each shift: the mean and its standard error, for the real and the imaginary
part. -/
structure IsEstimate (res : Result) (l : List ℂ) : Prop where
  count : res.m = l.length
  re : res.integral.re = mean (l.map Complex.re)
  im : res.integral.im = mean (l.map Complex.im)
  errorRe : res.error.re = √(meanVariance (l.map Complex.re))
  errorIm : res.error.im = √(meanVariance (l.map Complex.im))

/-- The average of the integrand over a lattice. -/
noncomputable def average (n : ℕ) (val : ℕ → ℂ) : ℂ := (∑ o ∈ Finset.range n, val o) / n

/-- `r` is an array that the threads may leave: some schedule of the threads ends with it. -/
def Outcome (J : Job) (r : ℕ → ℂ) : Prop :=
  ∃ (work : Fin J.threads → ℕ) (s : State J.threads), (∀ j, 0 < work j) ∧ Relation.ReflTransGen (Step J) (J.init work) s ∧
    (∀ j, s.thread j = .done) ∧ s.r = r

/-- The error goal: for the mode `all` both parts have an error below the absolute or the relative goal, for the mode `largest` the larger error
is compared to the larger part. -/
def Reached (O : Options) (res : Result) : Prop :=
  if O.largest then
    max res.error.re res.error.im ≤ O.epsabs ∨ max res.error.re res.error.im ≤ O.epsrel * max |res.integral.re| |res.integral.im|
  else
    (res.error.re ≤ O.epsabs ∨ res.error.re ≤ O.epsrel * |res.integral.re|) ∧
      (res.error.im ≤ O.epsabs ∨ res.error.im ≤ O.epsrel * |res.integral.im|)

end Sampler
end SecDec
