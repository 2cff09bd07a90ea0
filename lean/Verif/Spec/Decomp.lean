import Mathlib.MeasureTheory.Constructions.Pi
import Mathlib.MeasureTheory.Measure.Lebesgue.Basic
import Mathlib.MeasureTheory.Integral.Bochner.Set
import Verif.Spec.Squash
/-
Specification vocabulary for sector decomposition.
-/
namespace SecDec.Decomp
open SecDec SecDec.Squash

variable {n : Nat} {R E V : Type} [NormedAddCommGroup V] [NormedSpace ℝ V]

/-- The integrand of a sector: Jacobian times an arbitrary function `F` of the values (and
exponents) of its polynomials, with values in a real normed space (e.g. `ℝ` or `ℂ`). -/
noncomputable def integrand (F : List (ℝ × Option E) → List (ℝ × Option E) → V)
    (s : Sector n ℝ E) (x : Fin n → ℝ) : V :=
  (s.jac.2 * (s.value x).jac) • F (s.value x).cast (s.value x).other

/-- The integral over the unit hypercube. -/
noncomputable def cubeIntegral (f : (Fin n → ℝ) → V) : V :=
  ∫ x in Set.Icc (0 : Fin n → ℝ) 1, f x

/-- The integral over the unit hypercube exists. -/
def CubeIntegrable (f : (Fin n → ℝ) → V) : Prop :=
  MeasureTheory.IntegrableOn f (Set.Icc (0 : Fin n → ℝ) 1)

/-- All common powers have been pulled out of the `cast` polynomials: there are terms, all powers are
non-negative, and each variable is absent from some term. -/
def Refactorized (s : Sector n R E) : Prop :=
  ∀ p ∈ s.cast, p.poly.terms ≠ [] ∧
    ∀ i, (∀ t ∈ p.poly.terms, 0 ≤ t.1 i) ∧ ∃ t ∈ p.poly.terms, t.1 i = 0

/-- Every `cast` polynomial has the form monomial times (constant + ...), where the constant is
understood with respect to the variables `indices`. -/
def StandardForm (indices : List (Fin n)) (s : Sector n R E) : Prop :=
  ∀ p ∈ s.cast, ∃ t ∈ p.poly.terms, ∀ i ∈ indices, t.1 i = 0

end SecDec.Decomp
