import Verif.Model.LoopCommon
import Verif.Model.FromProps
import Verif.Model.LoopMeasure
import Verif.Model.Package
import Verif.Spec.FromProps
/-
Model of pySecDec/loop_integral/loop_package.py (lines 20-120): the arguments of `make_package` for a loop integral.

Simplifications: one regulator; powers and dimensionality of the form `a + b * regulator`; no tensor numerator and no propagator power that needs
derivatives (the numerator is one, so that `other_polynomials` is trivial, and no Feynman parameter is removed); the kinematic invariants have values, so that the
coefficients of `U` and `F` are real numbers; `contour_deformation=False`.
-/
namespace SecDec
namespace LoopPackage
open LoopCommon FromProps
variable {n D : ℕ} {R : Type} [CommRing R] [DecidableEq R] [Invertible (2 : R)] [Algebra ℝ R]

/-- `Polynomial.from_expression(a + b*regulator, [regulator])`: the terms with nonzero coefficients (`0` is one term). -/
def affinePoly (p : Power ℚ) : Poly 1 ℚ :=
  if p.reg = 0 then ⟨[((fun _ => 0), p.const)]⟩
  else if p.const = 0 then ⟨[((fun _ => 1), p.reg)]⟩
  else ⟨[((fun _ => 1), p.reg), ((fun _ => 0), p.const)]⟩

/-- `N_nu = sum(powerlist)` (`common.py:194`). -/
def nnu (powers : Fin (n + 1) → Power ℚ) : Power ℚ := ⟨∑ i, (powers i).const, ∑ i, (powers i).reg⟩

/-- `exponent_U` (`common.py:62-64`), rank zero, no derivatives; `L = D + 1`. -/
def exponentU (D : ℕ) (dim : Power ℚ) (powers : Fin (n + 1) → Power ℚ) : Power ℚ :=
  ⟨(nnu powers).const - dim.const / 2 * (D + 1 + 1), (nnu powers).reg - dim.reg / 2 * (D + 1 + 1)⟩

/-- `exponent_F` (`common.py:70-72`). -/
def exponentF (D : ℕ) (dim : Power ℚ) (powers : Fin (n + 1) → Power ℚ) : Power ℚ :=
  ⟨dim.const / 2 * (D + 1) - (nnu powers).const, dim.reg / 2 * (D + 1) - (nnu powers).reg⟩

/-- The factors `x_i**(power-1)` of the measure (`common.py:294-308`). -/
def measureFactors (powers : Fin (n + 1) → Power ℚ) : List (Squash.SPoly (n + 1) ℝ (Poly 1 ℚ)) :=
  (List.finRange (n + 1)).filterMap fun i =>
    if powers i = ⟨0, 0⟩ ∨ powers i = ⟨1, 0⟩ then none
    else some ⟨[(Pi.single i 1, 1)], some (affinePoly ⟨(powers i).const - 1, (powers i).reg⟩)⟩

/-- `polynomials_to_decompose` (`loop_package.py:53`, `:77-80`): `U**exponent_U`, `F**exponent_F` and the factors of the measure, if it is not one. -/
noncomputable def polynomials (num : R → Option Int) (rules : R →ₗ[ℝ] ℝ) (input : Props (n + 1) D R) (dim : Power ℚ) (powers : Fin (n + 1) → Power ℚ) :
    List (Squash.SPoly (n + 1) ℝ (Poly 1 ℚ)) :=
  [⟨(applyRules rules (preliminaryU num input)).terms, some (affinePoly (exponentU D dim powers))⟩,
    ⟨(preliminaryF num rules input).terms, some (affinePoly (exponentF D dim powers))⟩] ++ measureFactors powers

/-- The value of a power, an exponent or the dimensionality, if the regulator is `z`. -/
noncomputable def valueAt (p : Power ℚ) (z : ℂ) : ℂ := p.const + p.reg * z

/-- The `prefactor` (`loop_package.py:96`), which is `Gamma_factor` (`common.py:328-354`; the argument of the Gamma function with rank zero), if the regulator is `z`. -/
noncomputable def prefactorAt (D : ℕ) (dim : Power ℚ) (powers : Fin (n + 1) → Power ℚ) (z : ℂ) : ℂ :=
  LoopMeasure.gammaFactor (valueAt (nnu powers) z - valueAt dim z * (D + 1) / 2) (valueAt (nnu powers) z) (fun i => valueAt (powers i) z) 0

/-- `loop_package` with `decomposition_method='iterative'` (`loop_package.py:358-382`, `:82-120`).  Powers which need derivatives (`common.py:182-187`) or are
zero are not modelled here. -/
noncomputable def loopPackage (o : Package.Options) (num : R → Option Int) (rules : R →ₗ[ℝ] ℝ) (input : Props (n + 1) D R) (dim : Power ℚ)
    (powers : Fin (n + 1) → Power ℚ) : Option (List (List (Sector.Summand (n + 1) ℝ) × ℤ)) :=
  if ∀ i, derivs (powers i).const = 0 ∧ powers i ≠ ⟨0, 0⟩ then Package.package o (polynomials num rules input dim powers) else none

end LoopPackage
end SecDec
