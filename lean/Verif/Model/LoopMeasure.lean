import Mathlib.Analysis.SpecialFunctions.Gamma.Basic
import Verif.Model.FromProps
import Verif.Model.Numerator
/-
Model of the integration measure and the prefactor of a loop integral (`pySecDec/loop_integral/common.py`, lines 289-352)
and of the values of the polynomials that enter the numerator (`pySecDec/loop_integral/from_propagators.py`, lines
209-223).

Simplification: the regulators have values, so that powers, exponents and the dimension are complex numbers.
-/
namespace SecDec
namespace LoopMeasure
noncomputable section
open Classical
variable {P : ℕ}

/-- `common.py:294-310`: the factors (`eff i` is `powerlist[i] + derivativelist[i]`, `LoopCommon.effPower`) `x_i**(eff_power-1)` of the measure; a factor is left out for the effective powers
`0` and `1`. -/
def measureFactors (eff : Fin P → ℂ) : List (Fin P × ℂ) :=
  (List.finRange P).filterMap fun i => if eff i = 0 ∨ eff i = 1 then none else some (i, eff i - 1)

/-- The value of `measure` (`common.py:289-319`; without factors it is a product with the one factor `1**(...)`).
Simplification: the removal of the parameters with the effective power zero (lines 321-324) is not here; no factor
contains such a parameter. -/
def measure (eff : Fin P → ℂ) (x : Fin P → ℝ) : ℂ := ((measureFactors eff).map fun f => (x f.1 : ℂ) ^ f.2).prod

/-- `common.py:332-354` `Gamma_factor`; `Nnu` is `sum(powerlist)` (line 194), `derivatives` the
`number_of_derivatives`. -/
def gammaFactor (argument Nnu : ℂ) (eff : Fin P → ℂ) (derivatives : ℕ) : ℂ :=
  (List.finRange P).foldl (fun g i => if eff i ≠ 0 then g * (1 / Complex.Gamma (eff i)) else g) (Complex.Gamma argument) *
    Complex.exp (-Complex.I * Real.pi * (Nnu + derivatives))

/-- An entry of `aM` (`from_propagators.py:213-215`; `misc.py:246-248`: for one row the entry is the number one). -/
def entryAdjugate {R : Type} [CommRing R] [DecidableEq R] : (D : ℕ) → (Fin (D+1) → Fin (D+1) → Poly P R) → Fin (D+1) → Fin (D+1) → Poly P R
  | 0, _, _, _ => ⟨[(fun _ => 0, 1)]⟩
  | _ + 1, M, i, j => FromProps.adjugate M i j

end
end LoopMeasure
end SecDec
