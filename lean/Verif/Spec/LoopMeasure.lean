import Verif.Model.LoopMeasure
import Verif.Spec.FromProps
import Verif.Spec.Numerator
import Verif.Spec.Primary
/-
Specification for property C51: the integral in momentum space and the integral over the Feynman parameters.
-/
namespace SecDec
namespace LoopMeasure
open scoped BigOperators
open FromProps Numer Decomp
noncomputable section
variable {n D e d : ℕ} {I : Type} [DecidableEq I]

/-- The scalar product `edot` of momenta with imaginary energies, as a bilinear form. -/
def edotForm (d : ℕ) : LinearMap.BilinForm ℝ (Fin d → ℝ) :=
  LinearMap.mk₂ ℝ edot (fun u v w => by simp [edot, add_mul, Finset.sum_add_distrib, add_comm])
    (fun c u v => by simp [edot, Finset.mul_sum, mul_assoc]) (fun u v w => by simp [edot, mul_add, Finset.sum_add_distrib, add_comm])
    (fun c u v => by simp [edot, Finset.mul_sum, mul_left_comm])

/-- The value of the propagator `i` at the loop momenta `k` (`k m a` is the component `m` of the loop momentum `a`). -/
def propagator (m : Momentum (n+1) D e ℝ) (p : Fin e → Fin d → ℝ) (i : Fin (n+1)) (k : Fin d → Fin (D+1) → ℝ) : ℝ :=
  m.value (edotForm d) p i (fun a μ => k μ a)

/-- The loop integrand: the numerator, divided by the powers `ν i` of the propagators (on the principal branch). -/
def loopIntegrand (m : Momentum (n+1) D e ℝ) (p : Fin e → Fin d → ℝ) (ν : Fin (n+1) → ℝ) (terms : List (Term (D+1) e I))
    (τ : I → Fin d) (k : Fin d → Fin (D+1) → ℝ) : ℂ :=
  (terms.map fun t => t.value eMetric (fun l μ => ((p l μ : ℝ) : ℂ)) (fun a μ => ((k μ a : ℝ) : ℂ)) τ).sum *
    ∏ i, (propagator m p i k : ℂ) ^ (-(ν i : ℂ))

variable {R : Type} [CommRing R] [DecidableEq R] [Invertible (2 : R)] [Algebra ℝ R]

/-- The data of the numerator, from the polynomials of the code at the Feynman parameters `x`: the adjugate matrix, the
polynomials `U` and `F`, and the coefficients of the external momenta in the vectors `Q`. -/
def dataAt (num : R → Option Int) (rules : R →ₗ[ℝ] ℝ) (input : Props (n+1) D R) (m : Momentum (n+1) D e ℝ) (d : ℕ)
    (ν : Fin (n+1) → ℝ) (x : Fin (n+1) → ℝ) : Data (D+1) e where
  aM a b := ((applyRules rules (entryAdjugate D (matM num input) a b)).eval x : ℝ)
  Q a l := (m.linear x a l : ℝ)
  U := ((applyRules rules (preliminaryU num input)).eval x : ℝ)
  F := ((preliminaryF num rules input).eval x : ℝ)
  Nnu := ((∑ i, ν i : ℝ) : ℂ)
  D := d

/-- The integrand over the Feynman parameters: measure, numerator, `U**exponent_U`, `F**exponent_F`. -/
def feynmanIntegrand (data : (Fin (n+1) → ℝ) → Data (D+1) e) (p : Fin e → Fin d → ℝ) (ν : Fin (n+1) → ℝ) (rank : ℕ)
    (τ : I → Fin d) (out : (Fin (n+1) → ℝ) → List (Summand e I)) (x : Fin (n+1) → ℝ) : ℂ :=
  measure (fun i => (ν i : ℂ)) x * ((out x).map fun S => S.value eMetric (fun l μ => ((p l μ : ℝ) : ℂ)) τ).sum *
    (data x).U ^ exponentU (data x) rank * (data x).F ^ exponentF (data x)

end
end LoopMeasure
end SecDec
