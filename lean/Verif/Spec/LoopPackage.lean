import Verif.Model.LoopPackage
import Verif.Spec.LoopMeasure
import Verif.Spec.Package
/-
Specification for property C58: the loop integral as a function of the regulator.
-/
namespace SecDec
namespace LoopPackage
open LoopCommon FromProps LoopMeasure Numer MeasureTheory Set
variable {n D e d : ℕ}

/-- The numerator one. -/
def one (D e : ℕ) : List (Term (D + 1) e ℕ) := [⟨[], [], 1⟩]

/-- The powers of the propagators for the real value `t` of the regulator. -/
noncomputable def powersAt (powers : Fin (n + 1) → Power ℚ) (t : ℝ) : Fin (n + 1) → ℝ := fun i => (powers i).const + (powers i).reg * t

/-- The loop integral in momentum space, in `d` dimensions. -/
noncomputable def loopIntegral (m : Momentum (n+1) D e ℝ) (p : Fin e → Fin d → ℝ) (powers : Fin (n + 1) → Power ℚ) (t : ℝ) : ℂ :=
  ∫ k, ∏ i, (propagator m p i k : ℂ) ^ (-(powersAt powers t i : ℂ))

/-- The loop integral converges absolutely, its powers are positive, and so is the argument of the Gamma function (that is, the integral is not divergent for
large loop momenta by counting powers). -/
def Converges (m : Momentum (n+1) D e ℝ) (p : Fin e → Fin d → ℝ) (powers : Fin (n + 1) → Power ℚ) (t : ℝ) : Prop :=
  (∀ i, 0 < powersAt powers t i) ∧ (d : ℝ) * (D + 1) / 2 < ∑ i, powersAt powers t i ∧
    Integrable fun k => ∏ i, (propagator m p i k : ℂ) ^ (-(powersAt powers t i : ℂ))

/-- `J` is analytic up to isolated singularities (a closed countable set which does not accumulate at zero), and the loop integral is `pi^(d*L/2) * prefactor * J`
for all regulators in the interval from `a` to `b`. -/
structure Continues (m : Momentum (n+1) D e ℝ) (p : Fin e → Fin d → ℝ) (powers : Fin (n + 1) → Power ℚ) (a b : ℝ) (J : ℂ → ℂ) : Prop where
  analytic : ∃ E : Set ℂ, E.Countable ∧ IsClosed E ∧ (∃ r > 0, ∀ z, ‖z‖ < r → z ≠ 0 → z ∉ E) ∧ DifferentiableOn ℂ J Eᶜ
  eq : ∀ t ∈ Ioo a b, loopIntegral m p powers t =
    (Real.pi : ℂ) ^ ((d : ℂ) * (D + 1) / 2) * prefactorAt D ⟨d, 0⟩ powers t * J t

end LoopPackage
end SecDec
