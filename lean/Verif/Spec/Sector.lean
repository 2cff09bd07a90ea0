import Verif.Spec.Subtraction
import Verif.Spec.Expansion
import Verif.Model.Sector
/-
What the sum of products handed to the code generation means.
-/
namespace SecDec
namespace Sector
open Subtraction Expansion
variable {n N : Nat} {F : Type} [Field F]

/-- The coefficient of the monomial `e` of the regulators in a sum of products of two polynomials in the regulators,
at the point `x`. -/
noncomputable def coefficient (φ : F →+* ℂ) (l : List (Summand n F)) (e : Expo n) (x : Fin n → ℂ) : ℂ :=
  (l.map (fun S => (S.singular.map (fun a => (S.regular.map (fun b =>
    if a.1 + b.1 = e then a.2.value φ x * Expr.eval φ x b.2 else 0)).sum)).sum)).sum

/-- With one regulator: the integrand of the order `k`, a function of the Feynman parameters. -/
noncomputable def orderIntegrand (φ : F →+* ℂ) (l : List (Summand (N + 1) F)) (k : ℤ) (t : Fin N → ℝ) : ℂ :=
  coefficient φ l (Function.update (fun _ => 0) (Fin.natAdd N 0) k) (point (fun _ => 0) t)

end Sector
end SecDec
