import Verif.Model.Splitting
import Verif.Spec.Decomp
/- Specification vocabulary for splitting. -/
namespace SecDec.Splitting
open SecDec SecDec.Squash

variable {n : Nat} {E V : Type} [NormedAddCommGroup V] [NormedSpace ℝ V]

/-- The integrand of a sector whose Jacobian is a polynomial. -/
noncomputable def gIntegrand (F : List (ℝ × Option E) → List (ℝ × Option E) → V)
    (s : GSector n ℝ E) (x : Fin n → ℝ) : V :=
  s.jac.eval x • F
    (s.cast.map (fun p => (p.mono.2 * Poly.mono x p.mono.1 * p.poly.eval x, p.poly.exponent)))
    (s.other.map (fun p => (p.eval x, p.exponent)))

end SecDec.Splitting
