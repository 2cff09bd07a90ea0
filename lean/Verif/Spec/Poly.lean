import Mathlib.Algebra.MonoidAlgebra.Basic
import Mathlib.Algebra.BigOperators.Fin
import Mathlib.Algebra.Field.Defs
import Verif.Model.Poly
/-
Specification of what a `Polynomial` object denotes, independent of the algorithms.
-/
namespace SecDec
namespace Poly
variable {n : Nat}

/-- The monomial `∏ x_i^{e_i}`. -/
def mono {K : Type} [Field K] (x : Fin n → K) (e : Expo n) : K := ∏ i, x i ^ (e i)

/-- The value of a polynomial at the point `x`. -/
def eval {K : Type} [Field K] (p : Poly n K) (x : Fin n → K) : K :=
  (p.terms.map (fun t => t.2 * mono x t.1)).sum

/-- The point `x` is in the domain of `p`: no negative power of zero. -/
def Defined {K : Type} [Field K] (p : Poly n K) (x : Fin n → K) : Prop :=
  ∀ t ∈ p.terms, ∀ i, x i = 0 → 0 ≤ t.1 i

/-- The Laurent polynomial (formal linear combination of exponent vectors, with convolution as
product) denoted by a `Polynomial` object. -/
noncomputable def toLaurent {R : Type} [CommRing R] (p : Poly n R) :
    AddMonoidAlgebra R (Fin n → Int) :=
  (p.terms.map (fun t => AddMonoidAlgebra.single t.1 t.2)).sum

/-- The total coefficient of the exponent vector `e`. -/
def coeffOf {R : Type} [CommRing R] (p : Poly n R) (e : Expo n) : R :=
  ((p.terms.filter (fun t => decide (t.1 = e))).map (·.2)).sum

end Poly
end SecDec
