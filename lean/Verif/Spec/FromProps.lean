import Mathlib.LinearAlgebra.BilinearForm.Basic
import Mathlib.LinearAlgebra.Matrix.Defs
import Verif.Model.FromProps
import Verif.Spec.Poly
/-
Specification of the propagators of a loop integral, as functions of the loop momenta.
-/
namespace SecDec
namespace FromProps

/-- Propagators in momentum space: loop momenta `k_0,...,k_D` and external momenta `p_1,...,p_e` are vectors, all the
products are scalar products. -/
structure Momentum (P D e : Nat) (K : Type) where
  quad : Fin P → Fin (D+1) → Fin (D+1) → K
  lin : Fin P → Fin (D+1) → Fin e → K
  cst : Fin P → K

variable {P D e : Nat} {K E : Type} [Field K] [AddCommGroup E] [Module K E]

/-- The value of the propagator `i` for loop momenta `k`. -/
def Momentum.value (m : Momentum P D e K) (B : LinearMap.BilinForm K E) (p : Fin e → E) (i : Fin P) (k : Fin (D+1) → E) : K :=
  (∑ a, ∑ b, if a ≤ b then m.quad i a b * B (k a) (k b) else 0) + (∑ a, ∑ l, m.lin i a l * B (k a) (p l)) + m.cst i

/-- The sum of the propagators, weighted with `x`, is `k.M.k - 2*Q.k + J`: the symmetric matrix `M`, -/
def Momentum.form (m : Momentum P D e K) (x : Fin P → K) : Matrix (Fin (D+1)) (Fin (D+1)) K := Matrix.of fun a b =>
  ∑ i, (if a = b then m.quad i a b else m.quad i (min a b) (max a b) * 2⁻¹) * x i

/-- the coefficients of the external momenta in the vectors `Q`, -/
def Momentum.linear (m : Momentum P D e K) (x : Fin P → K) (a : Fin (D+1)) (l : Fin e) : K :=
  ∑ i, -(m.lin i a l * 2⁻¹) * x i

/-- and the number `J`. -/
def Momentum.const (m : Momentum P D e K) (x : Fin P → K) : K := ∑ i, x i * m.cst i

/-- The input of the program (expressions in commuting symbols `sym`, one for every external momentum) denotes these
propagators. -/
structure Denotes {R : Type} [CommRing R] [Algebra K R] (input : Props P D R) (m : Momentum P D e K) (sym : Fin e → R)
    (rules : R →ₗ[K] K) (B : LinearMap.BilinForm K E) (p : Fin e → E) : Prop where
  quad : ∀ i a b, a ≤ b → input.quad i a b = algebraMap K R (m.quad i a b)
  lin : ∀ i a, input.lin i a = ∑ l, algebraMap K R (m.lin i a l) * sym l
  cst : ∀ i, rules (input.cst i) = m.cst i
  /-- numbers are not changed by the replacement rules -/
  one : rules 1 = 1
  /-- the replacement rules give the values of all scalar products of external momenta -/
  scalar : ∀ l l', rules (sym l * sym l') = B (p l) (p l')

/-- A polynomial whose coefficients are expressions, with the replacement rules applied to the coefficients. -/
def applyRules {n : Nat} {R : Type} (rules : R → K) (q : Poly n R) : Poly n K := ⟨q.terms.map (fun t => (t.1, rules t.2))⟩

/-- Converting the coefficient `c` to an integer does not change it: it is an integer, or cannot be converted. -/
def Exact {R : Type} [CommRing R] (num : R → Option Int) (c : R) : Prop := ∀ z, num c = some z → c = (z : R)

/-- All the coefficients of the quadratic form of the propagators in the loop momenta (half of the coefficient of
`k_a*k_b` for `a < b`) are integers or symbolic expressions. -/
def IntegerForm {R : Type} [CommRing R] [Invertible (2 : R)] (num : R → Option Int) (p : Props P D R) : Prop :=
  Exact num 0 ∧ ∀ i a b, a ≤ b → Exact num (if a = b then p.quad i a b else p.quad i a b * ⅟2)

end FromProps
end SecDec
