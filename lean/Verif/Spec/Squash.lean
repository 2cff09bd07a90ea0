import Mathlib.Algebra.Module.Basic
import Verif.Spec.Poly
import Verif.Model.Squash
/-
Specification vocabulary for the symmetry finder: what a sector denotes.
-/
namespace SecDec.Squash
open SecDec

/-- What the integrand of a sector is made of at one point: the Jacobian monomial (without its
coefficient), and the values (with exponents) of the `cast` and the `other` polynomials. -/
structure Value (K E : Type) where
  jac : K
  cast : List (K × Option E)
  other : List (K × Option E)

variable {n : Nat} {K E : Type} [Field K]

/-- The value of a polynomial of a sector. -/
def SPoly.eval (p : SPoly n K E) (x : Fin n → K) : K := (⟨p.terms⟩ : Poly n K).eval x

/-- The values that enter the integrand of a sector. -/
def Sector.value (s : Sector n K E) (x : Fin n → K) : Value K E :=
  { jac := Poly.mono x s.jac.1
    cast := s.cast.map (fun p =>
      (p.mono.2 * Poly.mono x p.mono.1 * p.poly.eval x, p.poly.exponent))
    other := s.other.map (fun p => (p.eval x, p.exponent)) }

/-- The two sectors have the same number of polynomials. -/
def SameShape (s t : Sector n K E) : Prop :=
  s.cast.length = t.cast.length ∧ s.other.length = t.other.length

/-- No polynomial of the sector is the zero polynomial: each has a nonzero coefficient. -/
def NonZero (s : Sector n K E) : Prop :=
  (∀ p ∈ s.cast, p.mono.2 ≠ 0 ∧ ∃ t ∈ p.poly.terms, t.2 ≠ 0) ∧
  (∀ p ∈ s.other, ∃ t ∈ p.terms, t.2 ≠ 0)

/-- An operation on functions of `n` variables that behaves like an integral over a symmetric domain:
it does not see the coordinate hyperplanes and is invariant under permutations of the variables. -/
structure SymmetricIntegral {V : Type} (I : ((Fin n → K) → K) → V) : Prop where
  congr : ∀ f g : (Fin n → K) → K, (∀ x, (∀ i, x i ≠ 0) → f x = g x) → I f = I g
  perm : ∀ (f : (Fin n → K) → K) (π : Equiv.Perm (Fin n)), I (fun x => f (x ∘ π)) = I f

/-- The terms of a `cast` entry after multiplying out the monomial. -/
def SProd.expanded (p : SProd n K E) : List (Expo n × K) :=
  p.poly.terms.map (fun t => (t.1 + p.mono.1, t.2 * p.mono.2))

/-- `t` is `s` with the variables permuted by `π`, where the terms of each polynomial may come in any
order, monomial factors may be distributed differently and the Jacobian coefficient may differ. -/
def PermutedSector (π : Equiv.Perm (Fin n)) (s t : Sector n K E) : Prop :=
  t.jac.1 = s.jac.1 ∘ π ∧
  List.Forall₂ (fun p q : SProd n K E => p.poly.exponent = q.poly.exponent ∧
    (p.expanded.map (fun r => (r.1 ∘ π, r.2))).Perm q.expanded) s.cast t.cast ∧
  List.Forall₂ (fun p q : SPoly n K E => p.exponent = q.exponent ∧
    (p.terms.map (fun r => (r.1 ∘ π, r.2))).Perm q.terms) s.other t.other

end SecDec.Squash
