import Verif.Model.LeadingOrder
import Verif.Spec.Regulated
import Verif.Spec.Expansion
import Mathlib.Analysis.SpecialFunctions.Complex.Arg
/-
Specification for `leading_order`: the integrand of a sector, for one regulator.
-/
namespace SecDec
namespace LeadingOrder
open Expansion Set
variable {N K : ℕ} {F : Type} [Field F] [DecidableEq F]

/-- The values of the symbols: the parameters, the regulator and the polynomial names. -/
def point (x : Fin N → ℂ) (z : ℂ) (w : Fin K → ℂ) : Fin (N + 1 + K) → ℂ := Fin.append (Fin.append x fun _ : Fin 1 => z) w

/-- An exponent, if the regulator is `z`. -/
noncomputable def exponentAt (p : Poly 1 ℚ) (z : ℂ) : ℂ := polyValue (Rat.castHom ℂ) p fun _ => z

/-- The exponent is of the form `a + b * regulator`. -/
def Affine (p : Poly 1 ℚ) : Prop := ∀ t ∈ p.terms, t.1 0 = 0 ∨ t.1 0 = 1

/-- No other symbol than a parameter appears. -/
def OnlyParameters (e : Expo (N + 1 + K)) : Prop := ∀ i, N ≤ i.val → e i = 0

/-- The monomial of a factor (the symbols which do not appear are set to one). -/
noncomputable def monoValue (e : Expo (N + 1 + K)) (x : Fin N → ℂ) : ℂ := Poly.mono (point x 1 fun _ => 1) e

/-- The rest of a factor. -/
noncomputable def restValue (φ : F →+* ℂ) (f : Factor (N + 1) K 1 F) (x : Fin N → ℂ) : ℂ := polyValue φ f.rest (point x 1 fun _ => 1)

/-- The value of the name number `k`: the factor number `k`, without its exponent. -/
noncomputable def nameValue (φ : F →+* ℂ) (s : Sector (N + 1) K 1 F) (x : Fin N → ℂ) (k : Fin K) : ℂ :=
  (s.cast[k.val]?).elim 0 fun f => monoValue f.mono x * restValue φ f x

/-- The integrand of a sector: the Jacobians, the factors to their powers, and the numerators. -/
noncomputable def integrand (φ : F →+* ℂ) (s : Sector (N + 1) K 1 F) (z : ℂ) (t : Fin N → ℝ) : ℂ :=
  monoValue s.prim (fun i => (t i : ℂ)) * monoValue s.jac (fun i => (t i : ℂ)) *
    (s.cast.map fun f => monoValue f.mono (fun i => (t i : ℂ)) ^ exponentAt f.exponent z *
      restValue φ f (fun i => (t i : ℂ)) ^ exponentAt f.exponent z).prod *
    (s.other.map fun q => polyValue φ q (point (fun i => (t i : ℂ)) z (nameValue φ s fun i => (t i : ℂ)))).prod

/-- The power of a parameter in a sector, without the numerators. -/
noncomputable def powerAt (s : Sector (N + 1) K 1 F) (i : Fin N) (z : ℂ) : ℂ :=
  (s.prim (Fin.castAdd K (Fin.castAdd 1 i)) + s.jac (Fin.castAdd K (Fin.castAdd 1 i)) : ℤ) +
    (s.cast.map fun f => (f.mono (Fin.castAdd K (Fin.castAdd 1 i)) : ℂ) * exponentAt f.exponent z).sum

/-- A sector as the decomposition returns it for a regulated integral with Euclidean kinematics: the monomials and the rests are
polynomials of the parameters, the rests are nowhere negative or zero, the numerators are polynomials, the exponents are linear in
the regulator, and an endpoint singularity is regulated. -/
structure Valid (φ : F →+* ℂ) (s : Sector (N + 1) K 1 F) : Prop where
  prim : OnlyParameters s.prim
  jac : OnlyParameters s.jac
  mono : ∀ f ∈ s.cast, OnlyParameters f.mono ∧ ∀ i, 0 ≤ f.mono i
  rest : ∀ f ∈ s.cast, ∀ t ∈ f.rest.terms, OnlyParameters t.1 ∧ ∀ i, 0 ≤ t.1 i
  slit : ∀ f ∈ s.cast, ∀ t ∈ Icc (0 : Fin N → ℝ) 1, restValue φ f (fun i => (t i : ℂ)) ∈ Complex.slitPlane
  affine : ∀ f ∈ s.cast, Affine f.exponent
  other : ∀ q ∈ s.other, ∀ t ∈ q.terms, ∀ i, 0 ≤ t.1 i
  regulated : ∀ i, (∃ k : ℕ, powerAt s i 0 = -((k : ℂ) + 1)) → ∃ z, powerAt s i z ≠ powerAt s i 0

end LeadingOrder
end SecDec
