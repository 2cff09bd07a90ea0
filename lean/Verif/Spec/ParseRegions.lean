import Verif.Model.ParseRegions
import Mathlib.Algebra.BigOperators.Group.List.Basic
import Mathlib.Algebra.GroupWithZero.Basic
/-
The value of an expression and of a polynomial.
-/
namespace SecDec
namespace ParseRegions
variable {Sym F : Type} [DecidableEq Sym] [Field F]

/-- a product of powers -/
def monoVal (ρ : Sym → F) (m : List (Sym × Int)) : F := (m.map (fun q => ρ q.1 ^ q.2)).prod

/-- an expression -/
def Coef.val (ρ : Sym → F) (c : Coef Sym F) : F := (c.map (fun t => t.2 * monoVal ρ t.1)).sum

/-- a polynomial: the sum of the coefficients times the powers of the symbols -/
def NPoly.val (ρ : Sym → F) (p : NPoly Sym F) : F := (p.terms.map (fun t => Coef.val ρ t.2 * monoVal ρ (p.symbols.zip t.1))).sum

/-- every row has a power for every symbol; no symbol occurs twice -/
def NPoly.WellFormed (p : NPoly Sym F) : Prop := p.symbols.Nodup ∧ ∀ t ∈ p.terms, t.1.length = p.symbols.length

/-- the symbol `v` does not occur in the expression -/
def Coef.Free (v : Sym) (c : Coef Sym F) : Prop := ∀ t ∈ c, ∀ q ∈ t.1, q.1 ≠ v

/-- the base and the exponent of an input -/
def Input.val (ρ : Sym → F) : Input Sym F → F × F
  | .exponentiated p exponent => (p.val ρ, Coef.val ρ exponent)
  | .polynomial p => (p.val ρ, 1)
  | .pow base exponent => (Coef.val ρ base, Coef.val ρ exponent)
  | .expression c => (Coef.val ρ c, 1)

/-- the input polynomials are well-formed, and their coefficients do not contain their own variables -/
def Input.Ok : Input Sym F → Prop
  | .exponentiated p _ => p.WellFormed ∧ ∀ t ∈ p.terms, ∀ v ∈ p.symbols, Coef.Free v t.2
  | .polynomial p => p.WellFormed ∧ ∀ t ∈ p.terms, ∀ v ∈ p.symbols, Coef.Free v t.2
  | _ => True

end ParseRegions
end SecDec
