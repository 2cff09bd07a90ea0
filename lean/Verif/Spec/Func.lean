import Verif.Model.Func
import Verif.Spec.Expr
import Verif.Spec.LoopCommon
/-
What a symbolic function object means.
-/
namespace SecDec
namespace Func
open LoopCommon (partialDeriv mixed)
variable {n a : ℕ} {F : Type} [CommRing F]

/-- The entries of a multiindex which belong to the arguments. -/
def restrict (a : ℕ) (α : Multi n) : Fin a → ℕ := fun j => if h : j.val < n then α ⟨j, h⟩ else 0

/-- The values of the arguments at the point `x`. -/
noncomputable def argValues (φ : F →+* ℂ) (args : Fin a → Expr n F) (x : Fin n → ℂ) : Fin a → ℂ := fun j => Expr.eval φ x (args j)

/-- If the basename stands for the function `g`, the object with the multiindex `α` stands for the derivative `∂^α g` at the values
of its arguments. -/
noncomputable def Fn.value (φ : F →+* ℂ) (g : (Fin a → ℂ) → ℂ) (f : Fn n a F) (x : Fin n → ℂ) : ℂ :=
  mixed (restrict a f.multi) g (argValues φ f.args x)

/-- On `V`, `g` is a polynomial in the argument `j` of degree at most `m` wherever the degree `m` is declared. -/
def Declared (g : (Fin a → ℂ) → ℂ) (V : Set (Fin a → ℂ)) (maxdegrees : Fin a → Option ℕ) : Prop :=
  ∀ j m, maxdegrees j = some m → ∀ y ∈ V, (partialDeriv j)^[m+1] g y = 0

/-- The value of a list of summands as returned by `derive`. -/
noncomputable def summandsValue (φ : F →+* ℂ) (g : (Fin a → ℂ) → ℂ) (l : List (Expr n F × Fn n a F)) (x : Fin n → ℂ) : ℂ :=
  (l.map fun t => Expr.eval φ x t.1 * t.2.value φ g x).sum

/-- The expression which is inserted for the function with the multiindex `α`: the expression itself or the one stored in the
result of `compute_derivatives`. -/
def definition (repo : List (Multi n × Expr n F)) (e : Expr n F) (α : Multi n) (d : Expr n F) : Prop :=
  (α, d) ∈ repo ∨ (α = fun _ => 0) ∧ d = e

end Func
end SecDec
