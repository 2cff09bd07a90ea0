import Mathlib.RingTheory.HahnSeries.Summable
import Mathlib.Algebra.Order.Group.Int
import Verif.Model.Series
/-
Specification for C33: which exact Laurent series a (truncated) `Series` stands for.
-/
namespace SecDec
namespace Cxx
open HahnSeries
variable {S T K : Type*} [Field S] [Field K]

/-- `s`, with expansion parameter `p`, is the expansion of the exact Laurent series `A`: there is no term
below `order_min`, the stored coefficients are those of `A` (in the sense `R` relates a stored coefficient
to its exact value), and unless the series is marked as truncated, there is no term above `order_max`. -/
structure Expands (R : T → K → Prop) (p : String) (s : Series T) (A : HahnSeries ℤ K) : Prop where
  param : s.param = p
  le : s.orderMin ≤ s.orderMax
  len : (s.content.length : ℤ) = s.orderMax - s.orderMin + 1
  below : ∀ i, i < s.orderMin → A.coeff i = 0
  coeff : ∀ (k : ℕ) (x : T), s.content[k]? = some x → R x (A.coeff (s.orderMin + k))
  above : s.truncated = false → ∀ i, s.orderMax < i → A.coeff i = 0

/-- The order of the neglected terms `O(eps^n)`; `⊤` if nothing is neglected. -/
def errOrder (s : Series T) : WithTop ℤ := if s.truncated then ((s.orderMax + 1 : ℤ) : WithTop ℤ) else ⊤

/-- The operations on stored coefficients succeed and are exact (w.r.t. the relation `R` between stored
coefficients and exact values); `U` are the stored coefficients one can divide by. -/
structure Sound [Cpp S T] (ι : S →+* K) (R : T → K → Prop) (U : T → Prop) : Prop where
  add : ∀ {x y a b}, R x a → R y b → ∃ z, Cpp.add x y = some z ∧ R z (a + b)
  sub : ∀ {x y a b}, R x a → R y b → ∃ z, Cpp.sub x y = some z ∧ R z (a - b)
  mul : ∀ {x y a b}, R x a → R y b → ∃ z, Cpp.mul x y = some z ∧ R z (a * b)
  div : ∀ {x y a b}, R x a → R y b → U y → ∃ z, Cpp.div x y = some z ∧ R z (a / b)
  neg : ∀ {x a}, R x a → ∃ z, Cpp.neg x = some z ∧ R z (-a)
  zeroLike : ∀ {x a}, R x a → ∃ z, Cpp.zeroLike x = some z ∧ R z 0
  ofScalar : ∀ {x a} (c : S), R x a → ∃ z, Cpp.ofScalar x c = some z ∧ R z (ι c)
  smul : ∀ {x a} (c : S), R x a → ∃ z, Cpp.smul c x = some z ∧ R z (ι c * a)
  muls : ∀ {x a} (c : S), R x a → ∃ z, Cpp.muls x c = some z ∧ R z (a * ι c)
  divs : ∀ {x a} (c : S), c ≠ 0 → R x a → ∃ z, Cpp.divs x c = some z ∧ R z (a / ι c)
  ne_zero : ∀ {x a}, R x a → U x → a ≠ 0

/-- One can divide by a series with an invertible leading coefficient. -/
def LeadUnit (U : T → Prop) (s : Series T) : Prop := ∃ x, s.content[0]? = some x ∧ U x

/-- Constant series. -/
noncomputable def constHom (ι : S →+* K) : S →+* HahnSeries ℤ K := (HahnSeries.C : K →+* HahnSeries ℤ K).comp ι

end Cxx
end SecDec
