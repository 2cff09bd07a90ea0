import Mathlib.RingTheory.Derivation.Basic
import Verif.Model.ProductRule
/-
Specification for `ProductRule`: values in a commutative ring with commuting derivations.
-/
namespace SecDec
namespace PRule
variable {m n : Nat} {E : Type} {A : Type} [CommRing A]

/-- The expression class computes correctly: `derive` is the derivation, `simplify` keeps the value, the
zero tests only accept zeros.  (For the expression classes of `algebra.py` this is C06 and C07.) -/
structure Sound (D : Fin n → Derivation ℤ A A) (val : E → A) (ops : Ops n E) : Prop where
  derive : ∀ e k, val (ops.derive e k) = D k (val e)
  simplify : ∀ e, val (ops.simplify e) = val e
  zeroD : ∀ e, ops.zeroD e = true → val e = 0
  zeroS : ∀ e, ops.zeroS e = true → val e = 0

/-- The iterated derivative `D_{w_1} (D_{w_2} (... a))`. -/
def iterDeriv (D : Fin n → Derivation ℤ A A) (w : List (Fin n)) (a : A) : A :=
  w.foldr (fun k b => D k b) a

/-- Which derivative every object of the heap should be: `derive` on object `i` creates an object with
one more derivative, `simplify` changes nothing.  `none`: there is no object `i`. -/
def wordStep (ws : List (List (Fin n))) : Op n → Option (List (List (Fin n)))
  | .derive i k => ws[i]?.map (fun w => ws ++ [k :: w])
  | .simplify i => ws[i]?.map (fun _ => ws)

/-- The same for a history. -/
def wordRun (ws : List (List (Fin n))) : List (Op n) → Option (List (List (Fin n)))
  | [] => some ws
  | op :: rest => do
    let ws' ← wordStep ws op
    wordRun ws' rest

/-- The value of a sum of products as returned by `to_sum` or `replace`. -/
def sumVal {E' B : Type} [CommRing B] (val : E' → B) (L : List (Int × List E')) : B :=
  (L.map (fun t => (t.1 : B) * (t.2.map val).prod)).sum

end PRule
end SecDec
