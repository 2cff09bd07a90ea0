import Verif.Model.Subtraction
import Verif.Model.Expansion
/-
Model of the treatment of one sector in pySecDec/code_writer/make_package.py (`_process_secondary_sector`): integration by
parts, subtraction of the poles, expansion in the regulators, collection of the orders.
-/
namespace SecDec
namespace Sector
open Subtraction Expansion
variable {n : Nat} {F : Type} [Field F] [DecidableEq F]

/-- The exceptions of the two stages; `noTerms`: `highest_poles_current_sector` is never set
(`make_package.py:1179-1182`) or the minimum of an empty array is taken (`:1164`). -/
inductive SecErr where
  | subtraction (e : Subtraction.Err)
  | expansion (e : Expansion.Err)
  | noTerms
  deriving DecidableEq

/-- One element `Product(singular_expanded, regular_expanded)` of `integrand_summands` (`make_package.py:1184`): two polynomials in the
regulators, as lists of exponents and coefficients. -/
structure Summand (n : Nat) (F : Type) where
  singular : List (Expo n × RatProd n F)
  regular : List (Expo n × Expr n F)

/-- The terms of the polynomial returned by `_expand_and_flatten` (`expansion.py:222-227`), whose coefficients are not
polynomials of the expansion again. -/
def termsOf {C : Type} : Nest n C → List (Expo n × C)
  | .leaf c => [((fun _ => 0), c)]
  | .node ts => ts.filterMap (fun t => match t.2 with
    | .leaf c => some (t.1, c)
    | .node _ => none)

/-- `s.factors[1].simplify()` as the only factor of the `Product` passed to `expand_singular`
(`make_package.py:1150`, `:1161`): `Pow.simplify` and `ExponentiatedPolynomial.simplify` (`algebra.py:1574-1592`, `:915-941`) give
the simplified base to the power `-1`, or the `Polynomial` one if the base is one. -/
def polePart (Q : PolyProd n F) : RatProd n F :=
  let b := Q.regBase.simplify
  if b.terms = [((fun _ => 0), 1)] then ⟨[(false, b)]⟩ else ⟨[(true, b)]⟩

/-- One monomial factor as an expression (an `ExponentiatedPolynomial`). -/
def monoExpr (m : Monomial n F) : Expr n F :=
  .epoly [(m.expo, .num m.coeff)] (.poly (m.exponent.terms.map (fun t => (t.1, .num t.2))))

/-- `Product(*([s.factors[0]] + s.factors[2:]))` (`make_package.py:1151`). -/
def regularPart (Q : PolyProd n F) : Expr n F := .prod (.prod (Q.monos.map monoExpr) :: Q.calI)

/-- `expolist[:,regulator_indices] = orders` (`make_package.py:1164-1165`, `:1175-1176`). -/
def orderExpo (l : List (Fin n × Int)) : Expo n :=
  l.foldl (fun e r => Function.update e r.1 r.2) (fun _ => 0)

/-- The `Polynomial` with coefficient zero which replaces the expansion after an `OrderError`
(`make_package.py:1162-1166`). -/
def singularExpansion (regs : List (Fin n × Int)) (Q : PolyProd n F) : Except SecErr (List (Expo n × RatProd n F)) :=
  match expandSingular (polePart Q) regs with
  | .ok r => .ok (termsOf r)
  | .error .order => .ok [(orderExpo regs, ⟨[(false, ⟨[((fun _ => 0), 0)]⟩)]⟩)]
  | .error e => .error (.expansion e)

/-- The expansion of the regular part (`make_package.py:1171-1177`). -/
def regularExpansion (fuel : Nat) (orders : List (Fin n × Int)) (Q : PolyProd n F) :
    Except SecErr (List (Expo n × Expr n F)) :=
  match expandTaylor fuel (regularPart Q) orders with
  | .ok r => .ok (termsOf r)
  | .error .order => .ok [(orderExpo orders, .num 0)]
  | .error e => .error (.expansion e)

/-- `- singular_expanded.expolist[:,regulator_indices].min(axis=0)`, one column (`make_package.py:1168`). -/
def highestPole (l : List (Expo n × RatProd n F)) (i : Fin n) : Except SecErr Int :=
  match (l.map (fun t => t.1 i)).min? with
  | some k => .ok (-k)
  | none => .error .noTerms

/-- The body of the loop over the subtracted terms (`make_package.py:1155-1184`): the summand and
`highest_poles_current_term`; `regs` are the regulators with the `required_orders`. -/
def expandTerm (fuel : Nat) (regs : List (Fin n × Int)) (Q : PolyProd n F) :
    Except SecErr (Summand n F × List Int) := do
  let singular ← singularExpansion regs Q
  let highest ← regs.mapM (fun r => highestPole singular r.1)
  let orders := List.zipWith (fun r h => (r.1, r.2 + h)) regs highest
  let regular ← regularExpansion fuel orders Q
  .ok (⟨singular, regular⟩, highest)

/-- The loop over the subtracted terms with the running maximum `highest_poles_current_sector`
(`make_package.py:1179-1182`; `none` before the first iteration). -/
def expandAll (fuel : Nat) (regs : List (Fin n × Int)) :
    List (PolyProd n F) → Option (List Int) → Except SecErr (List (Summand n F) × List Int)
  | [], none => .error .noTerms
  | [], some h => .ok ([], h)
  | Q :: rest, h => do
    let r ← expandTerm fuel regs Q
    let h' := match h with
      | none => r.2
      | some h => List.zipWith max h r.2
    let s ← expandAll fuel regs rest (some h')
    .ok (r.1 :: s.1, s.2)

/-- An error of the subtraction as error of the sector. -/
def liftSub {α : Type} : Except Subtraction.Err α → Except SecErr α
  | .ok a => .ok a
  | .error e => .error (.subtraction e)

/-- `make_package.py:1143-1186`: integration by parts, subtraction, expansion.  `P` is `subtraction_initializer`, `ints` are the
`integration_variable_indices`, `goals` is `ibp_power_goal_this_primary_sector`.  Returns `integrand` (a sum of
products) and `highest_poles_current_sector`. -/
def processSector (fuel : Nat) (val : F → Option ℚ) (goals : List ℚ) (ints : List (Fin n)) (regs : List (Fin n × Int))
    (P : PolyProd n F) : Except SecErr (List (Summand n F) × List Int) := do
  let afterIbp ← liftSub (integrateByParts fuel val P goals ints)
  let subtracted ← liftSub (extendAll (fun Q => integratePolePart fuel val Q ints) afterIbp)
  expandAll fuel regs subtracted none

/-- The orders of the regulators for which a sector file is written: `rangecomb(0, required_orders + highest_poles)`
(`make_package.py:1362`), shifted by the highest poles (`:1366`, `_make_sector_order_names`), for one regulator: the orders
from `-highest` to `required`. -/
def sectorOrders (required highest : Int) : List Int :=
  (List.range (required + highest + 1).toNat).map (fun (k : Nat) => (k : Int) - highest)

end Sector
end SecDec
