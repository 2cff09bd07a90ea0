import Mathlib.Data.Rat.Floor
import Verif.Model.Expr
/-
Model of pySecDec/subtraction.py: `pole_structure`, `integrate_pole_part`, `integrate_by_parts`.
-/
namespace SecDec
namespace Subtraction
open Expr
variable {n : Nat} {F : Type} [Field F] [DecidableEq F]

/-- One factor `<monomial>**(a_j + ...)` of `monomial_product`: an `ExponentiatedPolynomial` with one
term (`expolist[0]`, `coeffs[0]`) whose exponent is a `Polynomial`
(`subtraction.py:173-184`). -/
structure Monomial (n : Nat) (F : Type) where
  expo : Expo n
  coeff : F
  exponent : Poly n F

/-- The argument `polyprod` (`subtraction.py:168-193`): `factors[0]` is the product of monomials,
`factors[1]` the `Pow` of the regulator poles with its base and exponent, `factors[2:]` is `cal_I`. -/
structure PolyProd (n : Nat) (F : Type) where
  monos : List (Monomial n F)
  regBase : Poly n F
  regExp : Expr n F
  calI : List (Expr n F)

/-- A `Polynomial` with plain coefficients as an expression. -/
def ofPoly (p : Poly n F) : Expr n F := .poly (p.terms.map (fun t => (t.1, .num t.2)))

/-- The errors: `ValueError('"1/0" detected...')`, the `TypeError` of sympy when a symbolic constant
term is compared with a number, and (model only) exhausted recursion bound. -/
inductive Err where
  | oneOverZero
  | typeError
  | outOfFuel
  deriving DecidableEq

/-- An `Option` of the expression model as result with error. -/
def lift {α : Type} : Option α → Except Err α
  | some a => .ok a
  | none => .error .outOfFuel

/-- `np.sum(exponent.coeffs[np.where((exponent.expolist == 0).all(axis=1))])`
(`subtraction.py:39`, `:61`, `:228`). -/
def zeroRowSum (p : Poly n F) : F :=
  ((p.terms.filter (fun t => decide (t.1 = fun _ => 0))).map (·.2)).sum

/-- The loop body `subtraction.py:37-42` (`exponent_constant_term`). -/
def ectStep (j : Fin n) (acc : F) (m : Monomial n F) : F :=
  if m.exponent.hasConstantTerm none then acc + zeroRowSum m.exponent * ((m.expo j : Int) : F) else acc

/-- `exponent_constant_term` (`subtraction.py:36-43`, `:57-64`, `:224-231`). -/
def ect (j : Fin n) (monos : List (Monomial n F)) : F := monos.foldl (ectStep j) 0

/-- `subtraction.py:17-45` `pole_structure(monomial_product, *indices)`. -/
def poleStructure (monos : List (Monomial n F)) (indices : List (Fin n)) : List F :=
  indices.map (fun j => ect j monos)

/-- `full_exponent` (`subtraction.py:58`, `:65`): the first addition is `0 + Polynomial`. -/
def fullExponent (j : Fin n) : List (Monomial n F) → Poly n F
  | [] => Poly.zeroPoly
  | m :: ms => ms.foldl (fun acc m => acc.add (m.exponent.mulScalar ((m.expo j : Int) : F)))
      ((m.exponent.mulScalar ((m.expo j : Int) : F)).addScalar 0)

/-- `(regulator_part.coeffs == 0).all()` with `regulator_part = full_exponent - exponent_constant_term`
(`subtraction.py:67-71`). -/
def noRegulator (full : Poly n F) (a : F) : Bool :=
  (full.subScalar a).terms.all (fun t => decide (t.2 = 0))

/-- `ExponentiatedPolynomial.replace(index,1)` for one monomial (`algebra.py:701-755`): the column is
set to zero, the coefficient kept, and the value is substituted in the exponent. -/
def Monomial.setOne (j : Fin n) (m : Monomial n F) : Monomial n F :=
  { expo := Function.update m.expo j 0, coeff := m.coeff, exponent := m.exponent.replace j 1 }

/-- `-make_FeynmanIndex_to_power(p, p!, polysymbols)` (`subtraction.py:80-88`, `:125`). -/
def minusPower (j : Fin n) (p : Nat) (pf : F) : Expr n F :=
  .poly [(Function.update (fun _ => 0) j (p : Int), .num (-(1 / pf)))]

/-- The pole term for one value of `p` (`subtraction.py:99-124`): `dp0` is
`derivative_cal_I_Feynmanj_set_to_zero`. -/
def poleTerm (fuel : Nat) (P : PolyProd n F) (j : Fin n) (full : Poly n F) (a : F) (p : Nat) (pf : F)
    (dp0 : Expr n F) : Except Err (PolyProd n F) :=
  let monos1 := P.monos.map (Monomial.setOne j)
  let den := (full.addScalar ((p : F) + 1)).mulScalar pf
  if a + (p : F) + 1 = 0 then
    .ok { monos := monos1, regBase := P.regBase.mul den, regExp := P.regExp, calI := [dp0] }
  else do
    let last ← lift (Expr.simplify fuel (.prod [dp0, .pow (ofPoly den) P.regExp]))
    .ok { monos := monos1, regBase := P.regBase, regExp := P.regExp, calI := [last] }

/-- The loop `for p in range(...)` of `subtraction.py:96-125`, `count` remaining iterations; `pf` and
`d` are the values of `p_factorial` and `derivative_cal_I` left by the previous iteration.  Returns
the pole terms and `minus_cal_I_expansion_summands`. -/
def poleLoop (fuel : Nat) (P : PolyProd n F) (j : Fin n) (full : Poly n F) (a : F) :
    Nat → Nat → F → Expr n F → Except Err (List (PolyProd n F) × List (Expr n F))
  | 0, _, _, _ => .ok ([], [])
  | count + 1, p, pf, d => do
    let pf' := if p = 0 then 1 else pf * (p : F)
    let d' ← lift (if p = 0 then some d else Expr.derive fuel d j)
    let dp0 ← lift (Expr.replace 0 (fun _ => 0) j fuel d')
    let term ← poleTerm fuel P j full a p pf' dp0
    let rest ← poleLoop fuel P j full a count (p + 1) pf' d'
    .ok (term :: rest.1, .prod [minusPower j p pf', dp0] :: rest.2)

/-- `subtraction.py:49-131` `_integrate_pole_part_single_index(polyprod, index)`.
`val` decides which coefficients are numbers (comparison of any other sympy expression with a number
raises a `TypeError`).  `fuel` bounds the recursion of `derive`, `replace` and `simplify`. -/
def poleSingle (fuel : Nat) (val : F → Option ℚ) (P : PolyProd n F) (j : Fin n) :
    Except Err (List (PolyProd n F)) :=
  let a := ect j P.monos
  let full := fullExponent j P.monos
  match val a with
  | none => .error .typeError
  | some q =>
    if q < 0 ∧ noRegulator full a = true then .error .oneOverZero
    else if 0 ≤ q then .ok [P]
    else do
      let r ← poleLoop fuel P j full a ⌊-q⌋.toNat 0 1 (.prod P.calI)
      let s ← lift (Expr.simplify fuel (.sum (.prod P.calI :: r.2)))
      .ok (r.1 ++ [{ P with calI := [s] }])

/-- Apply a function with error to all elements and concatenate the results (the loop
`for polyprod in old_products: new_products.extend(...)`, `subtraction.py:208-212`, `:362-365`). -/
def extendAll (f : PolyProd n F → Except Err (List (PolyProd n F))) :
    List (PolyProd n F) → Except Err (List (PolyProd n F))
  | [] => .ok []
  | P :: rest => do
    let a ← f P
    let b ← extendAll f rest
    .ok (a ++ b)

/-- The loop over `indices` of `integrate_pole_part`. -/
def poleLoopIdx (fuel : Nat) (val : F → Option ℚ) :
    List (Fin n) → List (PolyProd n F) → Except Err (List (PolyProd n F))
  | [], l => .ok l
  | j :: js, l => do
    let l' ← extendAll (fun P => poleSingle fuel val P j) l
    poleLoopIdx fuel val js l'

/-- `subtraction.py:133-213` `integrate_pole_part(polyprod, *indices)`. -/
def integratePolePart (fuel : Nat) (val : F → Option ℚ) (P : PolyProd n F) (indices : List (Fin n)) :
    Except Err (List (PolyProd n F)) :=
  poleLoopIdx fuel val indices [P]

/-! ### Integration by parts -/

/-- The test of `increase_monomial_power_by_one` (`subtraction.py:244`): the exponent has no variables
and all coefficients are one. -/
def suitable (m : Monomial n F) : Bool :=
  m.exponent.terms.all (fun t => decide (t.1 = fun _ => 0)) &&
    m.exponent.terms.all (fun t => decide (t.2 = 1))

/-- `subtraction.py:248-252`: increase the power of `index` in the first suitable factor. -/
def increaseFirst (j : Fin n) : List (Monomial n F) → Option (List (Monomial n F))
  | [] => none
  | m :: ms =>
    if suitable m then some ({ m with expo := Function.update m.expo j (m.expo j + 1) } :: ms)
    else (increaseFirst j ms).map (m :: ·)

/-- `subtraction.py:240-259` `increase_monomial_power_by_one`. -/
def increasePower (j : Fin n) (monos : List (Monomial n F)) : List (Monomial n F) :=
  match increaseFirst j monos with
  | some ms => ms
  | none => { expo := Function.update (fun _ => 0) j 1, coeff := 1,
              exponent := ⟨[((fun _ => 0), 1)]⟩ } :: monos

/-- `subtraction.py:217-279` `_integrate_by_parts_single_index(polyprod, power_goal, index)`; `steps`
bounds the recursion depth (Python: unbounded; the recursion ends because the power increases by one
in each step). -/
def ibpSingle (fuel : Nat) (val : F → Option ℚ) (goal : ℚ) (j : Fin n) :
    Nat → PolyProd n F → Except Err (List (PolyProd n F))
  | 0, _ => .error .outOfFuel
  | steps + 1, P =>
    let a := ect j P.monos
    let full := fullExponent j P.monos
    match val a with
    | none => .error .typeError
    | some q =>
      if q < 0 ∧ noRegulator full a = true then .error .oneOverZero
      else if goal ≤ q then .ok [P]
      else do
        let newBase := P.regBase.mul (full.addScalar 1)
        let c1 ← lift (Expr.replace 1 (fun _ => 1) j fuel (.prod P.calI))
        let c1s ← lift (Expr.simplify fuel c1)
        let d ← lift (Expr.derive fuel (.prod P.calI) j)
        let ds ← lift (Expr.simplify fuel (.prod [const (-1), d]))
        let rest ← ibpSingle fuel val goal j steps
          { monos := increasePower j P.monos, regBase := newBase, regExp := P.regExp, calI := [ds] }
        .ok ({ monos := P.monos.map (Monomial.setOne j), regBase := newBase, regExp := P.regExp,
               calI := [c1s] } :: rest)

/-- The loop over `zip(power_goals, indices)` (`subtraction.py:361-365`). -/
def ibpLoopIdx (fuel : Nat) (val : F → Option ℚ) :
    List (ℚ × Fin n) → List (PolyProd n F) → Except Err (List (PolyProd n F))
  | [], l => .ok l
  | g :: gs, l => do
    let l' ← extendAll (ibpSingle fuel val g.1 g.2 fuel) l
    ibpLoopIdx fuel val gs l'

/-- `subtraction.py:281-366` `integrate_by_parts(polyprod, power_goals, indices)` with a list of
`power_goals` (a single number is repeated, `:358-359`). -/
def integrateByParts (fuel : Nat) (val : F → Option ℚ) (P : PolyProd n F) (goals : List ℚ)
    (indices : List (Fin n)) : Except Err (List (PolyProd n F)) :=
  ibpLoopIdx fuel val (goals.zip indices) [P]

end Subtraction
end SecDec
