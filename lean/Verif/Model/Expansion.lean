import Verif.Model.Expr
/-
Model of pySecDec/expansion.py: `expand_singular`, `expand_Taylor` and `misc.flatten`.
`expand_ginac`, `expand_sympy` and `sympy_to_nested_Polynomial` are in `Model/Prefactor`.
-/
namespace SecDec
namespace Expansion
open Poly
variable {n : Nat} {F : Type} [Field F] [DecidableEq F]

/-- The argument `product` of `_expand_singular_step` (`expansion.py:85-88`): a `Product` of factors
`<polynomial>` (`false`) and `<polynomial>**-1` (`true`).  Simplification: anything else is a
`TypeError` (`expansion.py:104-118`), excluded here by the type. -/
structure RatProd (n : Nat) (F : Type) where
  factors : List (Bool × Poly n F)

/-- The exceptions: `OrderError` (`expansion.py:22-30`), the failed assertion on the order
(`expansion.py:52`), `IndexError` of `indices.pop()` for an empty list (`expansion.py:211`), the
`ValueError` of `min` of an empty column; `outOfFuel` exists in the model only. -/
inductive Err where
  | order
  | assertion
  | index
  | emptyMin
  | outOfFuel
  deriving DecidableEq

/-- `Polynomial(np.zeros([1,N]), np.array([1]))` (`expansion.py:101-102`). -/
def onePoly : Poly n F := ⟨[((fun _ => 0), 1)]⟩

/-- The loop `for factor in product.factors` (`expansion.py:107-118`): the numerator and the
denominator. -/
def numDen (P : RatProd n F) : Poly n F × Poly n F :=
  P.factors.foldl (fun acc f => if f.1 then (acc.1, acc.2.mul f.2) else (acc.1.mul f.2, acc.2))
    (onePoly, onePoly)

/-- The inner function `derive_polyrational` (`expansion.py:131-139`). -/
def derivePolyrational (num den : Poly n F) (i : Fin n) : Poly n F × Poly n F :=
  (((num.derive i).mul den).sub ((den.derive i).mul num), den.mul den)

/-- The local variables of the loop `expansion.py:155-180`: `numerator`, `denominator`, `i_factorial`,
`nonsingular_series_coeffs`, `nonsingular_series_zero_coeffs`. -/
structure State (n : Nat) (F : Type) where
  num : Poly n F
  den : Poly n F
  fact : F
  coeffs : List (RatProd n F)
  zeros : List (RatProd n F)

/-- `<polynomial>.coeffs * i_factorial` (`expansion.py:178`). -/
def scaleCoeffs (p : Poly n F) (c : F) : Poly n F := ⟨p.terms.map (fun t => (t.1, t.2 * c))⟩

/-- The body of the loop `for i in range(order + highest_pole)` (`expansion.py:155-180`). -/
def loopBody (index : Fin n) (s : State n F) (i : Nat) : State n F :=
  let fact := s.fact * ((i : F) + 1)
  let nd := derivePolyrational s.num s.den index
  let thisNum := (nd.1.replace index 0).simplify
  if thisNum.terms.all (fun t => decide (t.2 = 0)) then
    { num := nd.1, den := nd.2, fact := fact, coeffs := s.coeffs,
      zeros := s.zeros ++ [⟨[(false, thisNum)]⟩] }
  else
    let coeffs := if s.zeros.isEmpty then s.coeffs else s.coeffs ++ s.zeros
    let thisDen := (nd.2.replace index 0).simplify
    { num := nd.1, den := nd.2, fact := fact,
      coeffs := coeffs ++ [⟨[(false, thisNum), (true, scaleCoeffs thisDen fact)]⟩], zeros := [] }

/-- `expansion.py:71-186` `_expand_singular_step(product, index, order)`.  The `expolist` of the
result has the entries `-highest_pole, 1-highest_pole, ...` in the column `index` and zero elsewhere
(`expansion.py:149-150`, cut to the number of coefficients in `:183-184`). -/
def singStep (P : RatProd n F) (index : Fin n) (order : Int) : Except Err (Poly n (RatProd n F)) :=
  let nd := numDen P
  match nd.1.minPower index, nd.2.minPower index with
  | some numMin, some denMin =>
    let num := nd.1.shiftPower index (-numMin)
    let den := nd.2.shiftPower index (-denMin)
    let highestPole := -numMin + denMin
    if order < -highestPole then .error .order
    else
      let thisNum := (num.replace index 0).simplify
      let thisDen := (den.replace index 0).simplify
      let s := (List.range (order + highestPole).toNat).foldl (loopBody index)
        { num := num, den := den, fact := 1,
          coeffs := [⟨[(false, thisNum), (true, thisDen)]⟩], zeros := [] }
      .ok ⟨s.coeffs.zipIdx.map (fun c => (Function.update (fun _ => 0) index ((c.2 : Int) - highestPole), c.1))⟩
  | _, _ => .error .emptyMin

/-- The loop `expansion.py:62-65` of `_expand_Taylor_step`: `e` is `expression`, `fact` is
`inverse_i_factorial`, `k` is `order_i`, `count` iterations remain. -/
def taylorLoop (fuel : Nat) (index : Fin n) : Nat → Nat → F → Expr n F → Except Err (List (Expr n F))
  | 0, _, _, _ => .ok []
  | count + 1, k, fact, e =>
    let fact' := fact / ((k : F) + 1)
    match Expr.simplify fuel e with
    | none => .error .outOfFuel
    | some e1 => match Expr.derive fuel e1 index with
      | none => .error .outOfFuel
      | some e2 => match Expr.replace 0 (fun _ => 0) index fuel e2 with
        | none => .error .outOfFuel
        | some e3 => match taylorLoop fuel index count (k + 1) fact' e2 with
          | .error err => .error err
          | .ok rest => .ok (Expr.mulExpr fuel e3 (.num fact') :: rest)

/-- `expansion.py:32-69` `_expand_Taylor_step(expression, index, order)`.  `fuel` bounds the recursion
of the methods of the expression. -/
def taylorStep (fuel : Nat) (e : Expr n F) (index : Fin n) (order : Int) :
    Except Err (Poly n (Expr n F)) :=
  if order < 0 then .error .assertion
  else match Expr.replace 0 (fun _ => 0) index fuel e with
    | none => .error .outOfFuel
    | some e0 => match taylorLoop fuel index order.toNat 0 1 e with
      | .error err => .error err
      | .ok cs => .ok ⟨(e0 :: cs).zipIdx.map (fun c => (Function.update (fun _ => 0) index (c.2 : Int), c.1))⟩

/-- A polynomial whose coefficients are again polynomials, or coefficients of type `C` (which
`misc.flatten` does not look into, because of its bounded depth). -/
inductive Nest (n : Nat) (C : Type) where
  | leaf (c : C)
  | node (terms : List (Expo n × Nest n C))

variable {C : Type}

/-- The inner function `recursive_expansion` of `_expand_and_flatten` (`expansion.py:206-220`); the
lists `indices` and `orders` have the same length (asserted in `:200`) and are given as a list of pairs in the
order in which they are used. -/
def recursiveExpansion (step : C → Fin n → Int → Except Err (Poly n C)) :
    List (Fin n × Int) → C → Except Err (Nest n C)
  | [], _ => .error .index
  | [(i, o)], e => do
    let p ← step e i o
    .ok (.node (p.terms.map (fun t => (t.1, .leaf t.2))))
  | (i, o) :: j :: rest, e => do
    let p ← step e i o
    let ts ← p.terms.mapM (fun t => do
      let r ← recursiveExpansion step (j :: rest) t.2
      .ok (t.1, r))
    .ok (.node ts)

/-- `misc.py:389-419` `flatten(polynomial, depth)`, for `depth >= 1`: the list of exponents and
coefficients of the result. -/
def flatten : Nat → List (Expo n × Nest n C) → List (Expo n × Nest n C)
  | 0, ts => ts
  | depth + 1, ts => ts.flatMap (fun t => match t.2 with
    | .leaf c => [(t.1, .leaf c)]
    | .node us => (if depth > 0 then flatten depth us else us).map (fun u => (t.1 + u.1, u.2)))

/-- `expansion.py:188-227` `_expand_and_flatten(expression, indices, orders, expansion_one_variable)`. -/
def expandAndFlatten (step : C → Fin n → Int → Except Err (Poly n C)) (l : List (Fin n × Int)) (e : C) :
    Except Err (Nest n C) := do
  let r ← recursiveExpansion step l e
  if l.length = 1 then .ok r
  else match r with
    | .leaf c => .ok (.leaf c)
    | .node ts => .ok (.node (flatten (l.length - 1) ts))

/-- `expansion.py:231-262` `expand_singular(product, indices, orders)`. -/
def expandSingular (P : RatProd n F) (l : List (Fin n × Int)) : Except Err (Nest n (RatProd n F)) :=
  expandAndFlatten singStep l P

/-- `expansion.py:264-286` `expand_Taylor(expression, indices, orders)`. -/
def expandTaylor (fuel : Nat) (e : Expr n F) (l : List (Fin n × Int)) : Except Err (Nest n (Expr n F)) :=
  expandAndFlatten (taylorStep fuel) l e

end Expansion
end SecDec
