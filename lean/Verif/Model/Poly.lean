import Mathlib.Data.Int.Basic
import Mathlib.Algebra.Ring.Defs
import Mathlib.Algebra.Field.Defs
import Mathlib.Data.List.FinRange
import Mathlib.Data.Fintype.Pi
import Mathlib.Algebra.Group.Pi.Basic
import Verif.Model.ArgSort
/-
Model of `class Polynomial` of pySecDec/algebra.py (flat coefficients).
-/
namespace SecDec

/-- One row of `expolist`: the powers of the `n` variables (negative powers are allowed,
`algebra.py:347-349`). -/
abbrev Expo (n : Nat) := Fin n → Int

/-- `algebra.py:333-421` `class Polynomial`.  `expolist` and `coeffs` have the same length
(asserted in the constructor), hence one list of pairs; every row has length `n`
(`number_of_variables`, asserted in the constructor).
Simplification: `polysymbols` only affect printing and are omitted; coefficients are elements of an
arbitrary commutative ring with decidable equality (numbers, or sympy expressions in canonical
form); coefficients that are themselves `_Expression`s are modelled in `Model/Expr.lean`. -/
structure Poly (n : Nat) (R : Type) where
  terms : List (Expo n × R)

namespace Poly
variable {n : Nat} {R : Type}

/-- `expolist` as an array. -/
def expolist (p : Poly n R) : List (Expo n) := p.terms.map (·.1)
/-- `coeffs` as an array. -/
def coeffs (p : Poly n R) : List R := p.terms.map (·.2)

section ring
variable [CommRing R] [DecidableEq R]

/-- The polynomial `0` built as `Polynomial(np.zeros([1,n]), [0])`
(e.g. `algebra.py:556`, `algebra.py:614`, `algebra.py:693-696`). -/
def zeroPoly : Poly n R := ⟨[(fun _ => 0, 0)]⟩

/-- State of the merge loop in `simplify`: the mutable array `self.coeffs` and the local variable
`distance_to_nonzero_previous`. -/
structure MergeState (R : Type) where
  coeffs : List R
  dist : Nat

/-- One iteration `i` of the loop `algebra.py:676-686`. -/
def mergeStep (expos : List (Expo n)) (s : MergeState R) (i : Nat) : MergeState R :=
  if s.coeffs.getD i 0 = 0 then
    { s with dist := s.dist + 1 }
  else
    if expos.getD (i - s.dist) (fun _ => 0) = expos.getD i (fun _ => 0) then
      let c1 := s.coeffs.set i (s.coeffs.getD i 0 + s.coeffs.getD (i - s.dist) 0)
      let c2 := c1.set (i - s.dist) 0
      { coeffs := c2, dist := 1 }
    else
      { s with dist := 1 }

/-- The loop `for i in range(1,len(self.coeffs))` of `algebra.py:674-686`. -/
def mergeLoop (expos : List (Expo n)) (cs : List R) : List R :=
  ((List.range' 1 (cs.length - 1)).foldl (mergeStep expos) { coeffs := cs, dist := 1 }).coeffs

/-- `algebra.py:648-698` `Polynomial.simplify`.
Simplification: returns the new object instead of mutating `self`; `deep` is irrelevant for flat
coefficients. -/
def simplify (p : Poly n R) : Poly n R :=
  let sortKey := argsort2D (p.expolist.map List.ofFn)
  let expos := takeIdx p.expolist sortKey
  let cs := takeIdx p.coeffs sortKey
  let cs' := mergeLoop expos cs
  let nz := (expos.zip cs').filter (fun t => decide (t.2 ≠ 0))
  if nz.length = 0 then zeroPoly else ⟨nz⟩

/-- `algebra.py:623-625` `Polynomial.__neg__`. -/
def neg (p : Poly n R) : Poly n R := ⟨p.terms.map (fun t => (t.1, -t.2))⟩

/-- `algebra.py:577-591` `_sub_or_add` for two `Polynomial`s (the assertion on the number of
variables is the type index `n`). -/
def subOrAdd (p q : Poly n R) (sub : Bool) : Poly n R :=
  simplify ⟨p.terms ++ q.terms.map (fun t => (t.1, if sub then -t.2 else t.2))⟩

/-- `algebra.py:564-567` `__add__`. -/
def add (p q : Poly n R) : Poly n R := p.subOrAdd q false
/-- `algebra.py:569-571` `__sub__`. -/
def sub (p q : Poly n R) : Poly n R := p.subOrAdd q true

/-- `algebra.py:593-596` `_sub_or_add` for a number: the constant is prepended. -/
def subOrAddScalar (p : Poly n R) (c : R) (sub : Bool) : Poly n R :=
  simplify ⟨((fun _ => 0), if sub then -c else c) :: p.terms⟩

/-- `p + c` and `c + p` (`algebra.py:564-567`). -/
def addScalar (p : Poly n R) (c : R) : Poly n R := p.subOrAddScalar c false
/-- `p - c` (`algebra.py:569-571`). -/
def subScalar (p : Poly n R) (c : R) : Poly n R := p.subOrAddScalar c true
/-- `c - p`: `algebra.py:573-575` `__rsub__`, `(-self) + other`. -/
def rsubScalar (p : Poly n R) (c : R) : Poly n R := p.neg.addScalar c

/-- `algebra.py:600-608` `__mul__` for two `Polynomial`s: outer loop over `self`, inner over
`other`. -/
def mul (p q : Poly n R) : Poly n R :=
  simplify ⟨p.terms.flatMap (fun s => q.terms.map (fun t => (t.1 + s.1, t.2 * s.2)))⟩

/-- `algebra.py:610-616` `__mul__` for a number, with the shortcuts for 1 and 0. -/
def mulScalar (p : Poly n R) (c : R) : Poly n R :=
  if c = 1 then p
  else if c = 0 then zeroPoly
  else ⟨p.terms.map (fun t => (t.1, t.2 * c))⟩

/-- The inner function `iterative_pow` of `algebra.py:634-644` (here for exponents `≥ 1`; exponent
`0` is never passed). -/
def iterativePow (self polynomial : Poly n R) (exponent : Nat) : Poly n R :=
  if h : exponent ≤ 1 then polynomial
  else
    let half := exponent / 2
    let o := iterativePow self polynomial half
    let outpoly := o.mul o
    if 2 * half = exponent then outpoly else outpoly.mul self
termination_by exponent
decreasing_by omega

/-- `algebra.py:627-646` `Polynomial.__pow__` for a non-negative integer exponent (other exponents
give a `Pow` expression, see `Model/Expr.lean`). -/
def pow (p : Poly n R) (exponent : Nat) : Poly n R :=
  if exponent = 0 then ⟨[((fun _ => 0), 1)]⟩ else iterativePow p p exponent

/-- `algebra.py:511-558` `Polynomial.derive` for flat coefficients (`summand2` is `False`). -/
def derive (p : Poly n R) (i : Fin n) : Poly n R :=
  let s1 := (p.terms.filter (fun t => decide (t.1 i ≠ 0))).map
    (fun t => (Function.update t.1 i (t.1 i - 1), t.2 * ((t.1 i : Int) : R)))
  if s1.length = 0 then zeroPoly else ⟨s1⟩

end ring

/-- `algebra.py:479-496` `has_constant_term(indices)`; `none` means all variables. -/
def hasConstantTerm (p : Poly n R) (indices : Option (List (Fin n))) : Bool :=
  p.terms.any (fun t => match indices with
    | none => (List.finRange n).all (fun i => t.1 i == 0)
    | some is => is.all (fun i => t.1 i == 0))

/-- `algebra.py:498-509` `becomes_zero_for(zero_params)`. -/
def becomesZeroFor (p : Poly n R) (zeroParams : List (Fin n)) : Bool :=
  p.terms.all (fun t => zeroParams.any (fun i => decide (t.1 i > 0)))

section field
variable [Field R] [DecidableEq R]

/-- The coefficient part of `replace`, `algebra.py:703-729`: branch `value == 0` keeps the
coefficients of the rows with power zero and zeroes all others; branch `value == 1` copies the
coefficients; otherwise multiply by `value**int(power)`. -/
def replaceCoeff (value : R) (t : Expo n × R) (i : Fin n) : R :=
  if value = 0 then (if t.1 i = 0 then t.2 else 0)
  else if value = 1 then t.2
  else value ^ (t.1 i) * t.2

/-- `algebra.py:701-755` `Polynomial.replace(index, value, remove=False)` for flat coefficients:
the exponent of the replaced variable is set to zero. -/
def replace (p : Poly n R) (i : Fin n) (value : R) : Poly n R :=
  ⟨p.terms.map (fun t => (Function.update t.1 i 0, replaceCoeff value t i))⟩

/-- `algebra.py:701-755` `Polynomial.replace(index, value, remove=True)` for flat coefficients:
the column of the replaced variable is deleted. -/
def replaceRemove (p : Poly (n+1) R) (i : Fin (n+1)) (value : R) : Poly n R :=
  ⟨p.terms.map (fun t => (fun k => t.1 (i.succAbove k), replaceCoeff value t i))⟩

end field

/-- `expolist[:,parameter].min()`; numpy raises `ValueError` on an empty array (`none`). -/
def minPower (p : Poly n R) (i : Fin n) : Option Int := (p.terms.map (fun t => t.1 i)).min?

/-- `expolist[:,i] += k` for all rows. -/
def shiftPower (p : Poly n R) (i : Fin n) (k : Int) : Poly n R :=
  ⟨p.terms.map (fun t => (Function.update t.1 i (t.1 i + k), t.2))⟩

/-- One round of the loop of `refactorize` (`algebra.py:1882-1885`), or `refactorize` with one
parameter in `decomposition/common.py:113-116`; `prod = (monomial, polynomial)`. -/
def refactorizeOne (prod : Poly n R × Poly n R) (i : Fin n) : Option (Poly n R × Poly n R) :=
  match prod.2.minPower i with
  | none => none
  | some k => some (prod.1.shiftPower i k, prod.2.shiftPower i (-k))

/-- `algebra.py:1855-1885` `refactorize(polyprod, *parameters)`, identical to
`decomposition/common.py:88-116`.  With no parameters all columns are treated at once
(`min(axis=0)`), which is the same as column by column. `none` is numpy's `ValueError` for an empty
polynomial. -/
def refactorize (prod : Poly n R × Poly n R) (parameters : List (Fin n)) :
    Option (Poly n R × Poly n R) :=
  (if parameters.isEmpty then List.finRange n else parameters).foldlM refactorizeOne prod

/-- `algebra.py:757-768` the method `Polynomial.refactorize(*parameters)`: start from the unit
monomial. -/
def refactorizeMethod [One R] (p : Poly n R) (parameters : List (Fin n)) :
    Option (Poly n R × Poly n R) :=
  refactorize (⟨[((fun _ => 0), 1)]⟩, p) parameters

end Poly
end SecDec
