import Mathlib.Algebra.Order.Floor.Defs
import Mathlib.Data.Int.Basic
import Mathlib.Algebra.BigOperators.Fin
import Mathlib.Data.Nat.Factorial.Basic
import Verif.Model.Poly
/-
Model of pySecDec/make_regions.py.
-/
namespace SecDec
namespace Regions

variable {n : Nat} {F : Type}

/-- `algebra.py:790-836` `ExponentiatedPolynomial`, a polynomial to the power of another one.
Simplification: flat coefficients.  In `make_regions` all exponents are polynomials in the same symbols
(`make_regions.py:59-97` `_parse_expressions`); a number is the constant polynomial. -/
structure EPoly (n : Nat) (F : Type) where
  base : Poly n F
  exponent : Poly n F

/-- `make_regions.py:177-212` `apply_region`, for one polynomial: the column of the expansion parameter is
overwritten by the scalar product of the powers and the region vector. -/
def applyRegion (i : Fin n) (v : Fin n → Int) (p : Poly n F) : Poly n F :=
  ⟨p.terms.map (fun t => (Function.update t.1 i (∑ j, t.1 j * v j), t.2))⟩

section field
variable [Field F] [DecidableEq F]

/-- `make_regions.py:263-267`: the polynomial `1*p_k`. -/
def dummy (k : Fin n) : Poly n F := ⟨[(fun j => if j = k then 1 else 0, 1)]⟩

/-- Python's product `1*a*b*...` of a list of polynomials; `none` is the number one
(`make_regions.py:270`, `:276-281`). -/
def prodList : List (Poly n F) → Option (Poly n F)
  | [] => none
  | p :: ps => some (ps.foldl Poly.mul p)

/-- The product of a polynomial and a result of `prodList`. -/
def mulOpt (p : Poly n F) : Option (Poly n F) → Poly n F
  | none => p.mulScalar 1
  | some q => p.mul q

/-- `make_regions.py:276-284`: `summand1 + summand2` for the polynomial number `k`. -/
def summand (ps : List (EPoly n F)) (N : Poly n F) (i : Fin n) (names : List (Fin n)) (k : Nat)
    (p : EPoly n F) (name : Fin n) : Poly n F :=
  let dummies := (names.take ps.length).map dummy
  let summand1 := mulOpt ((N.mul p.exponent).mul (p.base.derive i)) (prodList (dummies.eraseIdx k))
  let summand2 := mulOpt ((N.derive name).mul (p.base.derive i)) (prodList dummies)
  summand1.add summand2

/-- `make_regions.py:215-292` `derive_prod(poly_list, numerator, index, polynomial_name_indices)`.
`none`: `IndexError`, there are less names than polynomials. -/
def deriveProd (ps : List (EPoly n F)) (N : Poly n F) (i : Fin n) (names : List (Fin n)) :
    Option (List (EPoly n F) × Poly n F) :=
  if ps.length ≤ names.length then
    let start := mulOpt (N.derive i) (prodList ((names.take ps.length).map dummy))
    some (ps.map (fun p => ⟨p.base, p.exponent.subScalar 1⟩),
      (ps.zip names).zipIdx.foldl (fun acc q => acc.add (summand ps N i names q.2 q.1.1 q.1.2)) start)
  else none

/-- The factors of a yielded `Product`: the exponentiated polynomials and the numerator. -/
structure Term (n : Nat) (F : Type) where
  polys : List (EPoly n F)
  numerator : Poly n F

/-- `term.replace(index, 0, remove=True)` (`make_regions.py:332`, `:346`; `algebra.py:701-755`): the
exponents are replaced, too. -/
def replaceTerm (t : Term (n+1) F) (i : Fin (n+1)) : Term n F :=
  ⟨t.polys.map (fun p => ⟨p.base.replaceRemove i 0, p.exponent.replaceRemove i 0⟩), t.numerator.replaceRemove i 0⟩

/-- all powers are zero: `(exponent.expolist == 0).all()` -/
def isConst (p : Poly n F) : Bool := p.terms.all (fun t => (List.finRange n).all (fun j => t.1 j == 0))

/-- `algebra.py:914-943` `ExponentiatedPolynomial.simplify`, the changes of the object (the return value is
ignored, `make_regions.py:334`, `:354`).  A constant exponent, then a number, stays a constant
polynomial. -/
def simplifyInPlace (p : EPoly n F) : EPoly n F :=
  let e := p.exponent.simplify
  if isConst e = true ∧ (e.terms.headD (fun _ => 0, 0)).2 = 0 then ⟨⟨[(fun _ => 0, 1)]⟩, ⟨[(fun _ => 0, 1)]⟩⟩
  else if isConst e = true ∧ (e.terms.headD (fun _ => 0, 0)).2 = 1 then ⟨p.base, e⟩
  else ⟨p.base.simplify, e⟩

/-- `make_regions.py:348-354` for one exponentiated polynomial: it is only simplified if the exponent
depends on a variable. -/
def simplifyUnlessConst (p : EPoly n F) : EPoly n F :=
  let e := p.exponent.simplify
  if isConst e = true then ⟨p.base, e⟩ else simplifyInPlace ⟨p.base, e⟩

/-- `make_regions.py:330-335`: the term of order zero. -/
def firstTerm (ps : List (EPoly (n+1) F)) (N : Poly (n+1) F) (i : Fin (n+1)) : Term n F :=
  let t := replaceTerm ⟨ps, N⟩ i
  ⟨t.polys.map simplifyInPlace, t.numerator.simplify⟩

/-- `make_regions.py:343-357`: the term of order `k >= 1` from the `k`-th derivative. -/
def laterTerm (d : List (EPoly (n+1) F) × Poly (n+1) F) (i : Fin (n+1)) (k : Nat) : Term n F :=
  let t := replaceTerm ⟨d.1, d.2.mulScalar ((1 : F) / (Nat.factorial k : F))⟩ i
  ⟨t.polys.map simplifyUnlessConst, t.numerator.simplify⟩

/-- `make_regions.py:340-361`, the `while` loop: the terms of the orders `k, ..., k + fuel - 1`, where `d` is
the `k`-th derivative. -/
def laterTerms (i : Fin (n+1)) (names : List (Fin (n+1))) :
    Nat → Nat → List (EPoly (n+1) F) × Poly (n+1) F → Option (List (Term n F))
  | 0, _, _ => some []
  | fuel+1, k, d => do
    let d' ← deriveProd d.1 d.2 i names
    let ts ← laterTerms i names fuel (k+1) d'
    some (laterTerm d i k :: ts)

/-- `make_regions.py:295-361` `expand_region(poly_list, numerator, index, order,
polynomial_name_indices)`: the list of the yielded terms. -/
def expandRegion (ps : List (EPoly (n+1) F)) (N : Poly (n+1) F) (i : Fin (n+1)) (order : Int)
    (names : List (Fin (n+1))) : Option (List (Term n F)) :=
  if order < 0 then some []
  else do
    let d ← deriveProd ps N i names
    let ts ← laterTerms i names order.toNat 1 d
    some (firstTerm ps N i :: ts)

/-! ### one region -/

/-- `Polynomial.refactorize(smallness_parameter_index)` (`algebra.py:757-768`, `:945-961`): the power pulled
out and the remaining polynomial.  `none`: no terms. -/
def pullOut (i : Fin n) (p : Poly n F) : Option (Int × Poly n F) :=
  (p.minPower i).map (fun m => (m, p.shiftPower i (-m)))

/-- `make_regions.py:490`, `:497-504` for one polynomial; the exponent is not changed. -/
def rescale (i : Fin n) (v : Fin n → Int) (p : EPoly n F) : Option (Int × EPoly n F) :=
  (pullOut i (applyRegion i v p.base)).map (fun r =>
    (r.1, ⟨r.2, p.exponent⟩))

/-- `region + poly_scaling` (`make_regions.py:506-509`). -/
def numeratorRegion (v : Fin n → Int) (names : List (Fin n)) (ms : List Int) : Fin n → Int :=
  fun j => v j + (((names.zip ms).filter (fun q => decide (q.1 = j))).map (·.2)).sum

/-- Everything that is computed for one region before the expansion (`make_regions.py:489-519`). -/
structure Setup (n : Nat) (F : Type) where
  polys : List (EPoly n F)
  numerator : Poly n F
  /-- `power_overall_smallness_parameter` -/
  power : Poly n F
  /-- `power_smallness_parameter_measure` -/
  measure : Int

/-- `make_regions.py:489-519`.  `region[:-1]` are all entries but the one of the smallness parameter. -/
def setup (i : Fin n) (names : List (Fin n)) (v : Fin n → Int) (ps : List (EPoly n F)) (N : Poly n F) :
    Option (Setup n F) := do
  let rs ← ps.mapM (rescale i v)
  let r ← pullOut i (applyRegion i (numeratorRegion v names (rs.map (·.1))) N)
  let power0 := rs.foldl (fun (acc : Poly n F) q => acc.add (q.2.exponent.mulScalar ((q.1 : Int) : F))) Poly.zeroPoly
  some { polys := rs.map (·.2), numerator := r.2, power := power0.addScalar ((r.1 : Int) : F),
         measure := ((List.finRange n).map (fun j => if j = i then 0 else v j)).sum }

end field

section order
variable [Field F] [LinearOrder F] [FloorRing F]

/-- `make_regions.py:513-516`: the power with all regulators set to zero. -/
def noRegulators (p : Poly n F) : F :=
  (p.terms.map (fun t => if (List.finRange n).all (fun j => t.1 j == 0) then t.2 else 0)).sum

/-- `make_regions.py:525-532`: the order of the expansion (`while i <= order`, hence the integer part). -/
def expansionOrder (i : Fin n) (v : Fin n → Int) (order : Int) (s : Setup n F) : Int :=
  let o : F := (order : F) * (v i : F) - noRegulators s.power - (s.measure : F)
  let tindependent := (s.polys.map (·.base) ++ [s.numerator]).all (fun p => p.terms.all (fun t => t.1 i == 0))
  if tindependent = true ∧ 0 ≤ o then 0 else ⌊o⌋

/-- The arguments of one package made by `make_regions.py:536-549`: the smallness parameter to the power
`prefactor / region[smallness_parameter_index]` and the integrand. -/
structure Package (n : Nat) (F : Type) where
  prefactor : Poly (n+1) F
  term : Term n F

/-- `make_regions.py:488-549`, the packages of one region. -/
def regionPackages (i : Fin (n+1)) (names : List (Fin (n+1))) (v : Fin (n+1) → Int) (order : Int)
    (ps : List (EPoly (n+1) F)) (N : Poly (n+1) F) : Option (List (Package n F)) := do
  let s ← setup i names v ps N
  let ts ← expandRegion s.polys s.numerator i (expansionOrder i v order s) names
  some (ts.zipIdx.map (fun t => ⟨(s.power.addScalar (s.measure : F)).addScalar ((t.2 : Nat) : F), t.1⟩))

end order

end Regions
end SecDec
