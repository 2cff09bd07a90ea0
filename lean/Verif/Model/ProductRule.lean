import Mathlib.Data.Int.Basic
import Mathlib.Logic.Function.Basic
import Mathlib.Data.Fintype.Pi
import Mathlib.Data.List.OfFn
import Verif.Model.ArgSort
/-
Model of `class ProductRule` of pySecDec/algebra.py with its shared cache of derivatives.
-/
namespace SecDec
namespace PRule

/-- The operations of `_Expression` that `ProductRule` uses.  `zeroD` is the zero test in `derive`
(`algebra.py:1434-1436`: a `Polynomial` without variables that sympy simplifies to 0), `zeroS` the one in
`simplify` (`algebra.py:1472`, `:1491`: a `Polynomial` with all coefficients zero). -/
structure Ops (n : Nat) (E : Type) where
  derive : E → Fin n → E
  simplify : E → E
  zeroD : E → Bool
  zeroS : E → Bool

/-- A multiindex `n_ijk` for fixed term `i`: the number of derivatives with respect to every variable,
for each of the `m` factors (`factorlist[i]`). -/
abbrev Term (m n : Nat) := Fin m → Fin n → Nat

/-- `self.expressions`: for each factor a dictionary from derivative multiindices to expressions. -/
abbrev Cache (m n : Nat) (E : Type) := Fin m → (Fin n → Nat) → Option E

/-- `self.coeffs` and `self.factorlist` (equally long), as one list. -/
abbrev Obj (m n : Nat) := List (Int × Term m n)

variable {m n : Nat} {E : Type}

/-- `algebra.py:1357-1382` constructor: the cache holds the simplified factors at multiindex 0, one term
with coefficient 1. -/
def initCache (ops : Ops n E) (fs : Fin m → E) : Cache m n E :=
  fun j α => if α = (fun _ => 0) then some (ops.simplify (fs j)) else none

/-- The initial `factorlist` and `coeffs`. -/
def initObj : Obj m n := [(1, fun _ _ => 0)]

/-- `factorlist[:,j,index] += 1` for one term. -/
def incr (t : Term m n) (j : Fin m) (k : Fin n) : Term m n :=
  Function.update t j (Function.update (t j) k (t j k + 1))

/-- `algebra.py:1416-1422`: the stacked new `factorlist` and `coeffs`. -/
def newTerms (o : Obj m n) (k : Fin n) : Obj m n :=
  (List.finRange m).flatMap (fun j => o.map (fun t => (t.1, incr t.2 j k)))

/-- `algebra.py:1427-1434`: make sure that the derivative `α` of factor `j` is in the cache.
`none`: `KeyError` for the lower derivative. -/
def ensure (ops : Ops n E) (k : Fin n) (c : Cache m n E) (j : Fin m) (α : Fin n → Nat) :
    Option (Cache m n E) :=
  match c j α with
  | some _ => some c
  | none =>
    match c j (Function.update α k (α k - 1)) with
    | none => none
    | some lower =>
      some (Function.update c j (Function.update (c j) α (some (ops.simplify (ops.derive lower k)))))

/-- `algebra.py:1425-1437`, one term: fill the cache factor by factor and set the coefficient to zero if
a factor is zero. -/
def fillTerm (ops : Ops n E) (k : Fin n) (t : Term m n) :
    List (Fin m) → Cache m n E → Int → Option (Cache m n E × Int)
  | [], c, coeff => some (c, coeff)
  | j :: js, c, coeff => do
    let c' ← ensure ops k c j (t j)
    let e ← c' j (t j)
    fillTerm ops k t js c' (if coeff ≠ 0 ∧ ops.zeroD e = true then 0 else coeff)

/-- `algebra.py:1424-1437`, all terms. -/
def fillAll (ops : Ops n E) (k : Fin n) : Obj m n → Cache m n E → Option (Cache m n E × Obj m n)
  | [], c => some (c, [])
  | t :: ts, c => do
    let r ← fillTerm ops k t.2 (List.finRange m) c t.1
    let s ← fillAll ops k ts r.1
    some (s.1, (r.2, t.2) :: s.2)

/-- `algebra.py:1399-1442` `derive(index)`: the cache is shared and mutated, a new object is returned. -/
def derive (ops : Ops n E) (c : Cache m n E) (o : Obj m n) (k : Fin n) :
    Option (Cache m n E × Obj m n) :=
  fillAll ops k (newTerms o k) c

/-- Sort key of a term: `factorlist[i]` as an integer matrix. -/
def termKey (t : Term m n) : List (List Int) :=
  List.ofFn (fun j => List.ofFn (fun k => (t j k : Int)))

/-- `algebra.py:1469-1473`, `:1488-1492`: some factor of the term is the zero polynomial. -/
def termZero (ops : Ops n E) (c : Cache m n E) (t : Term m n) : Bool :=
  (List.finRange m).any (fun j => match c j (t j) with
    | some e => ops.zeroS e
    | none => false)

/-- One iteration of the loop `algebra.py:1475-1492`. -/
def simpStep (ops : Ops n E) (c : Cache m n E) (fl : List (Term m n)) (cs : List Int) (i : Nat) :
    List Int :=
  if cs.getD i 0 = 0 then cs
  else
    let cs1 := if fl.getD (i - 1) (fun _ _ => 0) = fl.getD i (fun _ _ => 0) then
        (cs.set i (cs.getD i 0 + cs.getD (i - 1) 0)).set (i - 1) 0
      else cs
    if termZero ops c (fl.getD i (fun _ _ => 0)) then cs1.set i 0 else cs1

/-- `algebra.py:1451-1507` `simplify()`: the mutated object, and `true` if the zero polynomial is
returned instead of `self`. -/
def simplify (ops : Ops n E) (c : Cache m n E) (o : Obj m n) : Obj m n × Bool :=
  let sorted := takeIdx o (argsortND (o.map (fun t => termKey t.2)))
  let fl := sorted.map (·.2)
  let cs0 := sorted.map (·.1)
  let cs1 := if termZero ops c (fl.getD 0 (fun _ _ => 0)) then cs0.set 0 0 else cs0
  let cs := (List.range' 1 (cs1.length - 1)).foldl (simpStep ops c fl) cs1
  let nz := (cs.zip fl).filter (fun t => !decide (t.1 = 0))
  if nz.length = 0 then ([(0, fun _ _ => 0)], true) else (nz, false)

/-- `algebra.py:1509-1518` `to_sum()`: one `Product(coeff, *factors)` per term. `none`: `KeyError`. -/
def toSum (c : Cache m n E) (o : Obj m n) : Option (List (Int × List E)) :=
  o.mapM (fun t => do
    let fs ← (List.finRange m).mapM (fun j => c j (t.2 j))
    some (t.1, fs))

/-- `algebra.py:1520-1528` `replace(index, value)`: every factor of every term is replaced. -/
def replace {E' : Type} (rep : E → E') (c : Cache m n E) (o : Obj m n) : Option (List (Int × List E')) :=
  o.mapM (fun t => do
    let fs ← (List.finRange m).mapM (fun j => (c j (t.2 j)).map rep)
    some (t.1, fs))

/-- The heap: the shared cache and all `ProductRule` objects that point to it. -/
structure Heap (m n : Nat) (E : Type) where
  cache : Cache m n E
  objs : List (Obj m n)

/-- Operations a client can perform on the `i`-th object. -/
inductive Op (n : Nat) where
  | derive (i : Nat) (k : Fin n)
  | simplify (i : Nat)

/-- Effect of an operation; a new object is appended, `simplify` works in place.  `none`: the operation
raises (or the object does not exist). -/
def step (ops : Ops n E) (h : Heap m n E) : Op n → Option (Heap m n E)
  | .derive i k => do
    let o ← h.objs[i]?
    let r ← derive ops h.cache o k
    some ⟨r.1, h.objs ++ [r.2]⟩
  | .simplify i => do
    let o ← h.objs[i]?
    some { h with objs := h.objs.set i (simplify ops h.cache o).1 }

/-- The heap after creating `ProductRule(*fs)`. -/
def start (ops : Ops n E) (fs : Fin m → E) : Heap m n E := ⟨initCache ops fs, [initObj]⟩

/-- Run a history. -/
def run (ops : Ops n E) (h : Heap m n E) : List (Op n) → Option (Heap m n E)
  | [] => some h
  | op :: rest => do
    let h' ← step ops h op
    run ops h' rest

end PRule
end SecDec
