import Verif.Model.Expr
import Verif.Model.Orders
/-
Model of the symbolic functions which keep track of their derivatives: `Function` of pySecDec/algebra.py, `MaxDegreeFunction`
and `RealPartFunction` of pySecDec/code_writer/make_package.py.

Simplifications: the cache of computed derivatives (`self.derivatives`, `self.differentiated_args`) is not modelled; a cached
call returns a copy of the earlier result and leaves `derivative_tracks` alone, so every history of calls has the effect of the
history without the repeated calls.  `derivative_tracks` is shared by all objects which are obtained from one function.
-/
namespace SecDec
namespace Func
open Orders (dget dset)

variable {n a : ℕ} {F : Type} [CommRing F] [DecidableEq F]

/-- A multiindex, a tuple of length `number_of_variables` (algebra.py:178). -/
abbrev Multi (n : ℕ) := Fin n → ℕ

/-- `derivative_tracks` (algebra.py:106-112): for every multiindex how to obtain the derivative. -/
abbrev Tracks (n : ℕ) := List (Multi n × Fin n × Multi n)

/-- `_derivative_muliindex_to_name` (make_package.py:620-634). -/
def derivativeName (basename : List Char) (α : Multi n) : List Char :=
  List.replicate (∑ i, α i) 'd' ++ basename ++
    (List.finRange n).flatMap fun i => (List.replicate (α i) ('d' :: (toString i.val).toList)).flatten

/-- A `Function` or a `MaxDegreeFunction` with `a` arguments in `n` variables (algebra.py:164-183, make_package.py:727-730).
`maxdegrees j = none` stands for infinity, which is always the case for a plain `Function`. -/
structure Fn (n a : ℕ) (F : Type) where
  symbol : List Char
  basename : List Char
  args : Fin a → Expr n F
  multi : Multi n
  maxdegrees : Fin a → Option ℕ

/-- `Function(symbol, *arguments)`, `MaxDegreeFunction(symbol, *arguments, maxdegrees=...)`. -/
def Fn.new (symbol : List Char) (args : Fin a → Expr n F) (maxdegrees : Fin a → Option ℕ) : Fn n a F :=
  ⟨symbol, symbol, args, fun _ => 0, maxdegrees⟩

/-- `type(differentiated_arg) is Polynomial and (differentiated_arg.coeffs == 0).all()` (algebra.py:291, make_package.py:761). -/
def isZero : Expr n F → Bool
  | .poly ts => Expr.allCoeffsZero ts
  | _ => false

/-- The body of the loop over the arguments in `derive` (algebra.py:283-314, make_package.py:750-787).  There are `n` entries in a
multiindex, an argument with a higher number raises an `IndexError` (`none`). -/
def Fn.deriveArg (fuel : ℕ) (f : Fn n a F) (i : Fin n) (s : List (Expr n F × Fn n a F) × Tracks n) (j : Fin a) :
    Option (List (Expr n F × Fn n a F) × Tracks n) :=
  if f.maxdegrees j = some 0 then some s
  else (Expr.derive fuel (f.args j) i).bind fun d =>
    if isZero d then some s
    else if h : j.val < n then
      let multi := Function.update f.multi ⟨j, h⟩ (f.multi ⟨j, h⟩ + 1)
      let symbol := List.replicate (∑ k, multi k) 'd' ++ f.basename ++
        (List.finRange n).flatMap fun k => (List.replicate (multi k) ('d' :: (toString k.val).toList)).flatten
      some (s.1 ++ [(d, ⟨symbol, f.basename, f.args, multi,
          Function.update f.maxdegrees j ((f.maxdegrees j).map (· - 1))⟩)],
        dset s.2 multi (⟨j, h⟩, f.multi))
    else none

/-- `derive` (algebra.py:267-320, make_package.py:732-796): the summands, each the product of the derivative of an argument and of
a new function; the zero polynomial if there are none. -/
def Fn.derive (fuel : ℕ) (f : Fn n a F) (i : Fin n) (tracks : Tracks n) : Option (List (Expr n F × Fn n a F) × Tracks n) :=
  (List.finRange a).foldlM (f.deriveArg fuel i) ([], tracks)

/-- `MaxDegreeFunction.get_maxdegrees` (make_package.py:715-725) for a polynomial with the terms `ts`; `indices = None` are all
variables.  For other expressions all entries are infinite. -/
def getMaxdegrees (ts : Expr.Terms n F) (indices : Option (List (Fin n))) (j : Fin n) : Option ℕ :=
  if ts.any (fun t => t.1 j < 0) then none
  else if (indices.map (fun l => l.contains j)).getD true then
    some ((ts.map fun t => (t.1 j).toNat).foldl max 0)
  else none

/-! ### Histories -/

/-- The function objects in use and their common `derivative_tracks`. -/
structure State (n a : ℕ) (F : Type) where
  objs : List (Fn n a F)
  tracks : Tracks n

/-- The operations: `objs[k].derive(i)`; and `replace`, `simplify` or `copy`, which make an object with other arguments
(algebra.py:246-261, :322-331, make_package.py:798-806). -/
inductive Op (n a : ℕ) (F : Type) where
  | derive (k : ℕ) (i : Fin n)
  | setArgs (k : ℕ) (args : Fin a → Expr n F)

/-- One operation. -/
def step (fuel : ℕ) (s : State n a F) : Op n a F → Option (State n a F)
  | .derive k i => (s.objs[k]?).bind fun f => (f.derive fuel i s.tracks).map fun r => ⟨s.objs ++ r.1.map (·.2), r.2⟩
  | .setArgs k args => (s.objs[k]?).map fun f => ⟨s.objs ++ [{ f with args := args }], s.tracks⟩

/-- A history of operations on a new function. -/
def run (fuel : ℕ) (f : Fn n a F) (ops : List (Op n a F)) : Option (State n a F) := ops.foldlM (step fuel) ⟨[f], []⟩

/-! ### compute_derivatives -/

/-- `update` in `compute_derivatives` (algebra.py:215-235): the new `repository` and the derivative; `depth` bounds the recursion.
A missing recipe raises a `KeyError` (`none`). -/
def update (fuel : ℕ) (tracks : Tracks n) (e : Expr n F) : (depth : ℕ) → List (Multi n × Expr n F) → Multi n →
    Option (List (Multi n × Expr n F) × Expr n F)
  | 0, _, _ => none
  | depth + 1, repo, α =>
    match dget repo α with
    | some d => some (repo, d)
    | none =>
      if ∑ i, α i = 0 then some (repo, e)
      else (dget tracks α).bind fun r =>
        (update fuel tracks e depth repo r.2).bind fun q =>
          (Expr.derive fuel q.2 r.1).bind fun d =>
            (Expr.simplify fuel d).map fun d => (dset q.1 α d, d)

/-- `compute_derivatives` (algebra.py:200-244). -/
def computeDerivatives (fuel : ℕ) (tracks : Tracks n) (e : Expr n F) : Option (List (Multi n × Expr n F)) :=
  (Expr.simplify fuel e).bind fun e =>
    (tracks.map (·.1)).foldlM (fun repo α => (update fuel tracks e fuel repo α).map (·.1)) []

end Func
end SecDec
