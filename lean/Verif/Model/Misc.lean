import Verif.Model.ArgSort
import Mathlib.Algebra.Ring.Defs
/-
Model of the enumeration helpers of pySecDec/misc.py.
Python iterators are modelled by the list of the values they yield, in order.
-/
namespace SecDec
namespace Misc
variable {α : Type}

/-- Python's `itertools.combinations(s, r)` (used in `misc.py:57`): the length-`r` subsequences of
`s` in lexicographic order of positions. -/
def combinations : List α → Nat → List (List α)
  | _, 0 => [[]]
  | [], _ + 1 => []
  | x :: xs, r + 1 => (combinations xs r).map (x :: ·) ++ combinations xs (r + 1)

/-- Python's `range(start, stop, step)` for `step > 0` (`fuel` bounds the number of elements). -/
def pyRange (start stop step : Nat) : Nat → List Nat
  | 0 => []
  | fuel + 1 => if start < stop then start :: pyRange (start + step) stop step fuel else []

/-- `misc.py:32-58` `powerset(iterable, min_length, stride)`.
Simplification: `min_length ≥ 0`; `stride = 0` is Python's `ValueError` (`none`). -/
def powerset (s : List α) (minLength stride : Nat) : Option (List (List α)) :=
  if stride = 0 then none
  else some ((pyRange minLength (s.length + 1) stride (s.length + 1)).flatMap (combinations s))

/-- `np.arange(l, h)`. -/
def arange (l h : Int) : List Int := (List.range (h - l).toNat).map (fun (k : Nat) => l + k)

/-- `itertools.product` of a list of iterables: first factor varies slowest. -/
def product : List (List α) → List (List α)
  | [] => [[]]
  | l :: ls => l.flatMap (fun a => (product ls).map (a :: ·))

/-- `misc.py:60-87` `rangecomb(low, high)`; `none` is the failed assertion on the lengths. -/
def rangecomb (low high : List Int) : Option (List (List Int)) :=
  if low.length = high.length then
    some (product ((low.zip (high.map (· + 1))).map (fun p => arange p.1 p.2)))
  else none

/-- `list.remove(item)`: remove the first occurrence or raise `ValueError` (`none`). -/
def pyRemove [DecidableEq α] : List α → α → Option (List α)
  | [], _ => none
  | x :: xs, a => if x = a then some xs else (pyRemove xs a).map (x :: ·)

/-- `misc.py:89-112` `missing(full, part)`; `none` is `ValueError`. -/
def missing [DecidableEq α] (full part : List α) : Option (List α) :=
  part.foldlM pyRemove full

/-- `misc.py:127-135` the generator `all_pairs_recursion` (for even length; the length-one branch
`yield lst` is unreachable then and is modelled by the empty list of pairs). -/
def allPairsRec (lst : List α) : List (List (α × α)) :=
  match lst with
  | [] => [[]]
  | [_] => [[]]
  | a :: b :: rest =>
    (List.finRange (rest.length + 1)).flatMap (fun i : Fin (rest.length + 1) =>
      (allPairsRec ((b :: rest).eraseIdx i)).map ((a, (b :: rest)[i]) :: ·))
termination_by lst.length
decreasing_by
  have := i.isLt
  simp [List.length_eraseIdx]
  omega

/-- `misc.py:114-139` `all_pairs(iterable)`; `none` is the failed assertion on even length. -/
def allPairs (lst : List α) : Option (List (List (α × α))) :=
  if lst.length % 2 = 0 then some (allPairsRec lst) else none

/-- Slices `lst[i:i+n]` for the loop of `misc.py:529-530`. -/
def chunksLoop (lst : List α) (n : Nat) : Nat → Nat → List (List α)
  | _, 0 => []
  | i, fuel + 1 =>
    if i < lst.length then (lst.drop i).take n :: chunksLoop lst n (i + n) fuel else []

/-- `misc.py:512-531` `chunks(lst, n)` with `n ≥ 0`. -/
def chunks (lst : List α) (n : Nat) : List (List α) :=
  let n := if n = 0 then n + 1 else n
  chunksLoop lst n 0 lst.length

/-- `misc.py:196-232` `det(M)` for a matrix given as list of rows; `none`: the assertions (two
dimensional, square) fail, or the matrix is empty (the local variable `result` is unbound). -/
def detRec {R : Type} [CommRing R] : Nat → List (List R) → R
  | 0, _ => 0
  | 1, M => (M.headD []).headD 0
  | D + 1, M =>
    (List.range (D + 1)).foldl (fun result i =>
      let subM := (M.drop 1).map (fun row => row.eraseIdx i)
      let term := (M.headD []).getD i 0 * detRec D subM
      if i = 0 then term
      else if i % 2 = 0 then result + term
      else result - term) 0

/-- `misc.py:205-213`: assertions, then the recursion. -/
def det {R : Type} [CommRing R] (M : List (List R)) : Option R :=
  if M.length ≠ 0 ∧ (∀ r ∈ M, r.length = M.length) then some (detRec M.length M) else none

/-- `misc.py:533-563` `rec_subs(expr, repl, n)`.  Simplification: `expr.expand().subs(repl)` is an
abstract function `step` and the test `expr_new - expr == 0` an abstract Boolean `same`; `none` is
`ValueError`. -/
def recSubs {E : Type} (step : E → E) (same : E → E → Bool) : Nat → E → Option E
  | 0, _ => none
  | n + 1, expr =>
    let exprNew := step expr
    if same exprNew expr then some exprNew else recSubs step same n exprNew

end Misc
end SecDec
