import Mathlib.Data.Rat.Defs
import Mathlib.Data.List.Lex
import Mathlib.Algebra.Order.Field.Rat
import Mathlib.Data.List.Basic
/-
Model of pySecDecContrib/exparse.hpp (the parser for the output of `ginsh`) and of `ex_to_nested_series` of
pySecDecContrib/util/secdecutil/coefficient_parser.hpp, which turn the text of an expanded coefficient of an amplitude into a
nested Laurent series in the regulators.
-/
namespace SecDec
namespace Exparse

/-- `mpqc_class` (`exparse.hpp:19-259`): a complex number with rational parts. -/
@[ext] structure Q2 where
  re : ℚ
  im : ℚ
  deriving DecidableEq

/-- `operator-()` (`exparse.hpp:29-40`). -/
def Q2.neg (a : Q2) : Q2 := ⟨-a.re, -a.im⟩

/-- `operator+=` (`exparse.hpp:44-49`). -/
def Q2.add (a b : Q2) : Q2 := ⟨a.re + b.re, a.im + b.im⟩

/-- `operator*=` (`exparse.hpp:56-91`). -/
def Q2.mul (a b : Q2) : Q2 := ⟨a.re * b.re - a.im * b.im, a.re * b.im + a.im * b.re⟩

/-- `operator/=` (`exparse.hpp:92-144`); a division by zero aborts the program (`none`). -/
def Q2.div (a b : Q2) : Option Q2 :=
  let d := b.re * b.re + b.im * b.im
  if d = 0 then none else some ⟨(a.re * b.re + a.im * b.im) / d, (a.im * b.re - a.re * b.im) / d⟩

/-- `rational_one` (`exparse.hpp:273`). -/
def Q2.one : Q2 := ⟨1, 0⟩

/-- `enum Operation` (`exparse.hpp:269`) without `inverse`, which is only used inside `exparse_pow`. -/
inductive Op where
  | add | subtract | multiply | divide
  deriving DecidableEq

/-- The `switch` of `exparse_apply` (`exparse.hpp:320-327`). -/
def applyNumber (result symbol : Q2) : Op → Option Q2
  | .add => some (result.mul symbol)
  | .subtract => some (result.mul symbol.neg)
  | .multiply => some (result.mul symbol)
  | .divide => result.div symbol

/-- The loop of `exparse_pow` (`exparse.hpp:369-376`): `pow_buffer`, `base`, `tmp_exponent`. -/
def powLoop (buf base : Q2) (e : ℕ) : Q2 :=
  if h : e = 0 then buf
  else powLoop (if e % 2 = 1 then buf.mul base else buf) (base.mul base) (e / 2)
  termination_by e
  decreasing_by omega

/-- `exparse_pow` (`exparse.hpp:330-378`) for a non-negative exponent and a number. -/
def powNat (base : Q2) (e : ℕ) (result : Q2) (op : Op) : Option Q2 :=
  if e = 0 then some result
  else if e = 1 then applyNumber result base op
  else if e = 2 then applyNumber result (base.mul base) op
  else applyNumber result (powLoop Q2.one base e) op

/-- `exparse_pow` (`exparse.hpp:330-378`) for a number: for a negative exponent the running product is inverted before and
after. -/
def powNumber (base : Q2) (e : ℤ) (result : Q2) (op : Op) : Option Q2 :=
  if e < 0 then do
    let r1 ← Q2.one.div result
    let r2 ← powNat base e.natAbs r1 op
    Q2.one.div r2
  else powNat base e.natAbs result op

/-- The value of a decimal digit. -/
def digit? (c : Char) : Option ℕ := if '0' ≤ c ∧ c ≤ '9' then some (c.toNat - 48) else none

/-- A nonempty string of decimal digits as a number (`none` for anything else). -/
def digits? : List Char → Option ℕ
  | [] => none
  | cs => cs.foldlM (fun acc c => (digit? c).map (10 * acc + ·)) 0

/-- `mpqc_class(const char*)` (`exparse.hpp:194-199`): `mpq_set_str` leaves the initial value zero if the string is not a number;
its error code is ignored.  (`a/b` does not occur, because `/` separates symbols; blanks are not modelled.) -/
def number (cs : List Char) : Q2 :=
  match cs with
  | '-' :: ds => ⟨-(((digits? ds).getD 0 : ℕ) : ℚ), 0⟩
  | ds => ⟨(((digits? ds).getD 0 : ℕ) : ℚ), 0⟩

/-- `atoll` (`exparse.hpp:434-448`), without overflow and leading blanks. -/
def atoll (cs : List Char) : ℤ :=
  let nat (ds : List Char) : ℕ := (digits? (ds.takeWhile (fun c => (digit? c).isSome))).getD 0
  match cs with
  | '-' :: ds => -(nat ds : ℤ)
  | '+' :: ds => nat ds
  | ds => nat ds

/-- The public tables (`exparse.hpp:633-634`): the names of the regulators and the substituted names. -/
structure Tables where
  symbols : List (List Char)
  subst : List (List Char × Q2)

/-- What `to_number` finds (`exparse.hpp:380-432`): a substituted name, else a regulator, else a number. -/
def toNumber (T : Tables) (cs : List Char) : ℕ ⊕ Q2 :=
  match T.subst.find? (fun s => s.1 == cs) with
  | some s => .inr s.2
  | none => match T.symbols.findIdx? (· == cs) with
    | some i => .inl i
    | none => .inr (number cs)

/-- `symbol_orders_buffer` and `term_buffer`. -/
abbrev State := List ℤ × Q2

/-- `symbol_orders_buffer[i] += e`. -/
def addOrder (l : List ℤ) (i : ℕ) (e : ℤ) : List ℤ := l.modify i (· + e)

/-- The operator in front of a symbol (`exparse.hpp:456-479`). -/
def splitOp : List Char → Op × List Char
  | '+' :: cs => (.add, cs)
  | '-' :: cs => (.subtract, cs)
  | '*' :: cs => (.multiply, cs)
  | '/' :: cs => (.divide, cs)
  | cs => (.add, cs)

/-- `parse_symbol` (`exparse.hpp:450-502`) with `exparse_apply` and `exparse_pow` (`exparse.hpp:312-378`): for a regulator only
its order is changed, by one or by the exponent, and the operator is not looked at.  Slices of length zero are read out of bounds
by the program (`none`). -/
def parseSymbol (T : Tables) (cs : List Char) (s : State) : Option State :=
  if cs = [] then none else
  let (op, body) := splitOp cs
  let base := body.takeWhile (· != '^')
  match body.dropWhile (· != '^') with
  | [] => match toNumber T body with
    | .inl i => some (addOrder s.1 i 1, s.2)
    | .inr v => (applyNumber s.2 v op).map (fun r => (s.1, r))
  | _ :: ex => match toNumber T base with
    | .inl i => some (addOrder s.1 i (atoll ex), s.2)
    | .inr v => (powNumber v (atoll ex) s.2 op).map (fun r => (s.1, r))

/-- The loop with `reading_point` in `parse_term` (`exparse.hpp:517-548`) and `parse_line` (`exparse.hpp:577-611`): the text is
cut before every separator; `cur` is the part since `reading_point`, `prev` the preceding character. -/
def pieces (sep : Option Char → Char → Bool) (prev : Option Char) (cur : List Char) : List Char → List (List Char)
  | [] => []
  | [c] => if sep prev c then [cur] else [cur ++ [c]]
  | c :: c' :: rest =>
    if sep prev c then cur :: pieces sep (some c) [c] (c' :: rest) else pieces sep (some c) (cur ++ [c]) (c' :: rest)

/-- `term[i] == '*' || term[i] == '/'` (`exparse.hpp:519`). -/
def termSep (_ : Option Char) (c : Char) : Bool := c == '*' || c == '/'

/-- `i != 0 && (line[i] == '+' || (line[i] == '-' && line[i-1] != '^'))` (`exparse.hpp:579`). -/
def lineSep (prev : Option Char) (c : Char) : Bool :=
  match prev with
  | none => false
  | some p => c == '+' || (c == '-' && p != '^')

/-- `parse_term` (`exparse.hpp:504-549`). -/
def parseTerm (T : Tables) (cs : List Char) : Option State :=
  (pieces termSep none [] cs).foldlM (fun s p => parseSymbol T p s) (T.symbols.map (fun _ => 0), Q2.one)

/-- `add_term` (`exparse.hpp:551-566`): `result` is a `std::map`, sorted lexicographically by the keys. -/
def addTerm : List (List ℤ × Q2) → State → List (List ℤ × Q2)
  | [], s => [s]
  | t :: ts, s => if t.1 < s.1 then t :: addTerm ts s else if t.1 = s.1 then (t.1, t.2.add s.2) :: ts else s :: t :: ts

/-- `parse_expression` and `parse_line` (`exparse.hpp:568-612`, `:636-648`). -/
def parseExpression (T : Tables) (cs : List Char) : Option (List (List ℤ × Q2)) :=
  (pieces lineSep none [] cs).foldlM (fun m p => (parseTerm T p).map (addTerm m)) []

/-- A nested `secdecutil::Series`: the lowest order and the coefficients. -/
inductive Nested where
  | num (c : Q2)
  | series (orderMin : ℤ) (content : List Nested)

/-- `ex_to_nested_series` (`coefficient_parser.hpp:40-108`), for `depth` remaining regulators; `none` where the program reads
from an empty map or an empty vector.  (The `lower_bound`/`upper_bound` search selects the entries with first order `i`.) -/
def convert : ℕ → List (List ℤ × Q2) → Option Nested
  | 0, m => m.head?.map (fun t => .num t.2)
  | depth + 1, m => do
    let lo ← (← m.head?).1.head?
    let hi ← (← m.getLast?).1.head?
    let content ← (List.range (hi - lo + 1).toNat).mapM (fun k : ℕ =>
      let sub := (m.filter (fun t => t.1.head? == some (lo + (k : ℤ)))).map (fun t => (t.1.tail, t.2))
      convert depth (if sub.isEmpty then [(List.replicate depth 0, ⟨0, 0⟩)] else sub))
    some (.series lo content)

/-- `read_coefficient` without `ginsh` and without the final conversion to floating point numbers
(`coefficient_parser.hpp:238-277`). -/
def readCoefficient (T : Tables) (cs : List Char) : Option Nested :=
  (parseExpression T cs).bind (convert T.symbols.length)

end Exparse
end SecDec
