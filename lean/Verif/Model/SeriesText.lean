import Mathlib.Data.Int.Basic
import Mathlib.Data.List.Basic
/-
Model of the text form of a series: the C++ output operators (secdecutil/series.hpp, uncertainties.hpp) which write the results
of an IntegralLibrary, and the functions of pySecDec/integral_interface.py which read and convert them.

`R` are the numbers as they are printed (a C++ `double` printed with the precision of the stream and read back by Python's
`float`); `pr : R → Str` is the printing and `rd : Str → Option R` is `float(...)`, `none` for a `ValueError`.
-/
namespace SecDec
namespace SeriesText

/-- Python and C++ strings. -/
abbrev Str := List Char

/-! ### The C++ side -/

/-- A C++ number: `double` or `std::complex<double>`. -/
inductive CNum (R : Type) where
  | real (r : R)
  | cplx (re im : R)

/-- What a `secdecutil::Series` may contain: plain numbers, `UncorrelatedDeviation`s or `Series` in another variable.
`ser order_min content truncated_above expansion_parameter` (`series.hpp:585-600`; `order_max = order_min + size - 1`). -/
inductive CVal (R : Type) where
  | num (x : CNum R)
  | dev (value uncertainty : CNum R)
  | ser (orderMin : Int) (content : List (CVal R)) (truncatedAbove : Bool) (parameter : Str)

/-- The standard output operator of numbers: `std::complex` is written as `(re,im)`. -/
def printNum {R : Type} (pr : R → Str) : CNum R → Str
  | .real r => pr r
  | .cplx re im => '(' :: (pr re ++ ',' :: (pr im ++ [')']))

/-- `series.hpp:566-568`, `:575-577`: `x` or `x^i`. -/
def printPower (parameter : Str) (i : Int) : Str :=
  parameter ++ (if i = 1 then [] else '^' :: (toString i).toList)

/-- `series.hpp:564-569`: nothing for `i == 0`, else `*x^i`. -/
def printMonomial (parameter : Str) (i : Int) : Str :=
  if i = 0 then [] else '*' :: printPower parameter i

mutual
/-- `operator<<` (`series.hpp:557-582`, `uncertainties.hpp:187-191`, `:470-474`). -/
def printVal {R : Type} (pr : R → Str) : CVal R → Str
  | .num x => printNum pr x
  | .dev m s => printNum pr m ++ " +/- ".toList ++ printNum pr s
  | .ser omin content trunc p =>
    printTerms pr p omin content ++
      (if trunc then " + O(".toList ++ printPower p (omin + content.length) ++ [')'] else [])
/-- The loop `series.hpp:561-570`, from the order `i` on. -/
def printTerms {R : Type} (pr : R → Str) (p : Str) : Int → List (CVal R) → Str
  | _, [] => []
  | i, v :: vs => " + (".toList ++ printVal pr v ++ ')' :: (printMonomial p i ++ printTerms pr p (i + 1) vs)
end

/-! ### The Python side: reading -/

/-- The Python objects returned by `_parse_series_coefficient`. -/
inductive PVal (R : Type) where
  | float (r : R)
  | complex (re im : R)
  | pair (mean stdev : PVal R)
  | ser (terms : List (PVal R × Int)) (var : Option Str) (order : Option Int)

/-- `str.strip()`. -/
def strip (s : Str) : Str := ((s.dropWhile Char.isWhitespace).reverse.dropWhile Char.isWhitespace).reverse

/-- `int(text)` for a text of digits and signs (`integral_interface.py:72`, `:78`). -/
def readNat (s : Str) : Option Nat := if s ≠ [] ∧ s.all Char.isDigit then some (Nat.ofDigitChars 10 s 0) else none

/-- `int(text)`, with sign. -/
def readInt : Str → Option Int
  | '-' :: s => (readNat s).map (fun k => -(k : Int))
  | '+' :: s => (readNat s).map (fun k => (k : Int))
  | s => (readNat s).map (fun k => (k : Int))

/-- `iter_terms(text)` (`integral_interface.py:46-56`): split at `" + "`, where the part up to there has as many opening as closing
parentheses. The first argument is the part read so far, reversed. -/
def iterTerms : Str → Str → List Str
  | seg, ' ' :: '+' :: ' ' :: r =>
    if seg.count '(' = seg.count ')' then seg.reverse :: iterTerms [] r else iterTerms (' ' :: '+' :: ' ' :: seg) r
  | seg, c :: r => iterTerms (c :: seg) r
  | seg, [] => [seg.reverse]

/-- The characters `[0-9+-]`. -/
def isSignDigit (c : Char) : Bool := c.isDigit || c == '+' || c == '-'

/-- `([^^]+)(?:\^([0-9+-]+))?` matched against the whole of a text (`integral_interface.py:58-59`): the variable and the power, if
there is one. -/
def matchPower (s : Str) : Option (Str × Option Str) :=
  let v := s.takeWhile (fun c => c != '^')
  if v = [] then none
  else match s.dropWhile (fun c => c != '^') with
    | [] => some (v, none)
    | _ :: ex => if ex ≠ [] ∧ ex.all isSignDigit then some (v, some ex) else none

/-- What follows the closing parenthesis in `rx_term` (`integral_interface.py:58`): nothing, or `*` and a power of a variable. -/
def matchTail : Str → Option (Option (Str × Option Str))
  | [] => some none
  | '*' :: r => (matchPower r).map some
  | _ => none

/-- `[(](.*)[)](...)?` after the opening parenthesis: `.*` is greedy, so the last possible closing parenthesis is taken; `.` is any
character but a newline. -/
def matchBody : Str → Option (Str × Option (Str × Option Str))
  | [] => none
  | c :: r =>
    match (if c = '\n' then none else matchBody r) with
    | some (b, t) => some (c :: b, t)
    | none => if c = ')' then (matchTail r).map (fun t => ([], t)) else none

/-- `rx_term.fullmatch(part)`. -/
def matchTerm : Str → Option (Str × Option (Str × Option Str))
  | '(' :: r => matchBody r
  | _ => none

/-- `rx_order.fullmatch(part)`. -/
def matchOrder : Str → Option (Str × Option Str)
  | 'O' :: '(' :: r => if r.getLast? = some ')' then matchPower r.dropLast else none
  | _ => none

/-- One step of the loop over the parts in `series(text)` (`integral_interface.py:64-82`); the state are the terms (in reversed
order), the variable and the order. The last case of the loop, `part.startswith("( + ")`, is never reached: such a part is matched by
`rx_term`. -/
def step {R : Type} (coef : Str → Option (PVal R)) (st : List (PVal R × Int) × Option Str × Option Int) (part : Str) :
    Option (List (PVal R × Int) × Option Str × Option Int) :=
  let part := strip part
  if part = [] then some st
  else match matchTerm part with
    | some (body, tail) => do
      let value ← coef body
      match tail with
      | none => some ((value, 0) :: st.1, st.2.1, st.2.2)
      | some (v, none) => some ((value, 1) :: st.1, some v, st.2.2)
      | some (v, some ex) => do
        let k ← readInt ex
        some ((value, k) :: st.1, some v, st.2.2)
    | none =>
      match matchOrder part with
      | some (v, none) => some (st.1, some v, some 1)
      | some (v, some ex) => do
        let k ← readInt ex
        some (st.1, some v, some k)
      | none => none

/-- `text.split(...)` at the sign plus-slash-minus; the first argument is the part read so far, reversed. -/
def splitPM : Str → Str → List Str
  | seg, '+' :: '/' :: '-' :: r => seg.reverse :: splitPM [] r
  | seg, c :: r => splitPM (c :: seg) r
  | seg, [] => [seg.reverse]

/-- `text.split(",")`. -/
def splitComma : Str → Str → List Str
  | seg, c :: r => if c = ',' then seg.reverse :: splitComma [] r else splitComma (c :: seg) r
  | seg, [] => [seg.reverse]

/-- `_parse_series(text)` (`integral_interface.py:39-85`), given the function for the coefficients. -/
def parseSeriesWith {R : Type} (coef : Str → Option (PVal R)) (text : Str) : Option (PVal R) :=
  ((iterTerms [] text).foldlM (step coef) ([], none, none)).map (fun st => .ser st.1.reverse st.2.1 st.2.2)

/-- `_parse_series_coefficient(text)` (`integral_interface.py:21-37`); `fuel` bounds the recursion depth (Python: unbounded). -/
def parseCoef {R : Type} (rd : Str → Option R) : Nat → Str → Option (PVal R)
  | 0, _ => none
  | fuel + 1, text =>
    if " + ".toList.isPrefixOf text then parseSeriesWith (parseCoef rd fuel) text
    else match splitPM [] text with
      | [m, s] => do
        let m ← parseCoef rd fuel (strip m)
        let s ← parseCoef rd fuel (strip s)
        some (.pair m s)
      | _ :: _ :: _ => none
      | _ =>
        if "(".toList.isPrefixOf text ∧ text.getLast? = some ')' ∧ ',' ∈ text then
          match splitComma [] (text.tail.dropLast) with
          | [re, im] => do
            let re ← rd re
            let im ← rd im
            some (.complex re im)
          | _ => none
        else (rd text).map .float

/-- `_parse_series(text)`. -/
def parseSeries {R : Type} (rd : Str → Option R) (fuel : Nat) (text : Str) : Option (PVal R) :=
  parseSeriesWith (parseCoef rd fuel) text

/-! ### The Python side: writing -/

/-- The pieces of the written text. `num` is `%.18g`, `snum` is `%+.18g`, `int` is `%d`; `order` is the name of the order symbol
(`Order` or `O`) and `pow` the power symbol (`^` or `**`); `lbrk` ... are the brackets and separators of Mathematica. The text is the
concatenation of the pieces (with blanks around the pluses between terms). -/
inductive Tok (R : Type) where
  | num (r : R) | snum (r : R) | int (k : Int) | name (s : Str) | I
  | plus | times | div | pow | lpar | rpar | order
  | lbrk | rbrk | lbrace | rbrace | comma | seriesData
  deriving DecidableEq

/-- Python prints a missing variable as `None`. -/
def varName : Option Str → Str
  | none => "None".toList
  | some s => s

/-- `fmt_term(val, var, exp, mean)` (`integral_interface.py:141-147`), `val` already formatted. -/
def fmtTerm {R : Type} (val : List (Tok R)) (var : Option Str) (exp : Int) : List (Tok R) :=
  if exp = 0 then val
  else if exp = 1 then val ++ [.times, .name (varName var)]
  else if exp = -1 then val ++ [.div, .name (varName var)]
  else if exp < 0 then val ++ [.div, .name (varName var), .pow, .int (-exp)]
  else val ++ [.times, .name (varName var), .pow, .int exp]

/-- The order term of `fmt_series` (`integral_interface.py:149-152`). -/
def fmtOrder {R : Type} (var : Option Str) : Option Int → List (Tok R)
  | none => []
  | some k =>
    if k = 1 then [.plus, .order, .lpar, .name (varName var), .rpar]
    else if 0 < k then [.plus, .order, .lpar, .name (varName var), .pow, .int k, .rpar]
    else [.plus, .order, .lpar, .name (varName var), .pow, .lpar, .int k, .rpar, .rpar]

/-- `" + ".join(...)`. -/
def joinPlus {R : Type} : List (List (Tok R)) → List (Tok R)
  | [] => []
  | [t] => t
  | t :: ts => t ++ .plus :: joinPlus ts

mutual
/-- `fmt_value(val, mean)` (`integral_interface.py:131-140`). -/
def fmtValue {R : Type} (mean : Bool) : PVal R → List (Tok R)
  | .complex re im => if mean then [.lpar, .num re, .snum im, .times, .I, .rpar] else [.int 0]
  | .float r => if mean then [.num r] else [.int 0]
  | .pair m s => if mean then fmtValue true m else fmtValue true s
  | .ser terms var order => .lpar :: (joinPlus (fmtTerms mean var terms) ++ fmtOrder var order ++ [.rpar])
/-- The terms of `fmt_series` (`integral_interface.py:153`). -/
def fmtTerms {R : Type} (mean : Bool) (var : Option Str) : List (PVal R × Int) → List (List (Tok R))
  | [] => []
  | (v, k) :: ts => fmtTerm (fmtValue mean v) var k :: fmtTerms mean var ts
end

/-- `fmt_series(terms, var, order, mean)` (`integral_interface.py:148-153`) for the outermost series. -/
def fmtSeries {R : Type} (mean : Bool) : PVal R → List (Tok R)
  | .ser terms var order => joinPlus (fmtTerms mean var terms) ++ fmtOrder var order
  | v => fmtValue mean v

/-- `_convert_series(series, power, Order)` (`integral_interface.py:130-161`) for the text of one series, that is one line: the
series of the mean values and the series of the standard deviations. `series_to_ginac`, `series_to_sympy` and `series_to_maple`
(`:163-198`, `:257-272`) differ only in the text of `pow` and `order`. -/
def convert {R : Type} (rd : Str → Option R) (fuel : Nat) (text : Str) : Option (List (Tok R) × List (Tok R)) :=
  (parseSeries rd fuel text).map (fun s => (fmtSeries true s, fmtSeries false s))

/-! ### Mathematica -/

/-- `isinstance(val, tuple) and len(val) == 3`. -/
def isSeries {R : Type} : PVal R → Bool
  | .ser _ _ _ => true
  | _ => false

/-- `", ".join(...)`. -/
def joinComma {R : Type} : List (List (Tok R)) → List (Tok R)
  | [] => []
  | [t] => t
  | t :: ts => t ++ .comma :: joinComma ts

/-- The order term of `fmt_series` (`integral_interface.py:244-247`). -/
def fmtOrderM {R : Type} (var : Option Str) (k : Int) : List (Tok R) :=
  if k = 1 then [.plus, .order, .lbrk, .name (varName var), .rbrk]
  else if 0 < k then [.plus, .order, .lbrk, .name (varName var), .rbrk, .pow, .int k]
  else [.plus, .order, .lbrk, .name (varName var), .rbrk, .div, .name (varName var), .pow, .int (1 - k)]

/-- `fmt_series(terms, var, order, mean)` (`integral_interface.py:232-248`), with the values already formatted; `exps` are the exponents
and `nested` says whether one of the values is a series. `min` of the exponents and `range(minexp, order)` are modelled by
`List.min?` and `List.range`. `none` is the `ValueError` for gaps. -/
def fmtSeriesM {R : Type} (nested : Bool) (vals : List (List (Tok R))) (exps : List Int) (var : Option Str) : Option Int → Option (List (Tok R))
  | none => some (joinPlus (List.zipWith (fun v k => fmtTerm v var k) vals exps))
  | some order =>
    if nested then
      match exps.min? with
      | none => none
      | some minexp =>
        if exps ≠ (List.range (order - minexp).toNat).map (fun (k : Nat) => minexp + (k : Int)) then none
        else some ([.seriesData, .lbrk, .name (varName var), .comma, .int 0, .comma, .lbrace] ++
          joinComma (vals.map (fun v => fmtTerm v var 0)) ++
          [.rbrace, .comma, .int minexp, .comma, .int order, .comma, .int 1, .rbrk])
    else some (joinPlus (List.zipWith (fun v k => fmtTerm v var k) vals exps) ++ fmtOrderM var order)

mutual
/-- `fmt_value(val, mean)` of `series_to_mathematica` (`integral_interface.py:215-224`). The text of a number is changed from `1e-05` to
`1*10^-05`; since a number is always the first factor of a product, this is still one number in the expression. -/
def fmtValueM {R : Type} (mean : Bool) : PVal R → Option (List (Tok R))
  | .float r => some (if mean then [.num r] else [.int 0])
  | .complex re im => some (if mean then [.lpar, .num re, .snum im, .times, .I, .rpar] else [.int 0])
  | .pair m s => if mean then fmtValueM true m else fmtValueM true s
  | .ser terms var order => do
    let vals ← fmtValuesM mean terms
    fmtSeriesM (terms.any (fun t => isSeries t.1)) vals (terms.map Prod.snd) var order
/-- The values of the terms. -/
def fmtValuesM {R : Type} (mean : Bool) : List (PVal R × Int) → Option (List (List (Tok R)))
  | [] => some []
  | (v, _) :: ts => do
    let a ← fmtValueM mean v
    let b ← fmtValuesM mean ts
    some (a :: b)
end

/-- `series_to_mathematica(series)` (`integral_interface.py:200-255`) for one line. -/
def convertM {R : Type} (rd : Str → Option R) (fuel : Nat) (text : Str) : Option (List (Tok R) × List (Tok R)) := do
  let s ← parseSeries rd fuel text
  let a ← fmtValueM true s
  let b ← fmtValueM false s
  some (a, b)

/-! ### JSON -/

/-- A Python number, as element of the table; `zero` is the `0.` of `integral_interface.py:293`. -/
inductive JNum (R : Type) where
  | float (r : R)
  | complex (re im : R)
  | zero
  deriving DecidableEq

/-- The table `all_terms` (a Python dictionary with the exponents as keys) and `all_terms['regulators']`. -/
structure Table (R : Type) where
  regulators : List (Option Str)
  terms : List (List Int × (JNum R × JNum R))

/-- `all_terms[key] = value`: replaces the value of an existing key, else appends. -/
def setKey {R : Type} (key : List Int) (value : JNum R × JNum R) : List (List Int × (JNum R × JNum R)) → List (List Int × (JNum R × JNum R))
  | [] => [(key, value)]
  | e :: l => if e.1 = key then (key, value) :: l else e :: setKey key value l

/-- A plain number (`is_bottom`, `integral_interface.py:290-291`). -/
def bottom {R : Type} : PVal R → Option (JNum R)
  | .float r => some (.float r)
  | .complex re im => some (.complex re im)
  | _ => none

mutual
/-- `parse_terms(t, bottom_is_tuple, var, order, all_terms)` (`integral_interface.py:289-313`) for a value `t`. `var` and `order` are the
current lists. `none` is an exception (indexing a number) or a value which the parser does not produce for a text of this kind (a
tuple of two numbers in a text without uncertainties). -/
def tableOf {R : Type} (bottomIsTuple : Bool) (var : List (Option Str)) (order : List Int) : PVal R → Table R → Option (Table R)
  | .ser terms v _, T => tableOfs bottomIsTuple (var ++ [v]) order terms T
  | .pair m s, T =>
    if bottomIsTuple then
      match bottom m, bottom s with
      | some m, some s => some ⟨var, setKey order (m, s) T.terms⟩
      | _, _ => none
    else none
  | t, T =>
    if bottomIsTuple then none
    else match bottom t with
      | some x => some ⟨var, setKey order (x, .zero) T.terms⟩
      | none => none
/-- The loop over the list of terms (`integral_interface.py:308-310`), each of which appends its exponent to `order` (`:304-307`). With
`bottom_is_tuple` a plain number as value would be taken for a pair of numbers; this does not happen as all or no numbers have
uncertainties. -/
def tableOfs {R : Type} (bottomIsTuple : Bool) (var : List (Option Str)) (order : List Int) : List (PVal R × Int) → Table R → Option (Table R)
  | [], T => some T
  | (v, k) :: ts, T => do
    let T ← tableOf bottomIsTuple var (order ++ [k]) v T
    tableOfs bottomIsTuple var order ts T
end

/-- The text contains the sign plus-slash-minus. -/
def hasPM (text : Str) : Bool := decide (2 ≤ (splitPM [] text).length)

/-- `series_to_json(series, name)` (`integral_interface.py:274-320`): the regulators and the table of the terms. -/
def toJson {R : Type} (rd : Str → Option R) (fuel : Nat) (text : Str) : Option (Table R) := do
  let s ← parseSeries rd fuel text
  tableOf (hasPM text) [] [] s ⟨[], []⟩

end SeriesText
end SecDec
