import Verif.Model.SeriesText
/-
Model of the text form of the results of `disteval` (pySecDec/disteval.py, `result_to_sympy`) and of the function of
pySecDec/integral_interface.py which reads it for `series_to_ginac`, `series_to_sympy`, `series_to_maple` and
`series_to_mathematica`.

`R` are the floats; `pr : R → Str` is the format `%+.16e`, `rd : Str → Option R` is `float(...)`.
-/
namespace SecDec
namespace SeriesText

/-- One entry `[p, (val_re, val_im), (err_re, err_im)]` of a sum (`disteval.py:876-880`). -/
structure DTerm (R : Type) where
  powers : List Int
  valRe : R
  valIm : R
  errRe : R
  errIm : R

/-- The parts `"regulators"` and `"sums"` (without the names) of the result of `do_eval` (`disteval.py:873-885`). -/
structure DResult (R : Type) where
  regulators : List Str
  sums : List (List (DTerm R))

/-! ### Writing -/

/-- `"*".join(f"{r}^{p}" for r, p in zip(regulators, p))` (`disteval.py:980`). -/
def stem (regulators : List Str) (powers : List Int) : Str :=
  List.intercalate ['*'] (List.zipWith (fun r p => r ++ '^' :: (toString p).toList) regulators powers)

/-- The two lines of a term (`disteval.py:981-982`), without the line ends. -/
def termLines {R : Type} (pr : R → Str) (regulators : List Str) (t : DTerm R) : List Str :=
  ["    +".toList ++ stem regulators t.powers ++ "*(".toList ++ pr t.valRe ++ pr t.valIm ++ "j)".toList,
   "    +".toList ++ stem regulators t.powers ++ "*(".toList ++ pr t.errRe ++ pr t.errIm ++ "j)*plusminus".toList]

/-- The lines of one sum (`disteval.py:978-986`); `last` is `ampid == namps-1`. -/
def sumLines {R : Type} (pr : R → Str) (regulators : List Str) (last : Bool) (ts : List (DTerm R)) : List Str :=
  ["  (".toList] ++ ts.flatMap (termLines pr regulators) ++ (if 0 < ts.length then [] else ["    0".toList]) ++
    [if last then "  )".toList else "  ),".toList]

/-- The loop over the sums (`disteval.py:977-986`). -/
def sumsLines {R : Type} (pr : R → Str) (regulators : List Str) : List (List (DTerm R)) → List Str
  | [] => []
  | [ts] => sumLines pr regulators true ts
  | ts :: rest => sumLines pr regulators false ts ++ sumsLines pr regulators rest

/-- `result_to_sympy(result)` (`disteval.py:973-988`). -/
def resultText {R : Type} (pr : R → Str) (res : DResult R) : Str :=
  ("[".toList :: sumsLines pr res.regulators res.sums).flatMap (fun l => l ++ ['\n']) ++ "]".toList

/-! ### Reading -/

/-- `text.split(d)` for a single character; the first list is the part read so far, reversed. -/
def splitChar (d : Char) : Str → Str → List Str
  | seg, c :: r => if c = d then seg.reverse :: splitChar d [] r else splitChar d (c :: seg) r
  | seg, [] => [seg.reverse]

/-- `text.splitlines()`: there is no line after a final line end. Simplification: the line feed is the only line end. -/
def splitLines (text : Str) : List Str :=
  let parts := splitChar '\n' [] text
  if parts.getLast? = some [] then parts.dropLast else parts

/-- The text is matched by `[+-].*[0-9]`. -/
def okNumber (s : Str) : Bool :=
  (match s.head? with
    | some c => c == '+' || c == '-'
    | none => false) &&
  (match s.getLast? with
    | some c => c.isDigit
    | none => false) && decide (2 ≤ s.length)

/-- `([+-].*[0-9])([+-].*[0-9])` matched against the whole of a text: the first group is greedy, so the longest possible one is taken. -/
def matchNumbers (inner : Str) : Option (Str × Str) :=
  (((List.range (inner.length + 1)).reverse.map (fun i => (inner.take i, inner.drop i))).find?
    (fun ab => okNumber ab.1 && okNumber ab.2))

/-- `rx_term.fullmatch(line)` (`integral_interface.py:93`, `:100`): the stem, the real and the imaginary part, and whether
`*plusminus` follows. The stem has no opening parenthesis, so it ends before the first one. -/
def matchLine : Str → Option (Str × Str × Str × Bool)
  | '+' :: r =>
    let st := r.takeWhile (fun c => c != '(')
    match r.dropWhile (fun c => c != '(') with
    | [] => none
    | _ :: body =>
      if st.getLast? = some '*' then
        if "j)*plusminus".toList.isSuffixOf body then
          (matchNumbers (body.take (body.length - 12))).map (fun ab => (st.dropLast, ab.1, ab.2, true))
        else if "j)".toList.isSuffixOf body then
          (matchNumbers (body.take (body.length - 2))).map (fun ab => (st.dropLast, ab.1, ab.2, false))
        else none
      else none
  | _ => none

/-- The entry of a dictionary `coeffs`: value and error, `none` for the initial integer `0`. -/
abbrev Entry (R : Type) := List Int × (Option (PVal R) × Option (PVal R))

/-- `coeffs.setdefault(powers, [0, 0]); coeffs[powers][0 if pm is None else 1] = v` (`integral_interface.py:107-109`). -/
def putCoef {R : Type} (powers : List Int) (pm : Bool) (v : PVal R) : List (Entry R) → List (Entry R)
  | [] => [(powers, if pm then (none, some v) else (some v, none))]
  | e :: l =>
    if e.1 = powers then (powers, if pm then (e.2.1, some v) else (some v, e.2.2)) :: l else e :: putCoef powers pm v l

/-- The state of the loop over the lines: `result`, `coeffs`, `variables`. -/
structure DState (R : Type) where
  result : List (List (Entry R))
  coeffs : List (Entry R)
  vars : Option (List Str)

/-- `x.split("^")[0]`. -/
def varOf (x : Str) : Str := ((splitChar '^' [] x).head?).getD []

/-- `int(x.split("^")[1])`. -/
def powerOf (x : Str) : Option Int := ((splitChar '^' [] x)[1]?).bind readInt

/-- The body of the loop over the lines (`integral_interface.py:98-114`). `none` is an exception. -/
def readLine {R : Type} (rd : Str → Option R) (isZero : R → Bool) (st : DState R) (line : Str) : Option (DState R) :=
  let line := strip line
  match matchLine line with
  | some (stem, re, im, pm) => do
    let vars := match st.vars with
      | none => (splitChar '*' [] stem).map varOf
      | some vs => vs
    let powers ← (splitChar '*' [] stem).mapM powerOf
    let re ← rd re
    let im ← rd im
    some ⟨st.result, putCoef powers pm (if isZero im then .float re else .complex re im) st.coeffs, some vars⟩
  | none => if line = "),".toList then some ⟨st.result ++ [st.coeffs], [], st.vars⟩ else some st

/-- `co.setdefault(power, {}); co[power][powers] = coeff` (`integral_interface.py:124-125`); the keys of `expmap` are different from
each other, so that `coeff` is appended. -/
def addGroup {R : Type} (power : Int) (e : Entry R) : List (Int × List (Entry R)) → List (Int × List (Entry R))
  | [] => [(power, [e])]
  | g :: l => if g.1 = power then (power, g.2 ++ [e]) :: l else g :: addGroup power e l

/-- The loop `integral_interface.py:122-125`. -/
def groups {R : Type} (i : Nat) (expmap : List (Entry R)) : Option (List (Int × List (Entry R))) :=
  expmap.foldlM (fun co e => (e.1[i]?).map (fun p => addGroup p e co)) []

/-- `rec(expmap, i)` (`integral_interface.py:117-126`) with the remaining variables. `none` is an exception; an entry with an integer
`0` (a value without error or an error without value) is read by `rec`, but the conversion to text raises a `ValueError`: here it is `none`
already. -/
def nest {R : Type} : List Str → Nat → List (Entry R) → Option (PVal R)
  | [], _, expmap =>
    match expmap with
    | [(_, some m, some s)] => some (.pair m s)
    | _ => none
  | v :: vs, i, expmap => do
    let co ← groups i expmap
    let terms ← co.mapM (fun g => (nest vs (i + 1) g.2).map (fun c => (c, g.1)))
    let top ← (co.map Prod.fst).max?
    some (.ser terms (some v) (some (top + 1)))

/-- `_parse_disteval_series(text)` (`integral_interface.py:87-128`). -/
def parseDist {R : Type} (rd : Str → Option R) (isZero : R → Bool) (text : Str) : Option (List (PVal R)) := do
  let st ← (splitLines text).foldlM (readLine rd isZero) ⟨[], [], none⟩
  let vars ← st.vars
  (st.result ++ [st.coeffs]).mapM (nest vars 0)

/-- `_convert_series(series, power, Order)` (`integral_interface.py:130-161`) for a text which starts with a bracket. -/
def convertDist {R : Type} (rd : Str → Option R) (isZero : R → Bool) (text : Str) : Option (List (List (Tok R) × List (Tok R))) :=
  (parseDist rd isZero text).map (fun l => l.map (fun s => (fmtSeries true s, fmtSeries false s)))

end SeriesText
end SecDec
