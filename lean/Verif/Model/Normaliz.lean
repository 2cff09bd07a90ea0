import Verif.Model.SeriesText
import Mathlib.Algebra.Group.Int.Defs
/-
Model of pySecDec/polytope.py (lines 43-101, 155-236, 286-347): the exchange of text files with the program `normaliz`.
-/
namespace SecDec
namespace Normaliz
open SeriesText (Str readInt strip)

/-- A two dimensional array. -/
abbrev Mat := List (List Int)

/-- `str(integer)`. -/
def dec (z : Int) : Str := (toString z).toList

/-! ### The run card -/

/-- One row in the text form of a numpy array, from the column `j` on; `sep j` is the white space in front of the entry `j`. -/
def rowText (sep : Nat → Str) : Nat → List Int → Str
  | _, [] => []
  | j, x :: xs => sep j ++ dec x ++ rowText sep (j + 1) xs

/-- The rows, from the row `i` on, each in brackets, separated by a line end and a space. -/
def rowsText (sep : Nat → Nat → Str) : Nat → Mat → Str
  | _, [] => []
  | i, [r] => '[' :: (rowText (sep i) 0 r ++ [']'])
  | i, r :: rs => '[' :: (rowText (sep i) 0 r ++ (']' :: '\n' :: ' ' :: rowsText sep (i + 1) rs))

/-- `str(data)` for a two dimensional numpy array.  numpy aligns the columns and breaks long rows (the option `threshold` which is set in `polytope.py:63` does not change
that); the white space `sep i j` in front of the entry in row `i` and column `j` is a parameter of the model. -/
def numpyText (sep : Nat → Nat → Str) (data : Mat) : Str := '[' :: (rowsText sep 0 data ++ [']'])

/-- `text.replace('\n ','\n')`. -/
def unindent : Str → Str
  | [] => []
  | '\n' :: ' ' :: r => '\n' :: unindent r
  | c :: r => c :: unindent r

/-- `str(data).replace('[','').replace(']','').replace('\n ','\n')` (`polytope.py:66`). -/
def plainText (sep : Nat → Nat → Str) (data : Mat) : Str :=
  unindent (((numpyText sep data).filter (fun c => c ≠ '[')).filter (fun c => c ≠ ']'))

/-- `polytope.py:43-69` `normaliz_runcard`. -/
def runcard (sep : Nat → Nat → Str) (data : Mat) (keyword : Str) (dimension : Nat) : Str :=
  "amb_space ".toList ++ dec dimension ++ ['\n'] ++ keyword ++ [' '] ++ dec data.length ++ ['\n'] ++ plainText sep data

/-! ### The output -/

/-- The parts of a text between white space; the first argument is the part read so far, reversed. -/
def wordsFrom : Str → Str → List Str
  | [], [] => []
  | seg, [] => [seg.reverse]
  | seg, c :: r =>
    if c.isWhitespace then (if seg = [] then wordsFrom [] r else seg.reverse :: wordsFrom [] r) else wordsFrom (c :: seg) r

/-- `text.split()`. -/
def words (text : Str) : List Str := wordsFrom [] text

/-- `f.readline()`: the line with its line end, and the rest of the file. -/
def readLine : Str → Str × Str
  | [] => ([], [])
  | c :: r => if c = '\n' then (['\n'], r) else let (l, r') := readLine r; (c :: l, r')

/-- `int(line)`. -/
def pyInt (line : Str) : Option Int := readInt (strip line)

/-- `for j in range(rows): array_as_str += f.readline()` (`polytope.py:91-92`). -/
def readLines : Nat → Str → Str × Str
  | 0, f => ([], f)
  | k + 1, f =>
    let (l, f') := readLine f
    let (ls, f'') := readLines k f'
    (l ++ ls, f'')

/-- The rows of an array with `cols` columns. -/
def chunks (cols : Nat) : Nat → List Int → Mat
  | 0, _ => []
  | k + 1, l => l.take cols :: chunks cols k (l.drop cols)

/-- `np.fromstring(text, sep=' ', dtype=int).reshape(rows, cols)` (`polytope.py:99`; shapes with negative numbers are not modelled).  Simplification: a text which is not a
sequence of integers is an error; numpy stops reading there and warns. -/
def readArray (rows cols : Nat) (text : Str) : Option Mat :=
  ((words text).mapM readInt).bind fun l => if l.length = rows * cols then some (chunks cols rows l) else none

/-- The loop `polytope.py:87-99`: `nofoutputs` arrays from an open file. -/
def readOutputs : Nat → Str → Option (List Mat)
  | 0, _ => some []
  | k + 1, f =>
    let (l1, f1) := readLine f
    (pyInt l1).bind fun rows =>
      let (l2, f2) := readLine f1
      (pyInt l2).bind fun cols =>
        if rows < 0 ∨ cols < 0 then none
        else
          let (text, f3) := readLines rows.toNat f2
          let (_, f4) := readLine f3
          (if rows = 0 then some [] else readArray rows.toNat cols.toNat text).bind fun m =>
            (readOutputs k f4).map fun ms => m :: ms

/-- `polytope.py:71-101` `read_normaliz_file`. -/
def readFile (file : Str) (nofoutputs : Nat := 1) : Option (List Mat) := readOutputs nofoutputs file

/-- `array[i]` for an integer `i` (negative ones count from the end; `none` is an `IndexError`). -/
def pyGet {A : Type} (l : List A) (i : Int) : Option A :=
  if 0 ≤ i then l[i.toNat]? else if 0 ≤ i + l.length then l[(i + l.length).toNat]? else none

/-- `polytope.py:155-236` `triangulate`, after the run card: `normaliz` maps the run card to the contents of the files `.tgn` and `.tri`; the number of
columns of `cone` is `cols`.  `none` is an exception. -/
def triangulate (sep : Nat → Nat → Str) (normaliz : Str → Str × Str) (cols : Nat) (cone : Mat) (switchRepresentation : Bool) : Option (List Mat) :=
  if cone.length < cols then none
  else if cone.length = cols ∧ switchRepresentation = false then none
  else
    let files := normaliz (runcard sep cone (if switchRepresentation then "inequalities".toList else "cone".toList) cols)
    (readFile files.1).bind fun t =>
      match t with
      | [originalCone] =>
        if originalCone = [] then some []
        else (readFile files.2).bind fun s =>
          match s with
          | [table] => table.mapM fun row => row.dropLast.mapM fun k => pyGet originalCone (k - 1)
          | _ => none
      | _ => none

/-- `polytope.py:286-347` `Polytope.complete_representation`; the argument is the given representation (`true`: vertices, `false`: facets) and its number of columns.
The result are the vertices, facets and equations; `normaliz` maps the run card to the contents of the files `.ext` and `.cst`. -/
def completeRepresentation (sep : Nat → Nat → Str) (normaliz : Str → Str × Str) (vertices : Bool) (cols : Nat) (data : Mat) : Option (Mat × Mat × Mat) :=
  let files := normaliz (if vertices then runcard sep data "polytope".toList (cols + 1) else runcard sep data "inequalities".toList cols)
  (readFile files.1).bind fun e =>
    (readFile files.2 2).bind fun c =>
      match e, c with
      | [ext], [facets, equations] => if ext = [] then none else some (ext.map List.dropLast, facets, equations)
      | _, _ => none

end Normaliz
end SecDec
