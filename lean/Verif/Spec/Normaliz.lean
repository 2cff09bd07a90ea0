import Verif.Model.Normaliz
/-
Specification of the files exchanged with `normaliz`.
-/
namespace SecDec
namespace Normaliz
open SeriesText (Str)

/-- White space: blanks and line ends. -/
def Blank (s : Str) : Prop := ∀ c ∈ s, c = ' ' ∨ c = '\n'

/-- A layout of an array: there is white space in front of all entries but the first one of a row. -/
def Layout (sep : Nat → Nat → Str) : Prop := ∀ i j, Blank (sep i j) ∧ (0 < j → sep i j ≠ [])

/-- An array in an output file of `normaliz`: the number of columns, the rows, the line which tells what it is, and the numbers of blanks in front of the entries
(row, column). -/
structure Block where
  cols : Nat
  rows : Mat
  kind : Str
  blanks : Nat → Nat → Nat

/-- All rows have as many entries as there are columns, entries are separated, the last line is one line. -/
structure Block.Good (b : Block) : Prop where
  length : ∀ r ∈ b.rows, r.length = b.cols
  blank : ∀ i j, 0 < j → 0 < b.blanks i j
  line : '\n' ∉ b.kind

/-- One line of entries. -/
def lineText (blanks : Nat → Nat) (r : List Int) : Str :=
  (r.zipIdx.flatMap fun p => List.replicate (blanks p.2) ' ' ++ dec p.1) ++ ['\n']

/-- The text of a block: the number of rows, the number of columns, the rows, the kind. -/
def Block.text (b : Block) : Str :=
  dec b.rows.length ++ ['\n'] ++ dec b.cols ++ ['\n'] ++ (b.rows.zipIdx.flatMap fun p => lineText (b.blanks p.2) p.1) ++ b.kind ++ ['\n']

end Normaliz
end SecDec
