/-
Model of the sorting helpers of pySecDec/misc.py.
-/
namespace SecDec

/-- Lexicographic comparison of two rows (numpy compares the fields `column0`, `column1`, ... of the
structured dtype created in `misc.py:304-307` in that order). -/
def rowLe : List Int → List Int → Bool
  | [], _ => true
  | _ :: _, [] => false
  | a :: as, b :: bs => if a < b then true else if b < a then false else rowLe as bs

/-- `misc.py:268-309` `argsort_2D_array`: stable (merge sort) argsort of the rows of an integer
matrix, rows compared lexicographically column by column.
Simplification: an integer matrix is a list of rows; numpy's fixed-width integers are `Int`. -/
def argsort2D (rows : List (List Int)) : List Nat :=
  (rows.zipIdx.mergeSort (fun a b => rowLe a.1 b.1)).map (·.2)

/-- numpy fancy indexing `array[key]` by a list of indices.  Out-of-range indices cannot occur for
keys produced by `argsort2D`; the model drops them (numpy raises `IndexError`). -/
def takeIdx {α : Type} (l : List α) (key : List Nat) : List α :=
  key.filterMap (fun i => l[i]?)

/-- `misc.py:311-335` `argsort_ND_array`: flatten each entry along the trailing axes, then
`argsort_2D_array`.  Simplification: the three dimensional case (list of matrices) used by
`matrix_sort.py`. -/
def argsortND (mats : List (List (List Int))) : List Nat :=
  argsort2D (mats.map List.flatten)

end SecDec
