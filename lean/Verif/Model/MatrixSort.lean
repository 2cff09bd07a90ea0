import Verif.Model.ArgSort
/-
Model of pySecDec/matrix_sort.py.

An integer matrix is its list of rows; the number `n` of columns (`matrix.shape[1]`) is passed
explicitly because a list without rows does not determine it.
-/
namespace SecDec.MatrixSort

abbrev Mat := List (List Int)

/-- `matrix[argsort_2D_array(matrix)]` (`matrix_sort.py:40-41`, `:96`, `:152`). -/
def sortRows (M : Mat) : Mat := takeIdx M (argsort2D M)

/-- Column `c` of the matrix (`matrix[:,c]`). -/
def column (c : Nat) (M : Mat) : List Int := M.map (fun row => row.getD c 0)

/-- `matrix.T` for a matrix with `n` columns. -/
def transpose (n : Nat) (M : Mat) : Mat := (List.range n).map (fun c => column c M)

/-- `permuted_matrix[:, i] = m[:, j]; permuted_matrix[:, j] = m[:, i]` on one row
(`matrix_sort.py:92-93`, `:148-149`). -/
def swapRow (i j : Nat) (row : List Int) : List Int :=
  (row.set i (row.getD j 0)).set j (row.getD i 0)

/-- swap of the columns `i` and `j` of a copy of the matrix (`matrix_sort.py:89-93`, `:145-149`). -/
def swapCols (i j : Nat) (M : Mat) : Mat := M.map (swapRow i j)

/-! ### `iterative_sort` -/

/-- One pass through the loop body of `iterative_sort` (`matrix_sort.py:38-45`): the two sort keys
and the new matrix.  `matrix.T[1:]` is `(transpose n M).tail`, and
`matrix[:,1:] = matrix[:,1:][:,key]` keeps the first entry of each row and reindexes the rest. -/
def iterPass (n : Nat) (M : Mat) : List Nat × List Nat × Mat :=
  let key0 := argsort2D M
  let M1 := takeIdx M key0
  let key1 := argsort2D (transpose n M1).tail
  let M2 := M1.map (fun row => row.take 1 ++ takeIdx (row.drop 1) key1)
  (key0, key1, M2)

/-- `matrix_sort.py:13-45` `iterative_sort`: repeat the pass until both sort keys are the identity.
`none` means that the loop has not finished after `fuel` passes (the Python loop has no bound). -/
def iterativeSort (n : Nat) : Nat → Mat → Option Mat
  | 0, _ => none
  | fuel + 1, M =>
    let r := iterPass n M
    if r.1 = List.range M.length ∧ r.2.1 = List.range (n - 1) then some r.2.2
    else iterativeSort n fuel r.2.2

/-! ### `Pak_sort` -/

/-- The list `permutations` of one step of `Pak_sort` (`matrix_sort.py:86-99`).  The Python list
holds the transposed matrices; the model keeps the untransposed ones and transposes where they
are compared. -/
def candidates (i : Nat) (remaining : List Nat) (options : List Mat) : List Mat :=
  options.flatMap (fun m => remaining.map (fun j => sortRows (swapCols i j m)))

/-- `permutations[sorted_matrix[0]], permutations[sorted_matrix[1]], ...`: the candidates sorted by
`argsort_ND_array` of their transposes (`matrix_sort.py:102`). -/
def sortMats (n : Nat) (perms : List Mat) : List Mat :=
  takeIdx perms (argsortND (perms.map (transpose n)))

/-- append to `options` unless an equal matrix is already there (`matrix_sort.py:108-112`). -/
def addNew (options : List Mat) (m : Mat) : List Mat := if m ∈ options then options else options ++ [m]

/-- `matrix_sort.py:105-114`: keep the leading matrices of the sorted list whose `i`-th column equals
the `i`-th column of the smallest, without duplicates. -/
def keepSmallest (i : Nat) (sorted : List Mat) : List Mat :=
  match sorted with
  | [] => []
  | first :: _ => (sorted.takeWhile (fun m => column i m == column i first)).foldl addNew []

/-- one step of the loop `for idx, i in enumerate(set_of_indices)` (`matrix_sort.py:84-114`);
`remaining` is `set_of_indices[idx:]`. -/
def pakStep (n i : Nat) (remaining : List Nat) (options : List Mat) : List Mat :=
  keepSmallest i (sortMats n (candidates i remaining options))

/-- the loop over one set of indices (`matrix_sort.py:84-114`). -/
def pakGroup (n : Nat) : List Nat → List Mat → List Mat
  | [], options => options
  | i :: rest, options => pakGroup n rest (pakStep n i (i :: rest) options)

/-- `matrix_sort.py:47-117` `Pak_sort(matrix, *indices)`.  `none` would be the `IndexError` of
`options[0]` on an empty list. -/
def pakSort (n : Nat) (M : Mat) (indices : List (List Nat) := []) : Option Mat :=
  let groups := if indices.isEmpty then [List.range' 1 (n - 1)]
    else indices.map (fun g => g.mergeSort (fun a b => decide (a ≤ b)))
  (groups.foldl (fun options g => pakGroup n g options) [M]).head?

/-! ### `light_Pak_sort` -/

/-- `matrix_sort.py:141-159`, one step of the loop over `i`. -/
def lightStep (n : Nat) (M : Mat) (i : Nat) : Option Mat :=
  let perms := (List.range' i (n - i)).map (fun j => sortRows (swapCols i j M))
  (argsortND (perms.map (transpose n))).head?.bind (fun k => perms[k]?)

/-- `matrix_sort.py:119-159` `light_Pak_sort`.  `none` would be an `IndexError`. -/
def lightPakSort (n : Nat) (M : Mat) : Option Mat :=
  (List.range' 1 (n - 1)).foldlM (lightStep n) M

end SecDec.MatrixSort
