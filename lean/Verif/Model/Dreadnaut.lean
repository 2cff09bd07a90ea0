import Verif.Model.Squash
import Verif.Model.ArgSort
/-
Model of `squash_symmetry_redundant_sectors_dreadnaut` (pySecDec/decomposition/common.py:204-552): the graph written for the external
program `dreadnaut` and the loop that merges the sectors.
-/
namespace SecDec
namespace Dreadnaut
open Squash

/-- The input file of `dreadnaut`, `common.py:283-348`: the number of vertices, the lines `vertex: neighbours;` and the cells of the colouring. -/
structure Card where
  n : ℕ
  lines : List (ℕ × List ℕ)
  cells : List (List ℕ)

section
variable {m : ℕ} {C : Type} [DecidableEq C]

/-- `_array_to_dreadnaut`, `common.py:277-348`, for the rows `arr` of exponents and coefficients. A value that is not among the unique exponents would give the
neighbour `None`; here it is the number after the last exponent. -/
def toCard (exps : List ℤ) (coeffs : List C) (arr : List (Expo m × C)) : Card :=
  let cols := m
  let rows := arr.length
  let elements := rows * cols
  { n := cols + rows + elements + exps.length + coeffs.length
    lines :=
      -- columns, `common.py:294-299`
      ((List.range cols).map fun column => (column, (List.range rows).map fun r => column + cols + rows + r * cols)) ++
      -- rows, `common.py:301-306`
      ((List.range rows).map fun row => (cols + row, (List.range cols).map fun c => row * cols + cols + rows + c)) ++
      -- elements, `common.py:315-319`, row by row (the offset increases by one for every element), linked to their exponent (`:308-313`)
      (arr.zipIdx.flatMap fun t => (List.finRange cols).map fun c =>
        (cols + rows + (t.2 * cols + c.val), [cols + rows + elements + exps.idxOf (t.1.1 c)])) ++
      -- exponents, `common.py:321-324`
      ((List.range exps.length).map fun k => (cols + rows + elements + k, [])) ++
      -- coefficients, `common.py:326-337`
      (coeffs.zipIdx.map fun c => (cols + rows + elements + exps.length + c.2,
        (arr.zipIdx.filter fun t => decide (t.1.2 = c.1)).map fun t => cols + t.2))
    -- colours, `common.py:339-348`
    cells := [List.range' 0 cols, List.range' cols rows, List.range' (cols + rows) elements] ++
      ((List.range' (cols + rows + elements) exps.length).map fun v => [v]) ++
      ((List.range' (cols + rows + elements + exps.length) coeffs.length).map fun v => [v]) }

end

/-- The state of the loop over the sorted sectors, `common.py:502-505`: finished sectors, hash and canonical graph of the previous sector, and the previous sector. -/
structure State (n : ℕ) (R E : Type) where
  done : List (Sector n R E)
  key : String × List (List ℕ)
  cur : Sector n R E

/-- One round of the loop over the sorted sectors, `common.py:506-546`: the hashes, then the canonical graphs are compared. -/
def mergeStep {n : ℕ} {R E : Type} [Add R] (st : State n R E) (x : (String × List (List ℕ)) × Sector n R E) : State n R E :=
  if x.1.1 = st.key.1 then
    if x.1.2 = st.key.2 then { st with cur := addJac st.cur x.2 }
    else { done := st.done ++ [st.cur], key := x.1, cur := x.2 }
  else { done := st.done ++ [st.cur], key := x.1, cur := x.2 }

section
variable {m n : ℕ} {R R' E : Type} [CommRing R] [DecidableEq R] [DecidableEq E] [Add R']

/-- `unique_exponents`, `common.py:435-450`. -/
def uniqueExponents (arrs : List (List (Expo m × TCoeff R E))) : List ℤ :=
  (arrs.flatMap fun a => a.flatMap fun t => List.ofFn t.1).dedup.mergeSort

/-- `unique_coeffs`, `common.py:435-451`; `sortC` sorts by the text of the coefficients. Simplification: coefficients have the same text exactly if they are equal. -/
def uniqueCoeffs (sortC : List (TCoeff R E) → List (TCoeff R E)) (arrs : List (List (Expo m × TCoeff R E))) : List (TCoeff R E) :=
  sortC (arrs.flatMap fun a => a.map Prod.snd).dedup

/-- The graphs of all sectors, `common.py:435-467`. -/
def cards (sortC : List (TCoeff R E) → List (TCoeff R E)) (replaced : List (Sector m R E)) : List Card :=
  let arrs := replaced.map sector2array
  arrs.map (toCard (uniqueExponents arrs) (uniqueCoeffs sortC arrs))

/-- `squash_symmetry_redundant_sectors_dreadnaut`, `common.py:424-552`. `canon` and `hash` are the canonical graph (from the line of vertex 0 on) and the hash that `dreadnaut` prints,
`argsort` is `np.argsort`. `none` is an exception: no variables (`common.py:266`) or an empty list of sectors. `replaced` as for `Squash.squashWith`. -/
def squashWith (canon : Card → List (List ℕ)) (hash : Card → String) (sortC : List (TCoeff R E) → List (TCoeff R E)) (argsort : List String → List ℕ)
    (replaced : List (Sector m R E)) (sectors : List (Sector n R' E)) : Option (List (Sector n R' E)) :=
  if m = 0 then none
  else
    let cs := cards sortC replaced
    match takeIdx ((cs.map fun G => (hash G, canon G)).zip sectors) (argsort (cs.map hash)) with
    | [] => none
    | x :: rest =>
      let st := rest.foldl mergeStep { done := [], key := x.1, cur := x.2 }
      some (st.done ++ [st.cur])

/-- `squash_symmetry_redundant_sectors_dreadnaut(sectors)` (`indices=None`, `common.py:427-428`). -/
def squash (canon : Card → List (List ℕ)) (hash : Card → String) (sortC : List (TCoeff R E) → List (TCoeff R E)) (argsort : List String → List ℕ)
    (sectors : List (Sector m R E)) : Option (List (Sector m R E)) :=
  squashWith canon hash sortC argsort sectors sectors

end
end Dreadnaut
end SecDec
