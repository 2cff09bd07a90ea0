import Verif.Model.Geometric
/-
Model of the search for regions in pySecDec/make_regions.py: `find_regions` and the polynomial whose Newton polytope is used in `make_regions`.
-/
namespace SecDec
namespace FindRegions
open Geometric
variable {n : ℕ}

/-- A Python index into a sequence of the length `len`; `none` is an `IndexError`. -/
def pyIndex (len : ℕ) (i : ℤ) : Option (Fin len) :=
  if h : 0 ≤ i ∧ i < len then some ⟨i.toNat, by omega⟩
  else if h : i < 0 ∧ 0 ≤ i + len then some ⟨(i + len).toNat, by omega⟩
  else none

/-- A row of the facets or equations with the constant in the last column (`polytope.py:250-263`). -/
def row (e : Expo n × ℤ) : Fin (n + 1) → ℤ := Fin.snoc (α := fun _ => ℤ) e.1 e.2

/-- `make_regions.py:156-168`: the candidates, from the facets or from the equation, without the constant; the sign of the equation is chosen
with `equations[0,exp_param_index]`, where the row of the equation has one column more than the expansion parameter may be counted from. -/
def candidates (P : PolytopeData n) (i : ℤ) : Option (List (Expo n)) :=
  match P.equations with
  | [] => some (P.facets.map (·.1))
  | [e] => do
    let k ← pyIndex (n + 1) i
    if 0 < row e k then some [e.1] else if row e k < 0 then some [-e.1] else none
  | _ => none

/-- `make_regions.py:156-170`: `facets[ facets[:,exp_param_index] > 0 ]`. -/
def regionsOf (P : PolytopeData n) (i : ℤ) : Option (List (Expo n)) := do
  let rows ← candidates P i
  let k ← pyIndex n i
  some (rows.filter (fun v => decide (0 < v k)))

/-- `[vertex[i] for i in indices]` (`make_regions.py:148`). -/
def project {A : Type} (indices : List (Fin n)) (v : Fin n → A) : Fin indices.length → A := fun j => v (indices.get j)

/-- `[next(region) if i in indices else 0 for i in range(dim)]` (`make_regions.py:173`). -/
def spread {A : Type} [Zero A] (indices : List (Fin n)) (r : Fin indices.length → A) : Fin n → A := fun i =>
  if i ∈ indices then
    let position := ((List.finRange n).filter (fun k => decide (k ∈ indices))).idxOf i
    if h : position < indices.length then r ⟨position, h⟩ else 0
  else 0

/-- `make_regions.py:99-175` `find_regions`.  `normaliz` stands for `Polytope.complete_representation`; any exception is `none`. -/
def findRegions (normaliz : (m : ℕ) → List (Expo m) → PolytopeData m) (i : ℤ) (expolist : List (Expo n)) (indices : Option (List (Fin n))) :
    Option (List (Expo n)) :=
  match indices with
  | none => regionsOf (normaliz n expolist) i
  | some idx => do
    let k ← pyIndex n i
    let j ← if k ∈ idx then some (idx.idxOf k) else none
    let regions ← regionsOf (normaliz idx.length (expolist.map (project idx))) j
    some (regions.map (spread idx))

/-- `Polynomial(poly.expolist, np.ones_like(poly.coeffs))`. -/
def ones (l : List (Expo n)) : Poly n Int := ⟨l.map (fun e => (e, 1))⟩

/-- `make_regions.py:468-476`: the polynomial which determines the Newton polytope; `sumOf` is `polytope_from_sum_of`, a list of
non-negative indices (an empty list counts as `None`). -/
def polytopePolynomial (expolists : List (List (Expo n))) (sumOf : Option (List ℕ)) : Option (Poly n Int) :=
  match sumOf with
  | some (k :: ks) => do
    let first ← expolists[k]?
    let rest ← ks.mapM (fun k => expolists[k]?)
    some (rest.foldl (fun P l => P.add (ones l)) ((ones first).subOrAddScalar 0 false))
  | _ => match expolists with
    | [] => none
    | l :: ls => some (ls.foldl (fun P l => P.mul (ones l)) (ones l))

/-- `make_regions.py:451-455`, `:478-480` in `make_regions`: the symbols are the `n` integration variables, the regulators and the polynomial names (`m` symbols), and
the smallness parameter. -/
def regionIndices (n m : ℕ) : List (Fin (n + m + 1)) :=
  (List.finRange n).map (fun k => Fin.castSucc (Fin.castAdd m k)) ++ [Fin.last (n + m)]

/-- The regions in `make_regions` (`make_regions.py:451-480`). -/
def makeRegionsVectors {n m : ℕ} (normaliz : (m : ℕ) → List (Expo m) → PolytopeData m) (expolists : List (List (Expo (n + m + 1)))) (sumOf : Option (List ℕ)) :
    Option (List (Expo (n + m + 1))) := do
  let p ← polytopePolynomial expolists sumOf
  findRegions normaliz (-1) p.expolist (some (regionIndices n m))

end FindRegions
end SecDec
