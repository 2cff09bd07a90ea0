import Mathlib.Data.Matrix.Mul
import Mathlib.LinearAlgebra.Matrix.Determinant.Basic
import Verif.Model.Decomp
import Verif.Model.Primary
/-
Model of the variable transformations of pySecDec/decomposition/geometric.py.
-/
namespace SecDec.Geometric
open SecDec SecDec.Squash SecDec.Decomp

variable {n m : Nat} {R E : Type}

/-- `polynomial.expolist.dot(transformation)` for one row (`geometric.py:117`). -/
def transformExpo (T : Matrix (Fin n) (Fin m) Int) (e : Expo n) : Expo m := Matrix.vecMul e T

/-- `geometric.py:89-127` `transform_variables`. -/
def transformVariables (T : Matrix (Fin n) (Fin m) Int) (p : Poly n R) : Poly m R :=
  ⟨p.terms.map (fun t => (transformExpo T t.1, t.2))⟩

/-- `transformation.sum(axis=0) - 1` (`geometric.py:212`, `geometric.py:335`). -/
def jacExpo (T : Matrix (Fin n) (Fin m) Int) : Expo m := fun j => (∑ i, T i j) - 1

/-- `refactorize(product)` (`algebra.py:1855-1885`): all variables. -/
def refactorizeProd (p : SProd n R E) : Option (SProd n R E) :=
  (List.finRange n).foldlM (fun p i => refactorizeAt i p) p

/-- `geometric.py:314-337` `make_sector_ku` with `indices` all variables; `cone` is the transposed
matrix passed by the caller.  Simplification: `np.linalg.det` is exact. -/
def makeSectorKu [CommRing R] (s : Sector n R E) (cone : Matrix (Fin n) (Fin n) Int) :
    Option (Sector n R E) :=
  let t := Sector.mapExpo (transformExpo cone) s
  (t.cast.mapM refactorizeProd).map (fun cast =>
    { jac := (t.jac.1 + jacExpo cone, t.jac.2 * ((|cone.det| : Int) : R))
      cast := cast
      other := t.other })

/-- `geometric.py:199-232`: the sector transformed to one variable per facet (`transformation`), then
`make_sector`: keep the columns `coneIndices`, with `indices` all variables.  Simplification:
`np.linalg.det` is exact. -/
def makeSector [CommRing R] (s : Sector n R E) (T : Matrix (Fin n) (Fin m) Int)
    (coneIndices : Fin n → Fin m) : Option (Sector n R E) :=
  let t := Sector.mapExpo (transformExpo T) s
  let u := Sector.mapExpo (fun e j => e (coneIndices j)) { t with jac := (t.jac.1 + jacExpo T, t.jac.2) }
  (u.cast.mapM refactorizeProd).map (fun cast =>
    { jac := (u.jac.1, u.jac.2 * ((|(T.submatrix id coneIndices).transpose.det| : Int) : R))
      cast := cast
      other := u.other })

/-! ### the fan of Kaneko and Ueda -/

/-- `itertools.product(*expolists)` (`geometric.py:60`): the last factor varies fastest. -/
def choices {A : Type} : List (List A) → List (List A)
  | [] => [[]]
  | l :: ls => l.flatMap (fun a => (choices ls).map (a :: ·))

/-- `geometric.py:69`: `expolists[i] - factor[i]` for all `i`, stacked. -/
def differenceRows (expolists : List (List (Expo n))) (factor : List (Expo n)) : List (Expo n) :=
  (List.zipWith (fun l f => l.map (fun e => e - f)) expolists factor).flatten

/-- `np.identity(number_of_variables)` (`geometric.py:62`). -/
def identityRows (n : Nat) : List (Expo n) :=
  (List.finRange n).map (fun i j => if j = i then 1 else 0)

/-- `geometric.py:72-73`: the rows and the identity rows as a polynomial with unit coefficients; `+=`
simplifies. -/
def conePoly (rows : List (Expo n)) : Poly n Int :=
  Poly.add ⟨rows.map (fun h => (h, 1))⟩ ⟨(identityRows n).map (fun h => (h, 1))⟩

/-- The condition of `geometric.py:76`. -/
def redundantRow (h : Expo n) : Bool :=
  (decide (1 < n) && decide (∀ i, 0 < h i)) || decide (∀ i, h i = 0)

/-- `geometric.py:65-78`: the rows of the cone for one choice of factors. -/
def coneRows (expolists : List (List (Expo n))) (factor : List (Expo n)) : List (Expo n) :=
  (Poly.simplify (⟨(conePoly (differenceRows expolists factor)).terms.map
    (fun t => (t.1, if redundantRow t.1 then 0 else t.2))⟩ : Poly n Int)).expolist

/-- The condition of `geometric.py:80-84`. -/
def keepCone (cone : List (Expo n)) : Bool :=
  decide (n ≤ cone.length) && !(cone.any (fun h => decide (∀ i, h i < 0))) &&
    !(cone.any (fun h => decide (-h ∈ cone)))

/-- `geometric.py:45-86` `generate_fan` for the polynomials with the given `expolist`s (`none`: there is
no polynomial, `polynomials[0]` raises). -/
def generateFan (expolists : List (List (Expo n))) : Option (List (List (Expo n))) :=
  if expolists.isEmpty then none
  else some (((choices expolists).map (coneRows expolists)).filter keepCone)

/-- `geometric.py:340-344`: the transposed matrix of a simplicial cone, for those of full dimension. -/
def rayMatrix (rays : List (Expo n)) : Option (Matrix (Fin n) (Fin n) Int) :=
  if rays.length = n then some (Matrix.of (fun i j => rays.getD j (fun _ => 0) i)) else none

/-- `geometric.py:253-344` `geometric_decomposition_ku` with `indices` all variables.
Simplification: `tri` stands for the calls `triangulate(cone, ..., switch_representation=True)`
(`polytope.py:155-236`) of the external program `normaliz`: the rays of the simplicial cones of a
triangulation of the cone given by the inequalities; all sectors are listed instead of being yielded
one by one. -/
def geometricKu [CommRing R] (tri : List (Expo n) → List (List (Expo n))) (s : Sector n R E) :
    Option (List (Sector n R E)) :=
  (generateFan (s.cast.map (fun p => p.poly.terms.map (·.1)))).bind (fun fan =>
    (fan.flatMap (fun cone => (tri cone).filterMap rayMatrix)).mapM (makeSectorKu s))

/-! ### the decomposition of the Minkowski sum of the Newton polytopes -/

/-- `polytope.py:18-41` `convex_hull`: the exponents of the product of the polynomials, with all
coefficients set to one, which have coefficient one (`[]`: there is no polynomial). -/
def hullPoints (expolists : List (List (Expo n))) : List (Expo n) :=
  match expolists with
  | [] => []
  | l :: ls =>
    ((ls.foldl (fun P l => P.mul ⟨l.map (fun e => (e, 1))⟩)
      (⟨l.map (fun e => (e, 1))⟩ : Poly n Int)).terms.filter (fun t => decide (t.2 = 1))).map (·.1)

/-- What `Polytope.complete_representation` (`polytope.py:286-347`) computes from a list of points with
`normaliz`: the vertices, the facets (normal vector and constant) and the equations of the hyperplanes
which contain the polytope. -/
structure PolytopeData (n : Nat) where
  vertices : List (Expo n)
  facets : List (Expo n × Int)
  equations : List (Expo n × Int)

/-- `polytope.facets.T[:-1]` (`geometric.py:199`). -/
def facetMatrix (P : PolytopeData n) : Matrix (Fin n) (Fin P.facets.length) Int :=
  Matrix.of (fun i k => (P.facets.get k).1 i)

/-- `polytope.py:349-363` `vertex_incidence_lists`, for one vertex. -/
def incident (P : PolytopeData n) (v : Expo n) : List (Fin P.facets.length) :=
  (List.finRange P.facets.length).filter (fun k =>
    decide (∑ i, v i * (P.facets.get k).1 i + (P.facets.get k).2 = 0))

/-- `np.where((vector == transformation.T).all(axis=1))[0][0]` (`geometric.py:245`). -/
def columnIndex (P : PolytopeData n) (r : Expo n) : Option (Fin P.facets.length) :=
  (List.finRange P.facets.length).find? (fun k => decide (r = (P.facets.get k).1))

/-- `geometric.py:234-250` for one vertex: the lists of facets of the simplicial cones.  `tri` stands for
`triangulate(cone, ...)` (`polytope.py:155-236`): the rays of the simplicial cones of a triangulation of
the cone with the given rays. -/
def vertexCones (tri : List (Expo n) → List (List (Expo n))) (P : PolytopeData n) (v : Expo n) :
    Option (List (List (Fin P.facets.length))) :=
  if (incident P v).length ≠ n then
    (tri ((incident P v).map (fun k => (P.facets.get k).1))).mapM (fun t => t.mapM (columnIndex P))
  else some [incident P v]

/-- `assert number_of_variables == original_sector.number_of_variables` (`geometric.py:222-223`) and
`make_sector`. -/
def makeSectorIdx [CommRing R] (s : Sector n R E) (P : PolytopeData n) (idx : List (Fin P.facets.length)) :
    Option (Sector n R E) :=
  if h : idx.length = n then makeSector s (facetMatrix P) (fun j => idx.get (Fin.cast h.symm j)) else none

/-- `geometric.py:130-250` `geometric_decomposition` with `indices` all variables.
Simplifications: `polytope` and `tri` stand for the calls of `normaliz`; the vertices are distinct (they
are keys of a dictionary); all sectors are listed instead of being yielded one by one; any exception is
`none`. -/
def geometricDecomposition [CommRing R] (polytope : List (Expo n) → PolytopeData n)
    (tri : List (Expo n) → List (List (Expo n))) (s : Sector n R E) : Option (List (Sector n R E)) :=
  let P := polytope (hullPoints (s.cast.map (fun p => p.poly.terms.map (·.1))))
  if P.equations ≠ [] then none
  else (P.vertices.mapM (vertexCones tri P)).bind (fun cones => cones.flatten.mapM (makeSectorIdx s P))

end SecDec.Geometric
