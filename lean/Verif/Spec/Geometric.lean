import Mathlib.Analysis.SpecialFunctions.Log.Basic
import Verif.Spec.Decomp
import Verif.Model.Geometric
import Mathlib.Analysis.Convex.Extreme
import Mathlib.Analysis.Convex.Hull
import Mathlib.LinearAlgebra.Span.Defs
import Mathlib.Data.Matrix.Mul
import Mathlib.LinearAlgebra.LinearIndependent.Defs
/- Specification vocabulary for the geometric decomposition. -/
namespace SecDec.Geometric

/-- The part of the positive orthant that belongs to the cone generated by the columns of `T`: the
points whose logarithms are combinations of the columns with negative coefficients. -/
def coneRegion {n : Nat} (T : Matrix (Fin n) (Fin n) Int) : Set (Fin n → ℝ) :=
  {x | (∀ i, 0 < x i) ∧ ∃ u : Fin n → ℝ, (∀ j, u j < 0) ∧ ∀ i, Real.log (x i) = ∑ j, (T i j : ℝ) * u j}

/-- The scalar product of an integer vector and a point. -/
def pair {n : Nat} (h : Expo n) (y : Fin n → ℝ) : ℝ := ∑ i, (h i : ℝ) * y i

/-- The combination of rays with the given coefficients. -/
def combine {n : Nat} (rays : List (Expo n)) (c : Fin rays.length → ℝ) : Fin n → ℝ :=
  fun i => ∑ j, c j * ((rays.get j i : Int) : ℝ)

/-- What is required of the external program: `simplices` (lists of rays) triangulate the cone
`{y | h·y ≥ 0 for all h in ineqs}`. -/
structure TriangulatesDual {n : Nat} (ineqs : List (Expo n)) (simplices : List (List (Expo n))) : Prop where
  /-- the rays are in the cone -/
  rays : ∀ t ∈ simplices, ∀ r ∈ t, ∀ h ∈ ineqs, 0 ≤ ∑ i, h i * r i
  /-- the cones are simplicial -/
  simplicial : ∀ t ∈ simplices,
    LinearIndependent ℝ (fun (j : Fin t.length) (i : Fin n) => ((t.get j i : Int) : ℝ))
  /-- the relative interiors of different simplicial cones do not meet -/
  disjoint : simplices.Pairwise (fun t t' => ¬ ∃ y c c', (∀ j, 0 < c j) ∧ (∀ j, 0 < c' j) ∧
    combine t c = y ∧ combine t' c' = y)
  /-- the simplicial cones fill the interior of the cone -/
  covers : ∀ y : Fin n → ℝ, (∀ h ∈ ineqs, 0 < pair h y) →
    ∃ t ∈ simplices, ∃ c, (∀ j, 0 ≤ c j) ∧ combine t c = y

/-- An integer vector as a point. -/
def point {n : Nat} (e : Expo n) : Fin n → ℝ := fun i => ((e i : Int) : ℝ)

/-- What is required of `normaliz` for polytopes: `P` lists the vertices and, if the polytope has full
dimension, the facets of the convex hull of `points`. -/
structure PolytopeOf {n : Nat} (points : List (Expo n)) (P : PolytopeData n) : Prop where
  vertices : ∀ v, v ∈ P.vertices ↔
    v ∈ points ∧ point v ∈ Set.extremePoints ℝ (convexHull ℝ (point '' {e | e ∈ points}))
  nodup : P.vertices.Nodup
  facets : P.equations = [] → ∀ z : Fin n → ℝ,
    z ∈ convexHull ℝ (point '' {e | e ∈ points}) ↔ ∀ f ∈ P.facets, 0 ≤ pair f.1 z + (f.2 : ℝ)

/-- What is required of `normaliz` for cones given by rays: `simplices` triangulate the cone. -/
structure TriangulatesRays {n : Nat} (rays : List (Expo n)) (simplices : List (List (Expo n))) : Prop where
  /-- no new rays -/
  sub : ∀ t ∈ simplices, ∀ r ∈ t, r ∈ rays
  /-- the cones are simplicial -/
  simplicial : ∀ t ∈ simplices,
    LinearIndependent ℝ (fun (j : Fin t.length) (i : Fin n) => ((t.get j i : Int) : ℝ))
  /-- if the cone has full dimension then so have the simplicial cones -/
  full : Submodule.span ℝ (point '' {e | e ∈ rays}) = ⊤ → ∀ t ∈ simplices, t.length = n
  /-- the interiors of different simplicial cones do not meet -/
  disjoint : simplices.Pairwise (fun t t' => ¬ ∃ y c c', (∀ j, 0 < c j) ∧ (∀ j, 0 < c' j) ∧
    combine t c = y ∧ combine t' c' = y)
  /-- the simplicial cones fill the cone -/
  covers : ∀ c : Fin rays.length → ℝ, (∀ j, 0 ≤ c j) →
    ∃ t ∈ simplices, ∃ c', (∀ j, 0 ≤ c' j) ∧ combine t c' = combine rays c

end SecDec.Geometric
