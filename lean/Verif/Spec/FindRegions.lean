import Verif.Spec.Geometric
import Verif.Spec.Poly
import Mathlib.Analysis.SpecialFunctions.Pow.Complex
/-
Specification of the regions of an expansion in a small parameter.
-/
namespace SecDec
namespace FindRegions
open Geometric
variable {n : ℕ}

/-- The leading terms if all variables `x_k` are rescaled by `ρ ^ w k`, `ρ → 0`. -/
def Leading (S : List (Expo n)) (w : Fin n → ℝ) : Set (Expo n) := {s | s ∈ S ∧ ∀ s' ∈ S, pair s w ≤ pair s' w}

/-- All terms have the same weight under the scaling `u`: the polynomial with these terms is multiplied by one factor. -/
def Homogeneous (A : Set (Expo n)) (u : Fin n → ℝ) : Prop := ∀ s ∈ A, ∀ s' ∈ A, pair s u = pair s' u

/-- The vector has no other nonzero components than those in `idx`. -/
def SupportedOn (idx : List (Fin n)) (u : Fin n → ℝ) : Prop := ∀ k, k ∉ idx → u k = 0

/-- The leading terms in the region `w` are homogeneous in another direction than `w` itself (among the variables `idx`): the integral of the leading terms
is scaleless. -/
def Scaleless (idx : List (Fin n)) (S : List (Expo n)) (w : Fin n → ℝ) : Prop :=
  ∃ u, SupportedOn idx u ∧ Homogeneous (Leading S w) u ∧ ¬ ∃ c : ℝ, u = c • w

/-- What is required of `normaliz`: `P` describes the convex hull of the points `S` by its facets and by the equations of its affine hull. -/
structure FacetsOf (S : List (Expo n)) (P : PolytopeData n) : Prop where
  hull : ∀ z : Fin n → ℝ, z ∈ convexHull ℝ (point '' {e | e ∈ S}) ↔
    (∀ f ∈ P.facets, 0 ≤ pair f.1 z + (f.2 : ℝ)) ∧ ∀ e ∈ P.equations, pair e.1 z + (e.2 : ℝ) = 0
  /-- the equations are independent -/
  independent : LinearIndependent ℝ (fun j : Fin P.equations.length => point (P.equations.get j).1)
  /-- there are no other equations -/
  affine : ∀ u, Homogeneous {e | e ∈ S} u → u ∈ Submodule.span ℝ (point '' {e | e ∈ P.equations.map (·.1)})
  /-- the facets are not empty and not the whole polytope -/
  touch : ∀ f ∈ P.facets, ∃ s ∈ S, pair f.1 (point s) + (f.2 : ℝ) = 0
  proper : ∀ f ∈ P.facets, ∃ s ∈ S, pair f.1 (point s) + (f.2 : ℝ) ≠ 0
  /-- the facets have one dimension less than the polytope -/
  dimension : ∀ f ∈ P.facets, ∀ u, Homogeneous {s | s ∈ S ∧ pair f.1 (point s) + (f.2 : ℝ) = 0} u →
    u ∈ Submodule.span ℝ (point '' {e | e ∈ f.1 :: P.equations.map (·.1)})
  /-- no facet is listed twice -/
  distinct : P.facets.Pairwise (fun f g => ¬ ∃ c : ℝ, 0 < c ∧ point f.1 = c • point g.1)

/-- The same for a product of polynomials: the leading terms of all factors are homogeneous in one common direction. -/
def ScalelessProduct (idx : List (Fin n)) (factors : List (List (Expo n))) (w : Fin n → ℝ) : Prop :=
  ∃ u, SupportedOn idx u ∧ (∀ S ∈ factors, Homogeneous (Leading S w) u) ∧ ¬ ∃ c : ℝ, u = c • w

/-- The regions of an expansion in the variable `i`: those scalings of the variables `idx` for which the leading terms are not scaleless. -/
structure AllRegions (idx : List (Fin n)) (i : Fin n) (scaleless : (Fin n → ℝ) → Prop) (regions : List (Expo n)) : Prop where
  /-- each region scales the parameter and only the variables `idx`, and its leading terms are not scaleless -/
  sound : ∀ v ∈ regions, 0 < v i ∧ SupportedOn idx (point v) ∧ ¬ scaleless (point v)
  /-- all the others are scaleless -/
  complete : ∀ w, SupportedOn idx w → 0 < w i → ¬ scaleless w → ∃ v ∈ regions, ∃ c : ℝ, 0 < c ∧ w = c • point v
  /-- no region is listed twice -/
  distinct : regions.Pairwise (fun v v' => ¬ ∃ c : ℝ, 0 < c ∧ point v = c • point v')

open Classical in
/-- The value of the polynomial with the leading terms only. -/
noncomputable def leadingPart (p : Poly n ℝ) (w : Fin n → ℝ) (x : Fin n → ℝ) : ℝ :=
  ((p.terms.filter (fun t => decide (t.1 ∈ Leading p.expolist w))).map (fun t => t.2 * Poly.mono x t.1)).sum

/-- The integrand of the region `w` at leading order: the product of powers of the leading terms, for the value `t` of the variable `i`. -/
noncomputable def leadingIntegrand (ps : List (Poly (n + 1) ℝ × ℂ)) (i : Fin (n + 1)) (w : Fin (n + 1) → ℝ) (t : ℝ) (x : Fin n → ℝ) : ℂ :=
  (ps.map fun p => ((leadingPart p.1 w (i.insertNth t x) : ℝ) : ℂ) ^ p.2).prod

end FindRegions
end SecDec
