import Verif.Model.Package
import Verif.Spec.Sector
import Verif.Spec.Primary
import Verif.Spec.LeadingOrder
import Verif.Spec.Geometric
/-
Specification of the result of `make_package`: the coefficients of the Laurent expansion of the integral.
-/
namespace SecDec
namespace Package
open Squash Decomp Sector Expansion Set
variable {n : ℕ}

/-- The integrand `∏ polynomial ** exponent` for the value `z` of the regulator. -/
noncomputable def integrandAt (polys : List (SPoly n ℝ (Poly 1 ℚ))) (z : ℂ) (x : Fin n → ℝ) : ℂ :=
  (polys.map fun p => ((p.eval x : ℝ) : ℂ) ^ LeadingOrder.exponentAt (exponentOf p) z).prod

/-- Euclidean kinematics: the polynomials have only positive coefficients (and no negative powers), and the exponents are of the
form `a + b * regulator`. -/
def Euclidean (polys : List (SPoly n ℝ (Poly 1 ℚ))) : Prop :=
  ∀ p ∈ polys, p.terms ≠ [] ∧ (∀ t ∈ p.terms, 0 < t.2 ∧ ∀ i, 0 ≤ t.1 i) ∧ LeadingOrder.Affine (exponentOf p)

/-- A constant exponent is written as one term (as the constructor does). -/
def CleanPowers (polys : List (SPoly n ℝ (Poly 1 ℚ))) : Prop :=
  ∀ p ∈ polys, (∀ t ∈ (exponentOf p).terms, t.1 = (fun _ => 0) ∧ t.2 = 1) → (exponentOf p).terms.length = 1

/-- No exponent is a positive integer if the regulator is zero. -/
def NoIntegerPowers (polys : List (SPoly n ℝ (Poly 1 ℚ))) : Prop :=
  ∀ p ∈ polys, ∀ k : ℕ, LeadingOrder.exponentAt (exponentOf p) 0 ≠ (k : ℂ) + 1

/-- `J` is a continuation of the integral with the Dirac delta: it is analytic up to isolated singularities (a closed countable set
which does not accumulate at zero), and equal to the integral on the nonempty open set `V`, where the integral converges. -/
structure Continuation (polys : List (SPoly (n + 1) ℝ (Poly 1 ℚ))) (V : Set ℂ) (J : ℂ → ℂ) : Prop where
  isOpen : IsOpen V
  nonempty : V.Nonempty
  convergent : ∀ z ∈ V, DeltaIntegrable (integrandAt polys z)
  analytic : ∃ E : Set ℂ, E.Countable ∧ IsClosed E ∧ (∃ r > 0, ∀ z, ‖z‖ < r → z ≠ 0 → z ∉ E) ∧ DifferentiableOn ℂ J Eᶜ
  eq : ∀ z ∈ V, J z = deltaIntegral (integrandAt polys z)

/-- The power of the parameter `i` in a sector if the regulator is zero: the power in the Jacobian and those of the factorized
monomials times their exponents. -/
def powerAtZero (s : Squash.Sector n ℝ (Poly 1 ℚ)) (i : Fin n) : ℚ :=
  (s.jac.1 i : ℚ) + (s.cast.map fun p => ((exponentOf p.poly).terms.map fun t => if t.1 = (fun _ => 0) then t.2 else 0).sum * (p.mono.1 i : ℚ)).sum

/-- The coefficient of the regulator in the power of the parameter `i`. -/
def powerSlope (s : Squash.Sector n ℝ (Poly 1 ℚ)) (i : Fin n) : ℚ :=
  (s.cast.map fun p => ((exponentOf p.poly).terms.map fun t => if t.1 0 = 1 then t.2 else 0).sum * (p.mono.1 i : ℚ)).sum

/-- No integration by parts is needed: in all sectors, all powers have reached `ibp_power_goal`. -/
def GoalsReached (o : Options) (polys : List (SPoly (n + 1) ℝ (Poly 1 ℚ))) : Prop :=
  ∀ ss, sectors o polys = some ss → ∀ s ∈ ss, ∀ g ∈ o.goals.zip (List.finRange n), g.1 ≤ powerAtZero s g.2

/-- The same for the strategies without a primary decomposition. -/
def GoalsReachedNoPrimary (o : Options) (polys : List (SPoly (n + 1) ℝ (Poly 1 ℚ))) : Prop :=
  ∀ ss, sectorsNoPrimary o polys = some ss → ∀ s ∈ ss, ∀ g ∈ o.goals.zip (List.finRange (n + 1)), g.1 ≤ powerAtZero s g.2

/-- What is required of the external program `normaliz` in the secondary decomposition of a sector: correct polytopes and triangulations. -/
def NormalizCorrect (o : Options) (s : Squash.Sector n ℝ (Poly 1 ℚ)) : Prop :=
  let expolists := s.cast.map fun p => p.poly.terms.map (·.1)
  match o.method with
  | .iterative => True
  | .geometric =>
    let P := (o.normaliz n).polytope (Geometric.hullPoints expolists)
    Geometric.PolytopeOf (Geometric.hullPoints expolists) P ∧ ∀ v ∈ P.vertices, (Geometric.incident P v).length ≠ n →
      Geometric.TriangulatesRays ((Geometric.incident P v).map fun k => (P.facets.get k).1)
        ((o.normaliz n).triangulate ((Geometric.incident P v).map fun k => (P.facets.get k).1))
  | .geometricKu =>
    ∀ fan, Geometric.generateFan expolists = some fan → ∀ cone ∈ fan, Geometric.TriangulatesDual cone ((o.normaliz n).triangulateDual cone)

/-- There are polynomials, and no exponent vector occurs twice, also if one of the variables which the primary decomposition may remove is set to one
(needed for the geometric strategies, see C60 and C61; homogeneous polynomials without duplicates satisfy the second part). -/
def DistinctMonomials (o : Options) (polys : List (SPoly (n + 1) ℝ (Poly 1 ℚ))) : Prop :=
  match o.method with
  | .iterative => True
  | .geometric => polys ≠ [] ∧ ∀ p ∈ polys, (p.terms.map fun t => deleteCol (Fin.last n) t.1).Nodup
  | .geometricKu => polys ≠ [] ∧ ∀ p ∈ polys, ∀ i, (p.terms.map fun t => deleteCol i t.1).Nodup

/-- The same for the strategies without a primary decomposition. -/
def DistinctMonomialsNoPrimary (o : Options) (polys : List (SPoly (n + 1) ℝ (Poly 1 ℚ))) : Prop :=
  match o.method with
  | .iterative => True
  | _ => polys ≠ [] ∧ ∀ p ∈ polys, (p.terms.map (·.1)).Nodup

/-- The requirements of the decomposition; there are none for the strategy `iterative`. -/
def Decomposable (o : Options) (polys : List (SPoly (n + 1) ℝ (Poly 1 ℚ))) : Prop :=
  DistinctMonomials o polys ∧ ∀ l, primarySectors o polys = some l → ∀ s ∈ l, NormalizCorrect o s

/-- The same for the strategies without a primary decomposition. -/
def DecomposableNoPrimary (o : Options) (polys : List (SPoly (n + 1) ℝ (Poly 1 ℚ))) : Prop :=
  DistinctMonomialsNoPrimary o polys ∧ ∀ s, mkSector polys [] = some s → NormalizCorrect o s

/-- The region of integration without the Dirac delta: the positive orthant for `geometric_infinity_no_primary`, the unit cube for
`geometric_no_primary` and `iterative_no_primary`. -/
def region (o : Options) : Set (Fin n → ℝ) :=
  match o.method with
  | .geometric => {x | ∀ k, 0 < x k}
  | _ => Icc 0 1

/-- `J` is a continuation of the integral over a region. -/
structure ContinuationOn (D : Set (Fin n → ℝ)) (polys : List (SPoly n ℝ (Poly 1 ℚ))) (V : Set ℂ) (J : ℂ → ℂ) : Prop where
  isOpen : IsOpen V
  nonempty : V.Nonempty
  convergent : ∀ z ∈ V, MeasureTheory.IntegrableOn (integrandAt polys z) D
  analytic : ∃ E : Set ℂ, E.Countable ∧ IsClosed E ∧ (∃ r > 0, ∀ z, ‖z‖ < r → z ≠ 0 → z ∉ E) ∧ DifferentiableOn ℂ J Eᶜ
  eq : ∀ z ∈ V, J z = ∫ x in D, integrandAt polys z x

/-- What the generated code computes for the order `k`: the sum over the sectors which have that order. -/
noncomputable def coefficient (results : List (List (Summand (n + 1) ℝ) × ℤ)) (order k : ℤ) : ℂ :=
  (results.map fun r => if k ∈ sectorOrders order r.2 then cubeIntegral (orderIntegrand Complex.ofRealHom r.1 k) else 0).sum

end Package
end SecDec
