import Verif.Model.Amplitude
import Verif.Spec.Package
/-
Specification for property C59: the expansions of a sum of products coefficient * prefactor * integral.
-/
namespace SecDec
namespace Amplitude
open Orders Sector Package Filter Topology Decomp

/-- `l` lists the terms of the Laurent expansion of `f` up to and including `order` (each order at most once, in any sequence). -/
def Expanded (f : ℂ → ℂ) (order : ℤ) (l : List (ℤ × ℂ)) : Prop :=
  (l.map Prod.fst).Nodup ∧ (∀ t ∈ l, t.1 ≤ order) ∧
    (fun z => f z - (l.map fun t => t.2 * z ^ t.1).sum) =O[𝓝[≠] 0] fun z : ℂ => z ^ (order + 1)

/-- `m` is the lowest listed order. -/
def Lowest (l : List (ℤ × ℂ)) (m : ℤ) : Prop := (∃ t ∈ l, t.1 = m) ∧ ∀ t ∈ l, m ≤ t.1

/-- The sectors of a package add up to the Laurent expansion of `J` up to the order for which the package is generated (this is what C57 and C58 show). -/
def Computes (g : Generated) (J : ℂ → ℂ) : Prop :=
  (∀ r ∈ g.results, -r.2 ≤ g.requested - g.prefLead) ∧ ∀ P : ℤ, (∀ r ∈ g.results, r.2 ≤ P) →
    Expansion.IsExpansion J (g.requested - g.prefLead) ((sectorOrders (g.requested - g.prefLead) P).map fun k =>
      (k, coefficient g.results (g.requested - g.prefLead) k))

/-- The kernels have the values of the integrals over the cube. -/
def Values {κ : Type} (kernel : ℕ → ℤ → κ) (val : κ → ℂ) (g : Generated) : Prop :=
  ∀ (s : ℕ) (r : List (Summand (g.n + 1) ℝ) × ℤ), g.results[s]? = some r → ∀ k ∈ sectorOrders (g.requested - g.prefLead) r.2,
    val (kernel (s + 1) k) = cubeIntegral (orderIntegrand Complex.ofRealHom r.1 k)

end Amplitude
end SecDec
