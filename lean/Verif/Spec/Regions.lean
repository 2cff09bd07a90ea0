import Mathlib.Analysis.SpecialFunctions.Pow.Real
import Mathlib.Analysis.SpecialFunctions.Complex.LogDeriv
import Verif.Model.Regions
import Verif.Spec.Expansion
/-
The integrands handled by `make_regions`, independent of the code.
-/
namespace SecDec
namespace Regions
open Expansion
variable {n : Nat} {F : Type} [Field F]

/-- The values of the symbols when the symbols `names` stand for the given values. -/
def withNames (names : List (Fin n)) (vals : List ℂ) (x : Fin n → ℂ) : Fin n → ℂ :=
  fun k => ((names.zip vals).lookup k).getD (x k)

/-- The value of `Π_j P_j ^ α_j * N` at the point `x`, where `N` may refer to the `P_j` by their names. -/
noncomputable def integrand (φ : F →+* ℂ) (names : List (Fin n)) (ps : List (EPoly n F)) (N : Poly n F)
    (x : Fin n → ℂ) : ℂ :=
  (ps.map (fun p => polyValue φ p.base x ^ polyValue φ p.exponent x)).prod *
    polyValue φ N (withNames names (ps.map (fun p => polyValue φ p.base x)) x)

/-- The polynomial does not depend on the symbol `k`. -/
def Indep (p : Poly n F) (k : Fin n) : Prop := ∀ t ∈ p.terms, t.1 k = 0

/-- Valid input: different names for all polynomials, none of them is the expansion parameter `i`; no
negative powers; the polynomials do not contain names, the exponents neither names nor the expansion
parameter. -/
structure Valid (names : List (Fin n)) (i : Fin n) (ps : List (EPoly n F)) (N : Poly n F) : Prop where
  nodup : names.Nodup
  fresh : i ∉ names
  length : ps.length ≤ names.length
  base_nonneg : ∀ p ∈ ps, ∀ t ∈ p.base.terms, ∀ k, 0 ≤ t.1 k
  exponent_nonneg : ∀ p ∈ ps, ∀ t ∈ p.exponent.terms, ∀ k, 0 ≤ t.1 k
  numerator_nonneg : ∀ t ∈ N.terms, ∀ k, 0 ≤ t.1 k
  base_names : ∀ p ∈ ps, ∀ k ∈ names, Indep p.base k
  exponent_names : ∀ p ∈ ps, ∀ k ∈ names, Indep p.exponent k
  exponent_param : ∀ p ∈ ps, Indep p.exponent i

/-- The point `x` rescaled: the variable `k` is multiplied by `t` to the power `v k`, the expansion parameter
`i` is `t` to the power `v i`. -/
noncomputable def rescaled (i : Fin n) (v : Fin n → ℤ) (t : ℂ) (x : Fin n → ℂ) : Fin n → ℂ :=
  fun k => if k = i then t ^ v i else x k * t ^ v k

/-- For small `t`, the polynomial behaves like `c * t ^ m` when the variables are rescaled by the region `v`, where
`m` is the lowest power in `t` of all terms, and `c` is not zero and not on the branch cut of the powers. -/
def LeadingGood (φ : F →+* ℂ) (i : Fin n) (v : Fin n → ℤ) (p : Poly n F) (x : Fin n → ℂ) : Prop :=
  ∃ (m : ℤ) (c : ℂ), (∃ e ∈ p.terms, ∑ k, e.1 k * v k = m) ∧ (∀ e ∈ p.terms, m ≤ ∑ k, e.1 k * v k) ∧
    c ∈ Complex.slitPlane ∧
    Filter.Tendsto (fun t => polyValue φ p (rescaled i v t x) / t ^ m) (nhdsWithin 0 {0}ᶜ) (nhds c)

/-- A region as found by `find_regions`: the expansion parameter scales with a positive power; names are not
rescaled, and neither are the regulators (the variables of the exponents). -/
structure IsRegion (names : List (Fin n)) (i : Fin n) (ps : List (EPoly n F)) (v : Fin n → ℤ) : Prop where
  pos : 0 < v i
  names : ∀ k ∈ names, v k = 0
  regulators : ∀ p ∈ ps, ∀ k, ¬ Indep p.exponent k → v k = 0

/-- The integrand with the variables rescaled by the region `v` (the expansion parameter is `t ^ v i`), including
the Jacobian of the rescaling. -/
noncomputable def rescaledIntegrand (φ : F →+* ℂ) (names : List (Fin n)) (i : Fin n) (v : Fin n → ℤ)
    (ps : List (EPoly n F)) (N : Poly n F) (x : Fin n → ℂ) (t : ℝ) : ℂ :=
  (t : ℂ) ^ (∑ k ∈ Finset.univ.erase i, v k) * integrand φ names ps N (rescaled i v t x)

/-- The sum of the integrands of the packages, each one times its prefactor, which is the expansion parameter
`t ^ v i` to the power `prefactor / v i`. -/
noncomputable def packagesValue (φ : F →+* ℂ) (names : List (Fin n)) (i : Fin (n+1)) (v : Fin (n+1) → ℤ)
    (pk : List (Package n F)) (x : Fin (n+1) → ℂ) (t : ℝ) : ℂ :=
  (pk.map (fun p => ((t ^ v i : ℝ) : ℂ) ^ (polyValue φ p.prefactor x / (v i : ℂ)) *
    integrand φ names p.term.polys p.term.numerator (fun j => x (i.succAbove j)))).sum

end Regions
end SecDec
