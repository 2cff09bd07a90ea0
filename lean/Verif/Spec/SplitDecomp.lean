import Verif.Spec.Splitting
/-
Specification of the decomposition with the option `split`.
-/
namespace SecDec.SplitDecomp
open SecDec SecDec.Squash SecDec.Splitting SecDec.Decomp
variable {n : Nat} {E : Type}

/-- A simplified polynomial from which all common powers have been pulled out: there are terms, their exponent vectors are distinct, no coefficient is zero, the powers are
not negative and each variable is absent from some term. -/
structure Simple (terms : List (Expo n × ℝ)) : Prop where
  ne : terms ≠ []
  nodup : (terms.map (·.1)).Nodup
  coeff : ∀ t ∈ terms, t.2 ≠ 0
  nonneg : ∀ t ∈ terms, ∀ i, 0 ≤ t.1 i
  free : ∀ i, ∃ t ∈ terms, t.1 i = 0

/-- There are polynomials to decompose, and they are simplified. -/
def Tidy (cast : List (SProd n ℝ E)) : Prop := cast ≠ [] ∧ ∀ p ∈ cast, Simple p.poly.terms

/-- No polynomial vanishes at a corner of the unit hypercube. -/
def NoCornerZero (cast : List (SProd n ℝ E)) : Prop :=
  ∀ p ∈ cast, ∀ c : Fin n → ℝ, (∀ i, c i = 0 ∨ c i = 1) → p.poly.eval c ≠ 0

/-- What a decomposition of a sector does: it keeps the polynomials tidy, each polynomial of a subsector has a constant term, and the integrals over the
unit hypercube add up to the original one, for every integrand. -/
def Decomposer (sec : Squash.Sector n ℝ E → Option (List (Squash.Sector n ℝ E))) : Prop :=
  ∀ s ts, Tidy s.cast → sec s = some ts →
    (∀ t ∈ ts, Tidy t.cast ∧ StandardForm (List.finRange n) t) ∧
    ∀ {V : Type} [NormedAddCommGroup V] [NormedSpace ℝ V] (F : List (ℝ × Option E) → List (ℝ × Option E) → V), CubeIntegrable (integrand F s) →
      (∀ t ∈ ts, CubeIntegrable (integrand F t)) ∧ (ts.map fun t => cubeIntegral (integrand F t)).sum = cubeIntegral (integrand F s)

end SecDec.SplitDecomp
