import Verif.Model.ExtraReg
/-
Specification for property C52.
-/
namespace SecDec
namespace ExtraReg
variable {m : ℕ}

/-- What is assumed of the facets of the polytope of `vertices`: every vertex satisfies the inequality, and not all of
them with equality. -/
def Proper (vertices : List (Fin m → ℤ)) (facets : List (Facet m)) : Prop :=
  ∀ f ∈ facets, (∀ v ∈ vertices, 0 ≤ f.at v) ∧ ∃ v ∈ vertices, 0 < f.at v

/-- `f` is the normal of an internal facet of a list of polytopes, given by their facets: `f` belongs to one of them, `-f`
to another one, both with the constant zero. -/
def Internal (polytopes : List (List (Facet m))) (f : Fin m → ℤ) : Prop :=
  (∃ P ∈ polytopes, (f, 0) ∈ P) ∧ ∃ P ∈ polytopes, (-f, 0) ∈ P

/-- Exponents regulate the facet with the normal `f`. -/
def Regulates (e : Fin m → ℚ) (f : Fin m → ℤ) : Prop := ∑ i, (f i : ℚ) * e i ≠ 0

/-- The polytopes of the regions. -/
def regionPolytopes (oracle : (k : ℕ) → List (Fin k → ℤ) → List (Facet k)) (p : Fin (m+1)) (vertices : List (Fin (m+1) → ℤ))
    (powers : Fin (m+1) → ℚ) (half order : ℚ) : List (List (Facet m)) :=
  (regions p powers half order (oracle (m+1) vertices)).map fun r => oracle m (regionVertices p vertices r)

end ExtraReg
end SecDec
