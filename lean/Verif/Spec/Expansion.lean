import Mathlib.Analysis.Asymptotics.Lemmas
import Mathlib.Topology.Baire.Lemmas
import Verif.Spec.Expr
import Verif.Model.Expansion
/-
What a (multivariate) Laurent expansion is, independent of the code.
-/
namespace SecDec
namespace Expansion
open Filter Topology Asymptotics
variable {n : Nat} {F : Type} [Field F]

/-- The value of a polynomial at the point `x`; `φ` gives the values of its coefficients. -/
noncomputable def polyValue (φ : F →+* ℂ) (p : Poly n F) (x : Fin n → ℂ) : ℂ :=
  (p.terms.map (fun t => φ t.2 * Poly.mono x t.1)).sum

/-- The value of a product of polynomials and inverse polynomials. -/
noncomputable def RatProd.value (φ : F →+* ℂ) (P : RatProd n F) (x : Fin n → ℂ) : ℂ :=
  (P.factors.map (fun f => if f.1 then (polyValue φ f.2 x)⁻¹ else polyValue φ f.2 x)).prod

/-- `l`, a list of exponents and coefficients, is the Laurent expansion of `f` around zero up to and
including the order `order`. -/
def IsExpansion (f : ℂ → ℂ) (order : ℤ) (l : List (ℤ × ℂ)) : Prop :=
  (l.map Prod.fst).Pairwise (· < ·) ∧ (∀ t ∈ l, t.1 ≤ order) ∧
  (fun s => f s - (l.map (fun t => t.2 * s ^ t.1)).sum) =O[𝓝[≠] 0] (fun s => s ^ (order + 1))

/-- `l` is the iterated expansion of `f` in the variables (with the orders) of the given list: expand in
the first variable, at fixed values `y` of the other variables; the coefficients are functions of the other
variables, and are expanded in the remaining variables.  This holds for all `y` in a set of the
filter `𝓕`. -/
def Expands (𝓕 : Filter (Fin n → ℂ)) :
    List (Fin n × ℤ) → ((Fin n → ℂ) → ℂ) → List (Expo n × ((Fin n → ℂ) → ℂ)) → Prop
  | [], f, l => l = [((fun _ => 0), f)]
  | (i, o) :: rest, f, l =>
    ∃ (cs : List (ℤ × ((Fin n → ℂ) → ℂ))) (subs : List (List (Expo n × ((Fin n → ℂ) → ℂ)))),
      (∀ᶠ y in 𝓕, IsExpansion (fun s => f (Function.update y i s)) o (cs.map (fun c => (c.1, c.2 y))) ∧
        ∀ c ∈ cs, ∀ s, c.2 (Function.update y i s) = c.2 y) ∧
      List.Forall₂ (fun c sub => Expands 𝓕 rest c.2 sub) cs subs ∧
      l = (List.zipWith (fun c sub => sub.map (fun t =>
        (Function.update (fun _ => (0 : ℤ)) i c.1 + t.1, t.2))) cs subs).flatten

/-- The filter "for generic values", i.e. on a set which contains a dense open set. -/
def generic (n : Nat) : Filter (Fin n → ℂ) where
  sets := {s | ∃ G : Set (Fin n → ℂ), IsOpen G ∧ Dense G ∧ G ⊆ s}
  univ_sets := ⟨Set.univ, isOpen_univ, dense_univ, fun _ _ => trivial⟩
  sets_of_superset := by
    rintro s t ⟨G, h1, h2, h3⟩ h
    exact ⟨G, h1, h2, h3.trans h⟩
  inter_sets := by
    rintro s t ⟨G, h1, h2, h3⟩ ⟨H, k1, k2, k3⟩
    exact ⟨G ∩ H, h1.inter k1, h2.inter_of_isOpen_left k2 h1, Set.inter_subset_inter h3 k3⟩

/-- The lowest power of the variable `i` in `p` does not become higher at the values `y` of the other
variables. -/
def RegularAt (φ : F →+* ℂ) (p : Poly n F) (i : Fin n) (y : Fin n → ℂ) : Prop :=
  ∃ d : ℤ, (∀ e, p.coeffOf e ≠ 0 → d ≤ e i) ∧
    ∃ c : ℂ, c ≠ 0 ∧ Tendsto (fun s => polyValue φ p (Function.update y i s) / s ^ d) (𝓝[≠] 0) (𝓝 c)

/-- Valid input of `expand_singular`: no negative powers, and the inverse factors are not the zero
polynomial. -/
def RatProd.Valid (P : RatProd n F) : Prop :=
  (∀ f ∈ P.factors, ∀ t ∈ f.2.terms, ∀ j, 0 ≤ t.1 j) ∧
  (∀ f ∈ P.factors, f.1 = true → ∃ e, f.2.coeffOf e ≠ 0)

end Expansion
end SecDec
