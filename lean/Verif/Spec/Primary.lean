import Verif.Spec.Decomp
/-
Specification vocabulary for the primary decomposition: the integral with the Dirac delta.
-/
namespace SecDec.Decomp

variable {n : Nat} {V : Type} [NormedAddCommGroup V] [NormedSpace ℝ V]

/-- The standard simplex, in the first `n` of the `n+1` variables. -/
def Simplex (n : Nat) : Set (Fin n → ℝ) := {z | (∀ k, 0 < z k) ∧ ∑ k, z k < 1}

/-- `∫ d^{n+1}x δ(1 - Σ x_i) f(x)` over the positive orthant: integrate over the first `n`
variables, the last one is `1 - Σ z_k`. -/
noncomputable def deltaIntegral (f : (Fin (n+1) → ℝ) → V) : V :=
  ∫ z in Simplex n, f (Fin.snoc z (1 - ∑ k, z k))

/-- The integral with the Dirac delta exists. -/
def DeltaIntegrable (f : (Fin (n+1) → ℝ) → V) : Prop :=
  MeasureTheory.IntegrableOn (fun z => f (Fin.snoc z (1 - ∑ k, z k))) (Simplex n)

/-- `f` is homogeneous of degree `-N` on the positive orthant, where `N = n+1` is the number of
variables (the degree for which the integral is projective). -/
def Projective (f : (Fin (n+1) → ℝ) → V) : Prop :=
  ∀ (c : ℝ) (x : Fin (n+1) → ℝ), 0 < c → (∀ k, 0 < x k) →
    f (fun k => c * x k) = (c ^ (n + 1))⁻¹ • f x

/-- The integral over the positive orthant of all but one variable, which is set to one. -/
noncomputable def orthantIntegral (f : (Fin n → ℝ) → V) : V := ∫ w in {w | ∀ k, 0 < w k}, f w

end SecDec.Decomp
