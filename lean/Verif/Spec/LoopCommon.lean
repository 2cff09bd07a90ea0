import Mathlib.Analysis.Calculus.Deriv.Basic
import Mathlib.Analysis.SpecialFunctions.Pow.Complex
import Verif.Model.LoopCommon
import Verif.Spec.Poly
/-
Partial derivatives of functions of the Feynman parameters.
-/
namespace SecDec
namespace LoopCommon
variable {P : Nat}

/-- The partial derivative with respect to the Feynman parameter `i`. -/
noncomputable def partialDeriv (i : Fin P) (f : (Fin P → ℂ) → ℂ) : (Fin P → ℂ) → ℂ :=
  fun x => deriv (fun s => f (Function.update x i s)) (x i)

/-- The derivative `∂_0^{k_0} ... ∂_{P-1}^{k_{P-1}} f`; the derivative with respect to the last parameter is taken first. -/
noncomputable def mixed (ks : Fin P → Nat) (f : (Fin P → ℂ) → ℂ) : (Fin P → ℂ) → ℂ :=
  (List.finRange P).foldr (fun i g => (partialDeriv i)^[ks i] g) f

/-- `σ` numbers, in their order, the parameters that are not set to zero. -/
def Numbering (zeros : Nat → Bool) {N : Nat} (σ : Fin N → Fin P) : Prop :=
  StrictMono σ ∧ ∀ j : Fin P, j ∈ Set.range σ ↔ zeros j = false

/-- `U` depends on the Feynman parameter `j` even if those parameters behind `j` that are set to zero vanish: it has a monomial
with that parameter and without the others. -/
def Alive {K : Type} [Field K] (U : Poly P K) (zeros : Nat → Bool) (j : Fin P) : Prop :=
  ∃ e : Expo P, e j ≠ 0 ∧ U.coeffOf e ≠ 0 ∧ ∀ l : Fin P, j < l → zeros l = true → e l = 0

end LoopCommon
end SecDec
