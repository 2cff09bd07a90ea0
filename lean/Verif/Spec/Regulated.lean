import Verif.Spec.Decomp
import Mathlib.Analysis.SpecialFunctions.Pow.Complex
import Mathlib.Analysis.Calculus.FDeriv.Defs
import Mathlib.Analysis.Complex.Basic
/-
Specification: the value of an analytically regulated integral over the unit cube.
-/
namespace SecDec
open Set Decomp

/-- `v` is the analytically regulated integral of `f` over the unit cube: multiply the integrand with the power `s` of all the
parameters.  The integral converges absolutely if the real part of `s` is large, and `v` is the value at `s = 0` of its analytic
continuation, which may have isolated singularities (in the set `E`). -/
def Regulated {N : ℕ} (f : (Fin N → ℝ) → ℂ) (v : ℂ) : Prop :=
  ∃ (δ c : ℝ) (E : Set ℂ) (H : ℂ → ℂ), 0 < δ ∧ E.Countable ∧ IsClosed E ∧ 0 ∉ E ∧
    DifferentiableOn ℂ H ({s | -δ < s.re} \ E) ∧
    (∀ s : ℂ, c < s.re → CubeIntegrable (fun t => (∏ i, (t i : ℂ) ^ s) * f t)) ∧
    (∀ s : ℂ, c < s.re → s ∉ E → H s = cubeIntegral (fun t => (∏ i, (t i : ℂ) ^ s) * f t)) ∧ H 0 = v

end SecDec
