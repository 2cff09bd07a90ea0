import Verif.Proof.NumerLoop
import Verif.Proof.NumerFree
import Mathlib.Data.Real.StarOrdered
/-
Property C50: the numerator that the code writes in Feynman parameters is the loop integral of the tensor numerator in
momentum space.

The specification of what a numerator means (Einstein's convention, the loop integral, `U` and `F`) is in
`Verif/Spec/Numerator.lean`.
-/
namespace SecDec
namespace Numer
open scoped BigOperators
open MeasureTheory

variable {L E d : ℕ} {I : Type} [DecidableEq I]

/-- C50, reading of the numerator: if all the Lorentz indices of a term are listed, the code accepts the term exactly if
no index occurs more than twice, and then its lists hold the factors of the term, each as often as in the term. -/
theorem C50_tensors (indices : List I) (t : Term L E I) (hall : ∀ μ ∈ t.idx, μ ∈ indices) :
    ((∃ t', tensors indices t = some t') ↔ ∀ μ, t.idx.count μ ≤ 2) ∧
      ∀ t', tensors indices t = some t' → t'.loop.Perm t.loop ∧ t'.ext.Perm t.ext ∧ t'.coef = t.coef :=
  ⟨⟨fun ⟨_, h⟩ => (tensors_some indices t _ hall h).2.2.2, fun h => tensors_exists indices t fun μ _ => h μ⟩,
    fun _ h => ⟨(tensors_some indices t _ hall h).1, (tensors_some indices t _ hall h).2.1,
      (tensors_some indices t _ hall h).2.2.1⟩⟩

/-- C50, algebraic form for every diagonal metric: let `T α` be the mean values of products of components of the loop
momenta with the weight `exp (α * (k.M.k - 2*k.Q + J))`.  The mean value of the numerator, integrated over the common
scale `α` of the Feynman parameters with the weight `α^(N - D*L/2 - 1) * exp (-α * F/U)`, is
`Gamma(N - D*L/2 - highest_rank//2) * (U/F)^(N - D*L/2) * U^(-highest_rank)` times the sum of the summands of the code.
The dimension may be complex in the exponents of the code; here it is the number of the values of an index. -/
theorem C50_moments {ε : Fin d → ℂ} (hε : ∀ m, ε m ^ 2 = 1) (D : Data L E) (hD : D.D = d) (M : Fin L → Fin L → ℂ)
    (hU : D.U ≠ 0) (haM : ∀ a c, ∑ b, D.aM a b * M b c = if a = c then D.U else 0) (p : Fin E → Fin d → ℂ)
    (T : ℝ → List (Fin L × Fin d) → ℂ)
    (hT : ∀ a : ℝ, 0 < a → Moments ε M (fun a m => ∑ e, D.Q a e * p e m) a (T a)) (τ : I → Fin d)
    (indices : List I) (isOne : Bool) (terms : List (Term L E I)) (hadm : ∀ t ∈ terms, t.Adm indices)
    (hone : isOne = true → terms = [⟨[], [], 1⟩])
    (R : ℕ) (hR : (terms.map fun t => t.loop.length).max? = some R) (r : ℝ) (hr : 0 < r) (hF : D.F = r * D.U)
    (hs : ((R / 2 : ℕ) : ℝ) < D.s.re) :
    ∃ out, numerator D indices isOne terms = some out ∧
      ∫ a : ℝ in Set.Ioi 0, (a : ℂ) ^ (D.s - 1) * Complex.exp (-(r * a)) * (terms.map fun t => t.mean ε p (T a) τ).sum =
        Complex.Gamma (gammaArgument D R) * (1 / (r : ℂ)) ^ D.s * (D.U ^ R)⁻¹ * (out.map fun S => S.value ε p τ).sum :=
  numerator_moments hε D hD M hU haM p T hT τ indices isOne terms hadm hone R hR r hr hF hs

/-- C50: the loop integral.  In the region in which the denominator is positive (after the rotation to imaginary
energies: `M` positive definite and `F > 0`) and the integral converges by power counting, the integral over the loop
momenta of the tensor numerator divided by the power `N` of the denominator is
`pi^(d*L/2)/Gamma(N) * Gamma(Gamma_argument) * U^exponent_U * F^exponent_F` times the numerator that the code
returns. -/
theorem C50_loop_integral (K : Kin L E d) (hM : K.M.PosDef) (hF : 0 < K.F) (τ : I → Fin d)
    (indices : List I) (isOne : Bool) (terms : List (Term L E I)) (hadm : ∀ t ∈ terms, t.Adm indices)
    (hone : isOne = true → terms = [⟨[], [], 1⟩])
    (R : ℕ) (hR : (terms.map fun t => t.loop.length).max? = some R) (hN : (R : ℝ) / 2 < K.N - d * L / 2) :
    ∃ out, numerator K.data indices isOne terms = some out ∧ Integrable (K.integrand terms τ) ∧
      ∫ k, K.integrand terms τ k =
        (Real.pi : ℂ) ^ ((d : ℂ) * L / 2) / Complex.Gamma K.N * Complex.Gamma (gammaArgument K.data R) *
          (K.U : ℂ) ^ exponentU K.data R * (K.F : ℂ) ^ exponentF K.data * (out.map fun S => S.value eMetric K.mom τ).sum :=
  loop_integral K hM hF τ indices isOne terms hadm hone R hR hN

/-- C50, contractions: a metric tensor that is left in the result carries two indices that occur nowhere else in the
summand; in particular no sum over an index with a metric tensor is left. -/
theorem C50_metrics_free (D : Data L E) (indices : List I) (isOne : Bool) (terms : List (Term L E I))
    (out : List (Summand E I)) (h : numerator D indices isOne terms = some out) :
    ∀ S ∈ out, ∀ g ∈ S.metrics, S.idx.count g.1 = 1 ∧ S.idx.count g.2 = 1 :=
  numerator_free D indices isOne terms out h

/-! ### The hypotheses can be met -/

/-- `k(mu)*k(mu) + 3*k(mu)*p(nu)`: a numerator of rank two with a contracted and two free indices. -/
def exTerms : List (Term 1 1 ℕ) := [⟨[(0, 0), (0, 0)], [], 1⟩, ⟨[(0, 0)], [(0, 1)], 3⟩]

theorem exTerms_adm : ∀ t ∈ exTerms, t.Adm [0, 1] := by
  intro t ht
  simp only [exTerms, List.mem_cons, List.not_mem_nil, or_false] at ht
  rcases ht with rfl | rfl
  · refine ⟨by decide, fun μ => ?_⟩
    exact List.count_le_length
  · refine ⟨by decide, fun μ => ?_⟩
    exact List.count_le_length

/-- `k*k - 2*k*p/2 - 1` to the power four in two dimensions, with `p = (1, 0)`. -/
noncomputable def exKin : Kin 1 1 2 where
  M := 1
  q _ _ := 1 / 2
  p _ m := if m = 0 then 1 else 0
  J := -1
  N := 4

example (τ : ℕ → Fin 2) : ∃ out, numerator exKin.data [0, 1] false exTerms = some out ∧
    Integrable (exKin.integrand exTerms τ) ∧
      ∫ k, exKin.integrand exTerms τ k =
        (Real.pi : ℂ) ^ ((2 : ℕ) * (1 : ℕ) / 2 : ℂ) / Complex.Gamma exKin.N * Complex.Gamma (gammaArgument exKin.data 2) *
          (exKin.U : ℂ) ^ exponentU exKin.data 2 * (exKin.F : ℂ) ^ exponentF exKin.data *
          (out.map fun S => S.value eMetric exKin.mom τ).sum :=
  C50_loop_integral exKin Matrix.PosDef.one
    (by simp [Kin.F, exKin, Kin.U, Kin.Q, edot, Matrix.adjugate_one]; norm_num) τ [0, 1] false exTerms exTerms_adm
    (by simp) 2 rfl (by simp [exKin]; norm_num)

/-- three times the same index is refused -/
example : tensors [0, 1] (⟨[(0, 0), (0, 0)], [(0, 0)], 1⟩ : Term 1 1 ℕ) = none := by
  have h := (C50_tensors [0, 1] (⟨[(0, 0), (0, 0)], [(0, 0)], 1⟩ : Term 1 1 ℕ) (by decide)).1
  rw [← Option.not_isSome_iff_eq_none, Option.isSome_iff_exists, h]
  exact fun h => absurd (h 0) (by decide)

/-- two free indices: the result has a summand with `g(0,1)` -/
example (D : Data 1 1) : ∃ S : Summand 1 ℕ, summand D 2 2 ⟨[(0, 0), (0, 1)], [], 1⟩ [((0, 0), (0, 1))] [] = some S ∧
    S.metrics = [(0, 1)] := by
  simp [summand, scalarFactor, reduceGamma, matchLoop, matchPass, matchInto, contractVecs, leftover]

end Numer
end SecDec
