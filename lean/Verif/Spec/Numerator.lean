import Verif.Model.Numerator
import Mathlib.Algebra.BigOperators.Fin
import Mathlib.MeasureTheory.Constructions.Pi
import Mathlib.MeasureTheory.Measure.Lebesgue.Basic
import Mathlib.MeasureTheory.Integral.Bochner.Basic
import Mathlib.Analysis.SpecialFunctions.Pow.Real
import Mathlib.Analysis.SpecialFunctions.Complex.Log
import Mathlib.LinearAlgebra.Matrix.Adjugate
/-
Specification for property C50: what a numerator means.

A Lorentz index takes the values `0, ..., d-1`; the metric is diagonal with entries `ε m` of square one.  An index that
occurs twice in a product is summed over, with the metric; one that occurs once is free and has the value `τ μ`.
-/
namespace SecDec
namespace Numer
open scoped BigOperators
noncomputable section

variable {L E d : ℕ} {I : Type} [DecidableEq I]

/-- The sum over the values of one index, with the metric. -/
def sumIndex (ε : Fin d → ℂ) (μ : I) (f : (I → Fin d) → ℂ) (σ : I → Fin d) : ℂ :=
  ∑ m, ε m * f (Function.update σ μ m)

/-- The sums over the values of all the indices of the list. -/
def contract (ε : Fin d → ℂ) : List I → ((I → Fin d) → ℂ) → (I → Fin d) → ℂ
  | [], f => f
  | μ :: J, f => sumIndex ε μ (contract ε J f)

/-- The indices that occur exactly twice. -/
def repeated (idx : List I) : List I := idx.dedup.filter (fun μ => idx.count μ = 2)

/-- Einstein's summation convention for a product `f` in which the indices `idx` occur. -/
def einstein (ε : Fin d → ℂ) (idx : List I) (f : (I → Fin d) → ℂ) (τ : I → Fin d) : ℂ :=
  contract ε (repeated idx) f τ

/-- The indices of a term. -/
def Term.idx (t : Term L E I) : List I := t.loop.map Prod.snd ++ t.ext.map Prod.snd

/-- The value of a term of the numerator at the loop momenta `k` and the external momenta `p`. -/
def Term.value (ε : Fin d → ℂ) (p : Fin E → Fin d → ℂ) (k : Fin L → Fin d → ℂ) (τ : I → Fin d) (t : Term L E I) : ℂ :=
  einstein ε t.idx (fun σ => t.coef * (t.loop.map fun f => k f.1 (σ f.2)).prod * (t.ext.map fun f => p f.1 (σ f.2)).prod) τ

/-- The metric tensor. -/
def metric (ε : Fin d → ℂ) (m n : Fin d) : ℂ := if m = n then ε m else 0

/-- The indices of a summand of the output. -/
def Summand.idx (S : Summand E I) : List I := S.vecs.map Prod.snd ++ S.metrics.flatMap fun g => [g.1, g.2]

/-- The value of a summand of the output. -/
def Summand.value (ε : Fin d → ℂ) (p : Fin E → Fin d → ℂ) (τ : I → Fin d) (S : Summand E I) : ℂ :=
  einstein ε S.idx (fun σ => S.coef * (S.vecs.map fun v => ∑ e, v.1 e * p e (σ v.2)).prod *
    (S.metrics.map fun g => metric ε (σ g.1) (σ g.2)).prod) τ

/-- A term is admissible if no index occurs more than twice (else the code refuses) and all its indices are listed. -/
def Term.Adm (indices : List I) (t : Term L E I) : Prop :=
  (∀ μ ∈ t.idx, μ ∈ indices) ∧ ∀ μ, t.idx.count μ ≤ 2

/-- The mean values `T` of products of components of the loop momenta for the weight `exp (α * (k.M.k - 2 * k.Q + J))`:
normalised, symmetric, and the integral of a derivative with respect to a component `k_a^m` vanishes. -/
structure Moments (ε : Fin d → ℂ) (M : Fin L → Fin L → ℂ) (Q : Fin L → Fin d → ℂ) (α : ℂ)
    (T : List (Fin L × Fin d) → ℂ) : Prop where
  one : T [] = 1
  perm : ∀ l l', l.Perm l' → T l = T l'
  parts : ∀ a m l, (∑ j : Fin l.length, if l[j] = (a, m) then T (l.eraseIdx j) else 0) +
    2 * α * ε m * ((∑ b, M a b * T ((b, m) :: l)) - Q a m * T l) = 0

/-- The mean value of a term of the numerator. -/
def Term.mean (ε : Fin d → ℂ) (p : Fin E → Fin d → ℂ) (T : List (Fin L × Fin d) → ℂ) (τ : I → Fin d) (t : Term L E I) : ℂ :=
  einstein ε t.idx (fun σ => t.coef * T (t.loop.map fun f => (f.1, σ f.2)) * (t.ext.map fun f => p f.1 (σ f.2)).prod) τ

/-! ### The loop integral

Real vectors `v` with `d` components and the product `-(v_0 w_0 + ... + v_{d-1} w_{d-1})`: loop and external momenta after
the rotation to imaginary energies, so that the metric is `-1` in every direction. -/

/-- The metric of the rotated momenta. -/
def eMetric : Fin d → ℂ := fun _ => -1

/-- The scalar product of rotated momenta. -/
def edot (v w : Fin d → ℝ) : ℝ := -∑ m, v m * w m

/-- The sum of the propagators at a point of the Feynman parameters, `k.M.k - 2*Q.k + J`
(`from_propagators.py:181-228`): `Q` is given by the coefficients `q` of the external momenta `p`. -/
structure Kin (L E d : ℕ) where
  M : Matrix (Fin L) (Fin L) ℝ
  q : Fin L → Fin E → ℝ
  p : Fin E → Fin d → ℝ
  J : ℝ
  N : ℝ

/-- The vectors `Q`. -/
def Kin.Q (K : Kin L E d) (a : Fin L) (m : Fin d) : ℝ := ∑ e, K.q a e * K.p e m

/-- The denominator (of power `N`) at the loop momenta `k` (`k m a` is the component `m` of the loop momentum `a`). -/
def Kin.denominator (K : Kin L E d) (k : Fin d → Fin L → ℝ) : ℝ :=
  -((∑ a, ∑ b, K.M a b * edot (fun m => k m a) (fun m => k m b)) - 2 * (∑ a, edot (K.Q a) (fun m => k m a)) + K.J)

/-- The first Symanzik polynomial. -/
def Kin.U (K : Kin L E d) : ℝ := K.M.det

/-- The second Symanzik polynomial. -/
def Kin.F (K : Kin L E d) : ℝ := (∑ a, ∑ b, K.M.adjugate a b * edot (K.Q a) (K.Q b)) - K.U * K.J

/-- The data from which the code computes the numerator, in `d` dimensions. -/
def Kin.data (K : Kin L E d) : Data L E where
  aM a b := (K.M.adjugate a b : ℝ)
  Q a e := (K.q a e : ℝ)
  U := (K.U : ℝ)
  F := (K.F : ℝ)
  Nnu := (K.N : ℝ)
  D := d

/-- The external momenta as complex vectors. -/
def Kin.mom (K : Kin L E d) (e : Fin E) (m : Fin d) : ℂ := (K.p e m : ℝ)

/-- The integrand of the loop integral: the numerator divided by the power `N` of the denominator. -/
def Kin.integrand (K : Kin L E d) (terms : List (Term L E I)) (τ : I → Fin d) (k : Fin d → Fin L → ℝ) : ℂ :=
  (terms.map fun t => t.value eMetric K.mom (fun a m => (k m a : ℝ)) τ).sum * ((K.denominator k ^ (-K.N) : ℝ) : ℂ)

end
end Numer
end SecDec
