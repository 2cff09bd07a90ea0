import Verif.Model.DistText
import Verif.Spec.SeriesText
import Mathlib.Algebra.BigOperators.Group.Finset.Basic
/-
What the results of `disteval` mean.
-/
namespace SecDec
namespace SeriesText
variable {R : Type}

/-- The format `%+.16e`: a finite number is written with a sign, digits, a point, `e`, a sign and digits, so that a sign inside of the
number never follows a digit; other numbers are written as `+nan`, `+inf`, `-inf` (or `-nan`). -/
structure SciPrinting (fin : R → Prop) (pr : R → Str) (rd : Str → Option R) : Prop where
  read : ∀ r, fin r → rd (pr r) = some r
  shape : ∀ r, fin r → ∃ s m d, pr r = s :: (m ++ [d]) ∧ (s = '+' ∨ s = '-') ∧ d.isDigit = true
  chars : ∀ r, fin r → ∀ c ∈ pr r, c.isAlphanum = true ∨ c = '+' ∨ c = '-' ∨ c = '.'
  inner : ∀ r, fin r → ∀ a s b, pr r = a ++ s :: b → s = '+' ∨ s = '-' → ∀ c, a.getLast? = some c → c.isDigit = false
  notFin : ∀ r, ¬ fin r → pr r ∈ ["+nan".toList, "-nan".toList, "+inf".toList, "-inf".toList]

/-- All four numbers are finite. -/
def DTerm.Fin (fin : R → Prop) (t : DTerm R) : Prop := fin t.valRe ∧ fin t.valIm ∧ fin t.errRe ∧ fin t.errIm

/-- The results which `do_eval` returns: there are regulators, and every sum has at least one term, each with one power for each
regulator, and no product of powers twice. -/
structure DResult.WF (res : DResult R) : Prop where
  regs : res.regulators ≠ []
  ids : ∀ r ∈ res.regulators, Identifier r
  sums : res.sums ≠ []
  terms : ∀ ts ∈ res.sums, ts ≠ []
  len : ∀ ts ∈ res.sums, ∀ t ∈ ts, t.powers.length = res.regulators.length
  nodup : ∀ ts ∈ res.sums, (ts.map DTerm.powers).Nodup

/-- The value (or the error) of a term. -/
noncomputable def DTerm.coef (nv : R → ℝ) (mean : Bool) (t : DTerm R) : ℂ :=
  if mean then (nv t.valRe : ℂ) + (nv t.valIm : ℂ) * Complex.I else (nv t.errRe : ℂ) + (nv t.errIm : ℂ) * Complex.I

/-- `reg_1^p_1 * reg_2^p_2 * ...` -/
noncomputable def monomial (env : Str → ℂ) : List Str → List ℤ → ℂ
  | r :: rs, p :: ps => env r ^ p * monomial env rs ps
  | _, _ => 1

/-- The sum of the terms. -/
noncomputable def sumValue (nv : R → ℝ) (env : Str → ℂ) (mean : Bool) (regulators : List Str) (ts : List (DTerm R)) : ℂ :=
  (ts.map (fun t => t.coef nv mean * monomial env regulators t.powers)).sum

/-- The sum of the terms `(powers, coefficient)`, written as a series in the first regulator whose coefficients are series in the other
regulators, where each series is truncated after its highest power. `ω t` stands for the order term `O(t)`. -/
noncomputable def truncated (env : Str → ℂ) (ω : ℂ → ℂ) : List Str → List (List ℤ × ℂ) → ℂ
  | [], l => (l.map Prod.snd).sum
  | r :: rs, l =>
    (∑ k ∈ (l.map (fun e => e.1.headD 0)).toFinset,
      truncated env ω rs ((l.filter (fun e => e.1.headD 0 = k)).map (fun e => (e.1.tail, e.2))) * env r ^ k) +
    ω (env r ^ (((l.map (fun e => e.1.headD 0)).max?.getD 0) + 1))

end SeriesText
end SecDec
