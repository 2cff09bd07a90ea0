import Verif.Model.Misc
import Verif.Spec.LoopCommon
import Mathlib.Analysis.SpecialFunctions.Pow.Complex
/-
Model of the contour deformation: pySecDec/code_writer/make_package.py (set up in `make_package`, used in `_process_secondary_sector`), and
the functions `log` and `pow` of the generated C++ code (code_writer/templates/make_package/src/SecDecInternalFunctions.hpp).

Simplifications: values instead of expressions wherever no derivative is taken; no regulators (they are parameters of all functions);
binary sums and products; `simplify` leaves the values alone (C05).
-/
namespace SecDec
namespace Contour
open LoopCommon (mixed)

variable {n : ℕ}

/-- The expressions from which the deformation is made: numbers, the integration variables, the derivatives of the polynomial for the contour
deformation (`symbolic_contour_deformation_polynomial`, a function of the integration variables, make_package.py:2031-2032), the real
part (make_package.py:694-706), sums and products. -/
inductive Dx (n : ℕ) where
  | num (c : ℂ)
  | var (k : Fin n)
  | poly (α : Fin n → ℕ)
  | re (e : Dx n)
  | add (a b : Dx n)
  | mul (a b : Dx n)

/-- The derivatives (`derive`): algebra.py:267-320 for the polynomial, whose arguments are the integration variables, so that only the
argument number `i` has a derivative, which is one; make_package.py:706-707 for the real part. -/
def Dx.derive (i : Fin n) : Dx n → Dx n
  | .num _ => .num 0
  | .var k => .num (if k = i then 1 else 0)
  | .poly α => .poly (Function.update α i (α i + 1))
  | .re e => .re (e.derive i)
  | .add a b => .add (a.derive i) (b.derive i)
  | .mul a b => .add (.mul (a.derive i) b) (.mul a (b.derive i))

/-- The value in the generated code, if the polynomial is `F`; `SecDecInternalRealPart` is the real part (SecDecInternalFunctions.hpp:266-267). -/
noncomputable def Dx.eval (F : (Fin n → ℂ) → ℂ) (x : Fin n → ℝ) : Dx n → ℂ
  | .num c => c
  | .var k => x k
  | .poly α => mixed α F fun k => (x k : ℂ)
  | .re e => ((e.eval F x).re : ℂ)
  | .add a b => a.eval F x + b.eval F x
  | .mul a b => a.eval F x * b.eval F x

/-- `RealPartFunction(FORM_names['real_part'], symbolic_contour_deformation_polynomial.derive(k))` (make_package.py:2043). -/
def realPart (k : Fin n) : Dx n := .re ((Dx.poly fun _ => 0).derive k)

/-- `1 - elementary_monomials[k]` (make_package.py:2042). -/
def oneMinus (k : Fin n) : Dx n := .add (.num 1) (.mul (.num (-1)) (.var k))

/-- `deformed_integration_parameters[k]` (make_package.py:2037-2047): `x_k - i λ_k x_k (1-x_k) Re(dF/dx_k)`. -/
noncomputable def deformed (lam : Fin n → ℝ) (k : Fin n) : Dx n :=
  .add (.var k) (.mul (.mul (.mul (.num (-Complex.I * lam k)) (.var k)) (oneMinus k)) (realPart k))

/-- `deformation_factors[k]` (make_package.py:2050-2060): `1 - i λ_k (1-x_k) Re(dF/dx_k)`. -/
noncomputable def factor (lam : Fin n → ℝ) (k : Fin n) : Dx n :=
  .add (.num 1) (.mul (.mul (.num (-Complex.I * lam k)) (oneMinus k)) (realPart k))

/-- The deformed variables. -/
noncomputable def z (F : (Fin n → ℂ) → ℂ) (lam : Fin n → ℝ) (x : Fin n → ℝ) : Fin n → ℂ := fun k => (deformed lam k).eval F x

/-- `contourdef_Jacobian_determinant` (make_package.py:2079-2086); the definition of the symbol `symbolic_deformed_variables[i].derive(j)` is
the derivative of `deformed_integration_parameters[i]` (make_package.py:1290-1298 and C44). -/
noncomputable def jacobian (F : (Fin n → ℂ) → ℂ) (lam : Fin n → ℝ) (x : Fin n → ℝ) : ℂ :=
  (Misc.det (List.ofFn fun i => List.ofFn fun j => ((deformed lam i).derive j).eval F x)).getD 0

/-- A factored out monomial, `ExponentiatedPolynomial` with one term and the coefficient one: the powers and the exponent. -/
abbrev Mono (n : ℕ) := (Fin n → ℤ) × ℂ

/-- `monomials = Product(*monomial_factors)` (make_package.py:1085-1086). -/
noncomputable def monomials (mons : List (Mono n)) (x : Fin n → ℝ) : ℂ :=
  (mons.map fun m => (∏ k, (x k : ℂ) ^ (m.1 k)) ^ m.2).prod

/-- `monomial_powers` (make_package.py:1098-1101). -/
def powers (mons : List (Mono n)) (k : Fin n) : ℂ :=
  mons.foldl (fun s m => s + m.2 * m.1 k) 0

/-- `additional_deformation_factor` (make_package.py:1102-1110). -/
noncomputable def additionalFactor (F : (Fin n → ℂ) → ℂ) (lam : Fin n → ℝ) (mons : List (Mono n)) (x : Fin n → ℝ) : ℂ :=
  ∏ k, (factor lam k).eval F x ^ powers mons k

/-- The integrand with contour deformation (make_package.py:1118-1130): the monomials of the undeformed variables, the determinant, the
additional factor, and the other factors `g` as functions of the deformed variables. -/
noncomputable def integrand (F : (Fin n → ℂ) → ℂ) (lam : Fin n → ℝ) (mons : List (Mono n)) (g : (Fin n → ℂ) → ℂ) (x : Fin n → ℝ) : ℂ :=
  monomials mons x * (jacobian F lam x * additionalFactor F lam mons x * g (z F lam x))

/-- The rule for the derivative `α` of the deformed variable number `i` in `FORM_vanishing_deformed_integration_variable_calls`
(make_package.py:1328-1335), which applies if the argument number `i` is zero or one. -/
noncomputable def vanishingCall (i : Fin n) (α : Fin n → ℕ) (x : Fin n → ℝ) : Option ℂ :=
  open Classical in
  if α i = 0 then
    if x i = 0 ∨ x i = 1 then some (if ∃ j, α j ≠ 0 then 0 else x i) else none
  else none

/-- `log` (SecDecInternalFunctions.hpp:50-55): a vanishing imaginary part is replaced by `-0.`, for which the logarithm is the one
below the branch cut. -/
noncomputable def log (a : ℂ) : ℂ :=
  open Classical in
  if a.im = 0 then (if a.re < 0 then ⟨Real.log |a.re|, -Real.pi⟩ else Complex.log a) else Complex.log a

/-- `pow` with a non-integer exponent (SecDecInternalFunctions.hpp:188-207), where `std::pow` is `exp(exponent*log(base))`. -/
noncomputable def pow (b e : ℂ) : ℂ := Complex.exp (e * log b)

/-- `SecDecInternalPow` (SecDecInternalFunctions.hpp:98-174) with at most `fuel` recursive calls; `std::pow(base, int)` for large
exponents is the exact power.  `unsigned half_exponent = exponent / 2`. -/
def intPow {K : Type} [Field K] : (fuel : ℕ) → K → ℤ → Option K
  | 0, _, _ => none
  | fuel + 1, b, e =>
    if e > 1024 ∨ e < -1024 then some (b ^ e)
    else if e < 0 then (intPow fuel b (-e)).map fun r => 1 / r
    else if e = 0 then some 1
    else if e = 1 then some b
    else if e = 2 then some (b * b)
    else if e = 3 then some (b * b * b)
    else if e = 4 then some (let r := b * b; r * r)
    else if e = 5 then some (let r := b * b; r * r * b)
    else if e = 6 then some (let r := b * b * b; r * r)
    else if e = 7 then some (let r := b * b * b; r * r * b)
    else if e = 8 then some (let r := b * b; let r := r * r; r * r)
    else if e = 16 then some (let r := b * b; let r := r * r; let r := r * r; r * r)
    else (intPow fuel b (e / 2)).map fun out =>
      let out := out * out
      if 2 * (e / 2) = e then out else out * b

end Contour
end SecDec
