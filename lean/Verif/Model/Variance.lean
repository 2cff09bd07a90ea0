import Verif.Model.Orders
import Mathlib.Data.Complex.Basic
import Mathlib.Data.Complex.BigOperators
/-
Error propagation of `disteval.py`. The program stores the variances of real and imaginary part of a kernel as real and
imaginary part of one complex number `kern_var`. Floating point numbers are idealised as real numbers.
-/
namespace SecDec
namespace Orders
variable {r : ℕ} {κ : Type*}

/-- `mul_variance(coef, var)`, disteval.py:279-284. -/
def mulVariance (coef var : ℂ) : ℂ :=
  let cr2 := coef.re ^ 2
  let ci2 := coef.im ^ 2
  ⟨cr2 * var.re + ci2 * var.im, ci2 * var.re + cr2 * var.im⟩

/-- `amp_var = W_re_var_coef @ np.real(kern_var) + W_im_var_coef @ np.imag(kern_var)` for one row, with
`W_re_var_coef = Wre2 + 1j*Wim2` and `W_im_var_coef = Wim2 + 1j*Wre2`, disteval.py:520-525 and :783. -/
def ampVar [Fintype κ] (tab : Table r κ ℂ) (key : ℕ × Ord r) (var : κ → ℂ) : Option ℂ :=
  (dget tab key).map fun row =>
    (∑ k, (⟨(row k).re ^ 2, (row k).im ^ 2⟩ : ℂ) * ((var k).re : ℂ)) +
      ∑ k, (⟨(row k).im ^ 2, (row k).re ^ 2⟩ : ℂ) * ((var k).im : ℂ)

/-- `br_var`, the squared errors reported for an individual integral, disteval.py:861-867. -/
def intVar (info : Info r κ ℂ) (lowest prefHighest : Ord r) (var : κ → ℂ) : List (Ord r × ℂ) :=
  bracketMul mulVariance info.pref (info.orders.map (kernVal var)) (lowest + prefHighest)

end Orders
end SecDec
