import Mathlib.Analysis.SpecialFunctions.Pow.Real
import Mathlib.Data.Complex.Basic
/-
Model of pySecDecContrib/util/secdecutil/uncertainties.hpp: numbers with a statistical error.
Simplification: floating point numbers are real numbers; printing, `isnan` and the unary plus are not modelled; each binary
operator copies its first argument and calls the compound assignment (`uncertainties.hpp:120-182`, `:361-465`), so the two
are one function here.
-/
namespace SecDec
namespace Unc
noncomputable section

/-- `UncorrelatedDeviation<T>` for a real `T` (`uncertainties.hpp:42-47`, constructor `:196-198`). -/
@[ext] structure Dev where
  value : ℝ
  uncertainty : ℝ

namespace Dev
/-- `operator-()` (`:64-67`). -/
def neg (a : Dev) : Dev := ⟨-a.value, a.uncertainty⟩
/-- `operator+=(const T&)` (`:72-76`). -/
def addNum (a : Dev) (x : ℝ) : Dev := ⟨a.value + x, a.uncertainty⟩
/-- `operator+=` (`:77-82`). -/
def add (a b : Dev) : Dev := ⟨a.value + b.value, √(a.uncertainty * a.uncertainty + b.uncertainty * b.uncertainty)⟩
/-- `operator-=(const T&)` (`:84-88`). -/
def subNum (a : Dev) (x : ℝ) : Dev := ⟨a.value - x, a.uncertainty⟩
/-- `operator-=` (`:89-94`). -/
def sub (a b : Dev) : Dev := ⟨a.value - b.value, √(a.uncertainty * a.uncertainty + b.uncertainty * b.uncertainty)⟩
/-- `operator-(const T&, const UncorrelatedDeviation&)` (`:151-156`). -/
def numSub (x : ℝ) (a : Dev) : Dev := a.neg.addNum x
/-- `operator*=(const T&)` (`:96-101`). -/
def mulNum (a : Dev) (x : ℝ) : Dev := ⟨a.value * x, √(a.uncertainty * x * a.uncertainty * x)⟩
/-- `operator*=` (`:102-108`). -/
def mul (a b : Dev) : Dev :=
  ⟨a.value * b.value, √(a.uncertainty * b.value * a.uncertainty * b.value + b.uncertainty * a.value * b.uncertainty * a.value +
    a.uncertainty * a.uncertainty * b.uncertainty * b.uncertainty)⟩
/-- `operator/=(const T&)` (`:110-115`). -/
def divNum (a : Dev) (x : ℝ) : Dev := ⟨a.value / x, √(a.uncertainty * a.uncertainty / (x * x))⟩
end Dev

/-- `UncorrelatedDeviation<complex<T>>` (`:214-221`). -/
@[ext] structure CDev where
  value : ℂ
  uncertainty : ℂ

namespace CDev
/-- `real0` and `imag0` (`:286-287`, …). -/
def re (a : CDev) : Dev := ⟨a.value.re, a.uncertainty.re⟩
@[inherit_doc re] def im (a : CDev) : Dev := ⟨a.value.im, a.uncertainty.im⟩
/-- `this->value = {new_real_part.value,new_imag_part.value}; this->uncertainty = …` (`:292-293`, …). -/
def ofParts (r i : Dev) : CDev := ⟨⟨r.value, i.value⟩, ⟨r.uncertainty, i.uncertainty⟩⟩
/-- `operator-()` (`:238-241`). -/
def neg (a : CDev) : CDev := ⟨-a.value, a.uncertainty⟩
/-- `operator+=(const complex&)` (`:251-255`). -/
def addNum (a : CDev) (x : ℂ) : CDev := ⟨a.value + x, a.uncertainty⟩
/-- `operator+=` (`:256-263`). -/
def add (a b : CDev) : CDev :=
  ⟨a.value + b.value,
    ⟨√(a.uncertainty.re * a.uncertainty.re + b.uncertainty.re * b.uncertainty.re),
     √(a.uncertainty.im * a.uncertainty.im + b.uncertainty.im * b.uncertainty.im)⟩⟩
/-- `operator-=(const complex&)` (`:270-274`). -/
def subNum (a : CDev) (x : ℂ) : CDev := ⟨a.value - x, a.uncertainty⟩
/-- `operator-=` (`:275-282`). -/
def sub (a b : CDev) : CDev :=
  ⟨a.value - b.value,
    ⟨√(a.uncertainty.re * a.uncertainty.re + b.uncertainty.re * b.uncertainty.re),
     √(a.uncertainty.im * a.uncertainty.im + b.uncertainty.im * b.uncertainty.im)⟩⟩
/-- `operator-(const complex&, const UncorrelatedDeviation&)` (`:416-421`). -/
def numSub (x : ℂ) (a : CDev) : CDev := CDev.sub ⟨x, 0⟩ a
/-- `operator*=(const T&)` (`:284-296`). -/
def mulReal (a : CDev) (x : ℝ) : CDev := ofParts (a.re.mulNum x) (a.im.mulNum x)
/-- `operator*=(const complex&)` (`:297-309`). -/
def mulNum (a : CDev) (x : ℂ) : CDev :=
  ofParts ((a.re.mulNum x.re).sub (a.im.mulNum x.im)) ((a.re.mulNum x.im).add (a.im.mulNum x.re))
/-- `operator*=` (`:310-325`). -/
def mul (a b : CDev) : CDev :=
  ofParts ((a.re.mul b.re).sub (a.im.mul b.im)) ((a.re.mul b.im).add (b.re.mul a.im))
/-- `operator/=(const T&)` (`:327-341`). -/
def divReal (a : CDev) (x : ℝ) : CDev :=
  ofParts ((a.re.mulNum x).divNum (x * x)) ((a.im.mulNum x).divNum (x * x))
/-- `operator/=(const complex&)` (`:342-356`). -/
def divNum (a : CDev) (x : ℂ) : CDev :=
  ofParts (((a.re.mulNum x.re).add (a.im.mulNum x.im)).divNum (x.re * x.re + x.im * x.im))
    (((a.im.mulNum x.re).sub (a.re.mulNum x.im)).divNum (x.re * x.re + x.im * x.im))

/-- The sum of the summands with their coefficients: `compute_sum` of
pySecDecContrib/util/secdecutil/amplitude.hpp:774-781. -/
def weightedSum (l : List (ℂ × CDev)) : CDev := l.foldl (fun r t => r.add (t.2.mulNum t.1)) ⟨0, 0⟩

end CDev
end
end Unc
end SecDec
