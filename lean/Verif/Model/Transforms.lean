import Mathlib.Analysis.SpecialFunctions.Trigonometric.Basic
/-
Model of the integral transforms of the quasi-Monte Carlo integrator (pySecDecContrib/qmc.hpp), used by the generated C++ library: `None`, `Baker`,
`Korobov<r0,r1>`, `Sidi<r>`, and the fit function `PolySingular`.  Numbers are real numbers; the unsigned integers of the templates are not
bounded.
-/
namespace SecDec
namespace Transforms

/-- `IPow<D,n>::value` (`qmc.hpp:533-567`). -/
noncomputable def ipow (n : ℕ) (base : ℝ) : ℝ :=
  if n = 0 then 1
  else if n % 2 ≠ 0 then
    let power := ipow ((n - 1) / 2) base
    base * power * power
  else
    let power := ipow (n / 2) base
    power * power
termination_by n
decreasing_by all_goals omega

/-- `Binomial<n,k>::value` (`qmc.hpp:586-610`). -/
def binomial : ℕ → ℕ → ℕ
  | n, k =>
    if n < k then 0
    else if k = 0 then 1
    else if n = k then 1
    else binomial (n - 1) (k - 1) + binomial (n - 1) k
termination_by n _ => n
decreasing_by all_goals omega

/-- `Factorial<n>::value` (`qmc.hpp:803-812`). -/
def factorial : ℕ → ℕ
  | 0 => 1
  | n + 1 => (n + 1) * factorial n

/-- `KorobovCoefficient<D,k,a,b>::value()` (`qmc.hpp:638-661`). -/
noncomputable def korobovCoefficient (a b : ℕ) : ℕ → ℝ
  | 0 => (((a : ℝ) + b + 1) * binomial (a + b) b) / (a + 1)
  | k + 1 => (-1 * ((b : ℝ) - (k + 1) + 1) * korobovCoefficient a b k * (a + (k + 1))) / ((k + 1) * (a + (k + 1) + 1))

/-- `KorobovTerm<D,k,a,b>::value(x)` (`qmc.hpp:683-705`). -/
noncomputable def korobovTerm (a b : ℕ) : ℕ → ℝ → ℝ
  | 0, _ => korobovCoefficient a b b
  | k + 1, x => korobovTerm a b k x * x + korobovCoefficient a b (b - (k + 1))

/-- `if (x[s] > D(1)) x[s] = D(1); if (x[s] < D(0)) x[s] = D(0);` (`qmc.hpp:741-742` and the same lines of the other transforms). -/
noncomputable def clamp (x : ℝ) : ℝ :=
  let x := if x > 1 then 1 else x
  if x < 0 then 0 else x

/-- What a transform does with one variable: the factor of the weight and the new value. -/
structure Step where
  weight : ℝ → ℝ
  value : ℝ → ℝ

/-- One iteration of the loop of `Korobov` (`qmc.hpp:735-743`). -/
noncomputable def korobovStep (r0 r1 : ℕ) : Step where
  weight x := ((r0 : ℝ) + r1 + 1) * binomial (r0 + r1) r0 * ipow r0 x * ipow r1 (1 - x)
  value x := clamp (ipow (r0 + 1) x * korobovTerm r0 r1 r1 x)

/-- One iteration of the loop of `Baker` (`qmc.hpp:472-478`). -/
noncomputable def bakerStep : Step where
  weight _ := 1
  value x := clamp (1 - |2 * x - 1|)

/-- `SidiCoefficient<D,k,r>::value()` (`qmc.hpp:845-868`). -/
noncomputable def sidiCoefficient (r k : ℕ) : ℝ :=
  if r % 2 ≠ 0 then ipow ((r - 1) / 2 - k) (-1) * binomial r k / (2 * k - r)
  else ipow (r / 2 - k) (-1) * binomial r k / (2 * k - r)

/-- `SidiTerm<D,k,r>::value(x, pi)` (`qmc.hpp:896-945`). -/
noncomputable def sidiTerm (r : ℕ) : ℕ → ℝ → ℝ
  | 0, x =>
    if r % 2 ≠ 0 then sidiCoefficient r 0 * (Real.cos (-(r : ℝ) * Real.pi * x) - 1)
    else sidiCoefficient r 0 * Real.sin (-(r : ℝ) * Real.pi * x) + 1 / 2 * Real.pi * binomial r (r / 2) * x
  | k + 1, x =>
    if r % 2 ≠ 0 then sidiCoefficient r (k + 1) * (Real.cos ((2 * (k + 1) - (r : ℝ)) * Real.pi * x) - 1) + sidiTerm r k x
    else sidiCoefficient r (k + 1) * Real.sin ((2 * (k + 1) - (r : ℝ)) * Real.pi * x) + sidiTerm r k x

/-- One iteration of the loop of `Sidi`: for odd `r` (`qmc.hpp:983-995`), for even `r` (`qmc.hpp:1051-1063`), and the transform for `r = 0`
(`qmc.hpp:1101-1120`), which does nothing. -/
noncomputable def sidiStep (r : ℕ) : Step where
  weight x :=
    if r = 0 then 1
    else if r % 2 ≠ 0 then
      Real.pi / ipow r 2 * factorial r / factorial ((r - 1) / 2) / factorial ((r - 1) / 2) * ipow r (Real.sin (Real.pi * x))
    else
      ipow (r - 2) 2 * r * factorial (r / 2 - 1) * factorial (r / 2 - 1) / factorial (r - 1) * ipow r (Real.sin (Real.pi * x))
  value x :=
    if r = 0 then x
    else if r % 2 ≠ 0 then
      clamp (1 / ipow (2 * r - 1) 2 * factorial r / factorial ((r - 1) / 2) / factorial ((r - 1) / 2) * sidiTerm r ((r - 1) / 2) x)
    else
      clamp (r / 2 / Real.pi * factorial (r / 2 - 1) * factorial (r / 2 - 1) / factorial (r - 1) * sidiTerm r (r / 2 - 1) x)

/-- The loop over the integration variables: the weight is multiplied before the variable is overwritten (`qmc.hpp:735-743`). -/
noncomputable def loop {d : ℕ} (S : Fin d → Step) : List (Fin d) → ℝ × (Fin d → ℝ) → ℝ × (Fin d → ℝ)
  | [], st => st
  | s :: l, (wgt, x) => loop S l (wgt * (S s).weight (x s), Function.update x s ((S s).value (x s)))

/-- `operator()` of a transform (`qmc.hpp:731-745`): the integrand after the transform. -/
noncomputable def apply {d : ℕ} (S : Step) (f : (Fin d → ℝ) → ℂ) (x : Fin d → ℝ) : ℂ :=
  let st := loop (fun _ => S) (List.finRange d) (1, x)
  (st.1 : ℂ) * f st.2

/-- The six parameters of `PolySingular` for one variable. -/
structure Fit where
  p0 : ℝ
  p1 : ℝ
  p2 : ℝ
  p3 : ℝ
  p4 : ℝ
  p5 : ℝ

/-- One iteration of the loop of `PolySingularTransform` (`qmc.hpp:347-350`). -/
noncomputable def Fit.step (p : Fit) : Step where
  weight x := |p.p2| * p.p0 * (p.p0 - 1) / (p.p0 - x) / (p.p0 - x) + |p.p3| * p.p1 * (p.p1 - 1) / (p.p1 - x) / (p.p1 - x) + p.p4
    + x * (2 * p.p5 + x * 3 * (1 - |p.p2| - |p.p3| - p.p4 - p.p5))
  value x := |p.p2| * (x * (p.p0 - 1)) / (p.p0 - x) + |p.p3| * (x * (p.p1 - 1)) / (p.p1 - x)
    + x * (p.p4 + x * (p.p5 + x * (1 - |p.p2| - |p.p3| - p.p4 - p.p5)))

/-- The loop of `PolySingularTransform`, which returns zero as soon as a variable leaves the unit interval (`qmc.hpp:345-352`). -/
noncomputable def fitLoop {d : ℕ} (S : Fin d → Step) : List (Fin d) → ℝ × (Fin d → ℝ) → Option (ℝ × (Fin d → ℝ))
  | [], st => some st
  | s :: l, (wgt, x) =>
    let y := (S s).value (x s)
    if y > 1 ∨ y < 0 then none else fitLoop S l (wgt * (S s).weight (x s), Function.update x s y)

/-- `operator()` of `PolySingularTransform` (`qmc.hpp:340-354`). -/
noncomputable def applyFit {d : ℕ} (p : Fin d → Fit) (f : (Fin d → ℝ) → ℂ) (x : Fin d → ℝ) : ℂ :=
  match fitLoop (fun j => (p j).step) (List.finRange d) (1, x) with
  | none => 0
  | some st => (st.1 : ℂ) * f st.2

end Transforms
end SecDec
