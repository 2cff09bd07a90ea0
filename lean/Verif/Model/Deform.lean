import Verif.Model.Refine
/-
Model of the choice of the deformation parameters: `optimize_deformation_parameters` of
pySecDecContrib/util/secdecutil/sector_container.hpp, and the loop of `evaluate_integrals` of
pySecDecContrib/util/secdecutil/amplitude.hpp which reduces them after a failed sign check.

Simplifications: floating point numbers are real numbers; the error flags of the generated functions (`result_info`) in
`optimize_deformation_parameters` are dropped; the printed messages are dropped.
-/
namespace SecDec
namespace Deform
noncomputable section
open Refine

/-! ### sector_container.hpp -/

/-- The body of the loop over the variables for one sample, where `temp` are the maximal allowed deformation parameters
(sector_container.hpp:172-178). -/
def presample {n : ℕ} (minimum maximum : ℝ) (opt temp : Fin n → ℝ) : Fin n → ℝ := fun j =>
  if minimum ≤ temp j ∧ temp j ≤ maximum then
    if opt j > temp j then temp j else opt j
  else if temp j < minimum then minimum
  else opt j

/-- The first loop over the samples (sector_container.hpp:145, 167-179). -/
def phase1 {n : ℕ} {X : Type} (minimum maximum : ℝ) (allowed : X → Fin n → ℝ) (samples : List X) : Fin n → ℝ :=
  samples.foldl (fun opt x => presample minimum maximum opt (allowed x)) (fun _ => maximum)

/-- The `while` loop for one sample (sector_container.hpp:190-194), with at most `fuel` passes; `none` if it has not ended by then. -/
def shrink {n : ℕ} (passes : (Fin n → ℝ) → Bool) (factor : ℝ) : (fuel : ℕ) → (Fin n → ℝ) → Option (Fin n → ℝ)
  | 0, _ => none
  | fuel + 1, opt => if passes opt = true then some opt else shrink passes factor fuel (fun j => opt j * factor)

/-- `optimize_deformation_parameters` (sector_container.hpp:130-201).  `samples` are the points of the Sobol sequence, `allowed` the
function `maximal_allowed_deformation_parameters`, `passes` the function `contour_deformation_polynomial_passes_sign_check`. -/
def optimize {n : ℕ} {X : Type} (minimum maximum factor : ℝ) (allowed : X → Fin n → ℝ) (passes : X → (Fin n → ℝ) → Bool)
    (samples : List X) (fuel : ℕ) : Option (Fin n → ℝ) :=
  if samples.length = 0 then some fun _ => maximum
  else samples.foldlM (fun opt x => shrink (passes x) factor fuel opt) (phase1 minimum maximum allowed samples)

/-- `contour_deformation_polynomial_passes_sign_check` (sector_container.hpp:212-223). -/
def passesSignCheck {n : ℕ} {X : Type} (poly : X → (Fin n → ℝ) → ℂ) (x : X) (opt : Fin n → ℝ) : Bool :=
  decide ((poly x opt).im ≤ (poly x 0).im)

/-! ### amplitude.hpp -/

/-- The parameters of one sector: `pars[k]`, and `extra_pars[k]`, which holds the minimum and the decrease factor
(amplitude.hpp:543-544, sector_container.hpp:323). -/
structure ParSet where
  values : List ℝ
  minimum : ℝ
  factor : ℝ

/-- The new value of one parameter (amplitude.hpp:550-554). -/
def reduceValue (minimum factor x : ℝ) : ℝ :=
  if x > minimum then
    if x * factor < minimum then minimum else x * factor
  else x

/-- All new values (amplitude.hpp:547-563). -/
def reduce (ps : List ParSet) : List ParSet :=
  ps.map fun P => { P with values := P.values.map (reduceValue P.minimum P.factor) }

/-- `changed_deformation_parameters` (amplitude.hpp:546-556). -/
def changes (ps : List ParSet) : Bool := ps.any fun P => P.values.any fun x => decide (x > P.minimum)

/-- `compute_impl` of the derived classes if the integrator throws a `sign_check_error` (amplitude.hpp:149-180, 226-245, 278-285, 311-318):
what was assigned before the call of `integrate` remains. -/
def failedImpl (k : Kind) (I : Integral) : Integral :=
  match k with
  | .qmc getNext =>
    let nextN := getNext I.next
    let I := if nextN < I.next then { I with allowRefine := false } else I
    I.setNext nextN true
  | .cuba divonne => if divonne then { I with allowRefine := false } else I
  | .single => { I with allowRefine := false }

/-- `Integral::compute` (amplitude.hpp:118-127); `integrate m = none` if the integration with `m` points throws a `sign_check_error`.  The
`Bool` tells whether there was no exception. -/
def tryCompute (k : Kind) (integrate : ℕ → Option Answer) (I : Integral) : Integral × Bool :=
  if I.allowRefine = true ∧ I.next > I.n then
    let asked := match k with
      | .qmc getNext => getNext I.next
      | _ => I.next
    match integrate asked with
    | some a => (compute k (fun _ => a) I, true)
    | none => (failedImpl k I, false)
  else (I, true)

/-- The end of the loop: the integral and the parameters, or the `runtime_error` (amplitude.hpp:565). -/
inductive Outcome where
  | ok (I : Integral) (ps : List ParSet)
  | error

/-- The loop in `compute_integral` (amplitude.hpp:531-583), with at most `fuel` passes. -/
def retry (k : Kind) (integrate : List ParSet → ℕ → Option Answer) : (fuel : ℕ) → List ParSet → Integral → Option Outcome
  | 0, _, _ => none
  | fuel + 1, ps, I =>
    match tryCompute k (integrate ps) I with
    | (J, true) => some (.ok J ps)
    | (J, false) => if changes ps = true then retry k integrate fuel (reduce ps) J else some .error

end
end Deform
end SecDec
