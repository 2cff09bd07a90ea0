import Verif.Model.Uncertainties
import Mathlib.Algebra.BigOperators.Group.Finset.Basic
import Mathlib.Analysis.SpecialFunctions.Pow.Real
import Mathlib.Algebra.Order.Floor.Semiring
import Mathlib.Analysis.Complex.Basic
/-
Model of pySecDecContrib/util/secdecutil/amplitude.hpp: the sums of integrals with coefficients and the refinement of the
integrals until the errors of the sums reach their goals.

Simplifications: floating point numbers are real numbers (a quotient by zero is treated explicitly where it matters); the nested
container of sums is a list (`deep_apply` visits the sums in order); the integrals are indexed by a type `ι`, whose elements are exactly
the integrals that appear in the sums (`amplitude.hpp:1190-1201`); the threads of `evaluate_integrals` compute each integral once and
independently (`:508-632`), the repetition of an integration after a failed sign check is in `Model/Deform.lean`; real integrals are
complex ones with imaginary part zero; the output is dropped.
-/
namespace SecDec
namespace Refine
noncomputable section
open Unc

/-- The classes derived from `Integral`: `QmcIntegral` with the function `qmc->get_next_n` (`amplitude.hpp:131`),
`CubaIntegral` with Divonne or another integrator (`:184`), and the two which integrate only once, `CQuadIntegral` and
`MultiIntegratorIntegral` (`:256`, `:289`). -/
inductive Kind where
  | qmc (getNext : ℕ → ℕ)
  | cuba (divonne : Bool)
  | single

/-- `scaleexpo` of the constructors (`:147`, `:204`, `:275`, `:308`). -/
def Kind.scaleexpo : Kind → ℝ
  | .qmc _ => 1
  | .cuba _ => 1 / 2
  | .single => 1 / 2

/-- The members of `Integral` (`:53-66`).  `result` and `time` are set by the first evaluation; reading them before (`n = 0`) throws
(`:93-104`), see `start`. -/
structure Integral where
  n : ℕ
  next : ℕ
  allowRefine : Bool
  result : CDev
  time : ℝ

/-- `Integral::set_next_number_of_function_evaluations` (`:81-87`). -/
def Integral.setNext (I : Integral) (new : ℕ) (allowDecrease : Bool) : Integral :=
  { I with next := if allowDecrease then max new I.n else max (max I.next new) I.n }

/-- What an integrator returns: the result, the elapsed time, the number of evaluations used. -/
structure Answer where
  result : CDev
  time : ℝ
  neval : ℕ

/-- `compute_impl` of the derived classes (`:149-180`, `:226-245`, `:278-285`, `:311-318`). -/
def computeImpl (k : Kind) (answer : ℕ → Answer) (I : Integral) : Integral :=
  match k with
  | .qmc getNext =>
    let nextN := getNext I.next
    let I := if nextN < I.next then { I with allowRefine := false } else I
    let I := I.setNext nextN true
    let new := (answer nextN).result
    if I.n ≤ 0 then { I with result := new }
    else if ‖I.result.uncertainty‖ > ‖new.uncertainty‖ then { I with result := new } else I
  | .cuba divonne =>
    let I := if divonne then { I with allowRefine := false } else I
    let a := answer I.next
    { I with result := a.result }.setNext a.neval true
  | .single => { I with allowRefine := false, result := (answer I.next).result }

/-- `Integral::compute` (`:118-127`).  The answer depends on the number of points the integrator was asked for. -/
def compute (k : Kind) (answer : ℕ → Answer) (I : Integral) : Integral :=
  if I.allowRefine = true ∧ I.next > I.n then
    let J := computeImpl k answer I
    { J with n := J.next, time := (answer I.next).time }
  else I

/-- `sum_t` (`:649-668`). -/
structure Sum (ι : Type) where
  summands : List (ι × ℂ)
  epsrel : ℝ
  epsabs : ℝ
  maxeval : ℕ
  mineval : ℕ
  maxincreasefac : ℝ
  minEpsrel : ℝ
  minEpsabs : ℝ
  maxEpsrel : ℝ
  maxEpsabs : ℝ

/-- `operator+=` of `vector<WeightedIntegral>` (`:340-361`), one term of the second argument. -/
def addTerm {ι : Type} [DecidableEq ι] : List (ι × ℂ) → ι × ℂ → List (ι × ℂ)
  | [], y => [y]
  | x :: a, y => if x.1 = y.1 then (x.1, x.2 + y.2) :: a else x :: addTerm a y

/-- `operator+=` of `vector<WeightedIntegral>` (`:340-361`). -/
def addTerms {ι : Type} [DecidableEq ι] (a b : List (ι × ℂ)) : List (ι × ℂ) := b.foldl addTerm a

/-- `operator*=` of `vector<WeightedIntegral>` (`:373-383`). -/
def mulTerms {ι : Type} (a : List (ι × ℂ)) (b : ℂ) : List (ι × ℂ) := a.map fun t => (t.1, t.2 * b)

abbrev State (ι : Type) := ι → Integral

/-- `compute_sum` (`:774-781`). -/
def computeSum {ι : Type} (s : State ι) (S : Sum ι) : CDev := CDev.weightedSum (S.summands.map fun t => (t.2, (s t.1).result))

/-- `ErrorMode` (`:714`). -/
inductive ErrorMode where
  | abs | all | largest | real | imag
  deriving DecidableEq

/-- The error modes with which `apply_errormode` is called. -/
inductive Part where
  | abs | real | imag
  deriving DecidableEq

/-- `apply_errormode` (`:794-805`). -/
def Part.apply : Part → ℂ → ℝ
  | .abs, z => ‖z‖
  | .real, z => |z.re|
  | .imag, z => |z.im|

/-- `std::numeric_limits<long long>::max()` -/
def llongMax : ℕ := 2 ^ 63 - 1

/-- The settings of the handler (`:688-712`): `wallClockLimit = none` is the default, infinity. -/
structure Config where
  errormode : ErrorMode
  wallClockLimit : Option ℝ
  decreaseToPercentage : ℝ
  minDecreaseFactor : ℝ

/-- What happens outside of the program in one round: the answers of the integrators, the readings of the clock in `ensure_error_goal`
(the same for all sums) and in `ensure_wall_clock_limit`, and how many more passes the two loops of `ensure_error_goal` make
at most.  With real numbers these loops may go on forever, with floating point numbers they stop. -/
structure Env (ι : Type) where
  answer : ι → ℕ → Answer
  elapsedGoal : ℝ
  elapsed : ℝ
  facPasses : ℕ
  timePasses : ℕ

variable {ι : Type} [DecidableEq ι]

/-- `ensure_mineval` (`:923-928`). -/
def ensureMineval (s : State ι) (S : Sum ι) : State ι :=
  S.summands.foldl (fun s t => Function.update s t.1 ((s t.1).setNext S.mineval false)) s

/-- The new number of evaluations of `ensure_min_prec` (`:942-948`).  `relerr` is infinite if the value is zero.
Simplification: `min_epsrel` and `min_epsabs` are not zero. -/
def minPrecN (scaleexpo : ℝ) (S : Sum ι) (I : Integral) : ℕ :=
  let abserr := ‖I.result.uncertainty‖
  let ratio := if I.result.value = 0 then abserr / S.minEpsabs
    else min (abserr / ‖I.result.value‖ / S.minEpsrel) (abserr / S.minEpsabs)
  ⌊min (I.n * ratio ^ (1 / scaleexpo)) llongMax⌋₊

/-- One term in `ensure_min_prec` (`:933-964`); the `Bool` is the variable `repeat`. -/
def minPrecTerm (kind : ι → Kind) (S : Sum ι) (st : State ι × Bool) (t : ι × ℂ) : State ι × Bool :=
  let I := st.1 t.1
  if I.allowRefine = true ∧ I.n < S.maxeval then
    if ‖I.result.uncertainty‖ > S.minEpsabs ∧
        (I.result.value = 0 ∨ ‖I.result.uncertainty‖ / ‖I.result.value‖ > S.minEpsrel) then
      let new := minPrecN (kind t.1).scaleexpo S I
      if new > I.n then
        (Function.update st.1 t.1 (I.setNext (if new > S.maxeval then S.maxeval else new) false), true)
      else st
    else st
  else st

/-- `ensure_min_prec` (`:930-967`). -/
def ensureMinPrec (kind : ι → Kind) (st : State ι × Bool) (S : Sum ι) : State ι × Bool :=
  S.summands.foldl (minPrecTerm kind S) st

/-- `epsrel`, which is set to `1e-50` if both goals are zero (`:984-985`). -/
def Sum.effEpsrel (S : Sum ι) : ℝ := if S.epsrel = 0 ∧ S.epsabs = 0 then 1 / 10 ^ 50 else S.epsrel

/-- The error mode used for a sum (`:992-995`); `all` is replaced before, see `goalRound`. -/
def partOf (mode : ErrorMode) (error : ℂ) : Part :=
  match mode with
  | .abs => .abs
  | .real => .real
  | .imag => .imag
  | _ => if error.re > error.im then .real else .imag

/-- `abs_error_goal` (`:997-1002`). -/
def errorGoal (mode : ErrorMode) (S : Sum ι) (current : CDev) : ℝ :=
  let p := partOf mode current.uncertainty
  let goal := if mode = .largest then S.effEpsrel * max |current.value.re| |current.value.im|
    else S.effEpsrel * p.apply current.value
  max (max goal (p.apply current.uncertainty * S.effEpsrel)) S.epsabs

/-- The data of one term in the loops of `ensure_error_goal`: `c_i`, the squared contribution to the error, `scaleexpo`, the time. -/
structure TermData where
  c : ℝ
  absvar : ℝ
  scaleexpo : ℝ
  time : ℝ

/-- `c_i` (`:1018-1030`); `relerr` is infinite if the value is zero. -/
def cOf (p : Part) (S : Sum ι) (I : Integral) (coeff : ℂ) : ℝ :=
  let abserr := p.apply (I.result.uncertainty * coeff)
  if I.allowRefine = false ∨ (I.result.value * coeff ≠ 0 ∧ abserr / ‖I.result.value * coeff‖ < S.maxEpsrel) ∨ abserr < S.maxEpsabs
  then -1 else √I.time / abserr

/-- The data of a term (`:1018-1030`, `:1056-1064`). -/
def termData (kind : ι → Kind) (p : Part) (S : Sum ι) (s : State ι) (t : ι × ℂ) : TermData :=
  let I := s t.1
  let abserr := p.apply (I.result.uncertainty * t.2)
  ⟨cOf p S I t.2, abserr * abserr, (kind t.1).scaleexpo, I.time⟩

/-- `beta` (`:1065`, `:1101`, `:1129`). -/
def beta (scaleexpo : ℝ) : ℝ := 2 / (2 * scaleexpo + 1)

/-- One pass of the loop that determines `fac` (`:1050-1081`). -/
def facPass (l : List TermData) (goal2 : ℝ) (first : Bool) (fac : ℝ) : ℝ :=
  let varEstimate := (l.map fun d =>
    if d.c > 0 then
      if first then d.absvar * d.c ^ (2 * (beta d.scaleexpo * d.scaleexpo))
      else d.absvar * min (d.c ^ (2 * (beta d.scaleexpo * d.scaleexpo)) / fac) 1
    else d.absvar).sum
  fac * (varEstimate / goal2)

/-- The loop (`:1048-1082`): after a pass, another one is made if `fac < oldfac && fac != 0`, at most `passes` times. -/
def facLoop (l : List TermData) (goal2 : ℝ) : (passes : ℕ) → (first : Bool) → (oldfac : ℝ) → ℝ
  | 0, first, oldfac => facPass l goal2 first oldfac
  | passes + 1, first, oldfac =>
    let fac := facPass l goal2 first oldfac
    if fac < oldfac ∧ fac ≠ 0 then facLoop l goal2 passes false fac else fac

/-- `time_estimate` (`:1090-1106`). -/
def timeEstimate (l : List TermData) (fac : ℝ) : ℝ :=
  (l.map fun d => if d.c > 0 ∧ d.c ^ (-beta d.scaleexpo) * fac ^ (0.5 / d.scaleexpo) > 0 then
      d.time * (d.c ^ (-beta d.scaleexpo) * fac ^ (0.5 / d.scaleexpo)) else 0).sum

/-- One pass of the loop which takes the remaining time into account (`:1087-1113`).  `scaleexpo` is the one of the last term with
positive `c_i`; it is not initialised if there is none (here zero).  Simplification: if the remaining time is negative the C++ function
`pow` may return NaN; `ensure_wall_clock_limit` discards the results in this case. -/
def timePass (l : List TermData) (remaining : ℝ) (fac : ℝ) : ℝ :=
  if timeEstimate l fac > remaining then
    fac * (remaining / timeEstimate l fac) ^ (2 * (((l.filter fun d => d.c > 0).map (·.scaleexpo)).getLastD 0))
  else fac

/-- The loop (`:1087-1114`), with at most `passes` further passes. -/
def timeLoop (l : List TermData) (remaining : ℝ) : (passes : ℕ) → (oldfac : ℝ) → ℝ
  | 0, oldfac => timePass l remaining oldfac
  | passes + 1, oldfac =>
    let fac := timePass l remaining oldfac
    if fac < oldfac ∧ fac ≠ 0 then timeLoop l remaining passes fac else fac

/-- `proposed_next_n` (`:1124-1139`). -/
def proposedN (S : Sum ι) (I : Integral) (c scaleexpo fac : ℝ) : ℕ :=
  min S.maxeval (max I.next ⌊min (I.n * c ^ (-beta scaleexpo) * fac ^ (0.5 / scaleexpo)) llongMax⌋₊)

/-- One term in the last loop of `ensure_error_goal` (`:1118-1157`). -/
def storeTerm (S : Sum ι) (fac : ℝ) (st : State ι × Bool) (t : ι × TermData) : State ι × Bool :=
  let I := st.1 t.1
  if t.2.c > 0 then
    let proposed := proposedN S I t.2.c t.2.scaleexpo fac
    (Function.update st.1 t.1 (I.setNext proposed false), st.2 || decide (proposed > I.n))
  else st

/-- The factor `fac` for a sum (`:1048-1114`). -/
def facOf (cfg : Config) (env : Env ι) (l : List TermData) (goal : ℝ) : ℝ :=
  let fac := facLoop l (goal * goal) env.facPasses true 1
  match cfg.wallClockLimit with
  | none => fac
  | some limit => timeLoop l ((limit - env.elapsedGoal) * cfg.decreaseToPercentage) env.timePasses fac

/-- `ensure_error_goal` (`:981-1159`) with the error mode `mode`. -/
def ensureErrorGoal (kind : ι → Kind) (cfg : Config) (env : Env ι) (mode : ErrorMode) (st : State ι × Bool) (S : Sum ι) :
    State ι × Bool :=
  let current := computeSum st.1 S
  let p := partOf mode current.uncertainty
  let goal := errorGoal mode S current
  if p.apply current.uncertainty < goal then st
  else
    let data := S.summands.map fun t => (t.1, termData kind p S st.1 t)
    data.foldl (storeTerm S (facOf cfg env (data.map (·.2)) goal)) st

/-- `ensure_maxincreasefac` (`:1162-1182`). -/
def ensureMaxincreasefac (s : State ι) (S : Sum ι) : State ι :=
  S.summands.foldl (fun s t =>
    let I := s t.1
    let maxNext := ⌊(I.n : ℝ) * S.maxincreasefac⌋₊
    if I.next > maxNext then Function.update s t.1 (I.setNext maxNext true) else s) s

variable [Fintype ι]

/-- `time_for_next_iteration` (`:834-846`, and again `:864-882` with the reduced numbers). -/
def timeNext (s : State ι) (factor : ℝ) (open_ : ι → Bool) : ℝ :=
  ∑ i, if open_ i = true then (s i).time * ((s i).next / (s i).n * factor) else 0

/-- One pass of the loop of `ensure_wall_clock_limit` (`:857-885`): the reduced numbers, the new estimate of the time and
`can_improve_in_time`. -/
def wallPass (s : State ι) (factor : ℝ) : State ι × ℝ × Bool :=
  let reduced := fun i => ⌊((s i).next : ℝ) / (s i).n * factor * (s i).n⌋₊
  (fun i => if (s i).next > (s i).n then (s i).setNext (reduced i) true else s i,
   timeNext s factor (fun i => decide ((s i).next > (s i).n ∧ reduced i > (s i).n)),
   decide (∃ i, (s i).next > (s i).n ∧ reduced i > (s i).n))

/-- The loop of `ensure_wall_clock_limit` (`:857-904`); `available` is `remaining_time * decrease_to_percentage`.  The bound `passes` on the
number of passes is only needed to define the function: `C40_wall_clock` shows that the loop ends before.  (The test of
`elapsed_time > wall_clock_limit` in the loop is always false, because of `:815`.) -/
def wallLoop (minDecrease available : ℝ) : (passes : ℕ) → State ι → (time : ℝ) → (rep : Bool) → State ι × Bool
  | 0, s, _, rep => (s, rep)
  | passes + 1, s, time, rep =>
    if available < time then
      let factor := available / time
      let factor := if factor > minDecrease then minDecrease else factor
      let r := wallPass s factor
      wallLoop minDecrease available passes r.1 r.2.1 r.2.2
    else (s, rep)

/-- `ensure_wall_clock_limit` (`:810-908`). -/
def ensureWallClock (cfg : Config) (percentage elapsed : ℝ) (st : State ι × Bool) : State ι × Bool :=
  match cfg.wallClockLimit with
  | none => st
  | some limit =>
    if limit - elapsed ≤ 0 then (fun i => (st.1 i).setNext (st.1 i).n true, false)
    else wallLoop cfg.minDecreaseFactor ((limit - elapsed) * percentage) (∑ i, (st.1 i).next + 1) st.1
      (timeNext st.1 1 fun i => decide ((st.1 i).next > (st.1 i).n)) st.2

/-- `evaluate_integrals` (`:508-632`). -/
def evaluate (kind : ι → Kind) (env : Env ι) (s : State ι) : State ι := fun i => compute (kind i) (env.answer i) (s i)

/-- One round of the first loop of `refine_integrals` (`:1238-1254`). -/
def precRound (kind : ι → Kind) (cfg : Config) (sums : List (Sum ι)) (env : Env ι) (s : State ι) : State ι × Bool :=
  let st := sums.foldl (ensureMinPrec kind) (s, false)
  let st := ensureWallClock cfg cfg.decreaseToPercentage env.elapsed (sums.foldl ensureMaxincreasefac st.1, st.2)
  (evaluate kind env st.1, st.2)

/-- One round of the second loop of `refine_integrals` (`:1266-1294`). -/
def goalRound (kind : ι → Kind) (cfg : Config) (sums : List (Sum ι)) (env : Env ι) (s : State ι) : State ι × Bool :=
  let st := if cfg.errormode = .all then
      sums.foldl (ensureErrorGoal kind cfg env .imag) (sums.foldl (ensureErrorGoal kind cfg env .real) (s, false))
    else sums.foldl (ensureErrorGoal kind cfg env cfg.errormode) (s, false)
  let st := ensureWallClock cfg 1 env.elapsed (sums.foldl ensureMaxincreasefac st.1, st.2)
  (evaluate kind env st.1, st.2)

/-- `do … while(repeat)`; `k` counts the rounds, `none` if the loop has not ended after `fuel` rounds. -/
def doWhile (round : ℕ → State ι → State ι × Bool) : (fuel : ℕ) → (k : ℕ) → State ι → Option (State ι)
  | 0, _, _ => none
  | fuel + 1, k, s =>
    let r := round k s
    if r.2 = true then doWhile round fuel (k+1) r.1 else some r.1

/-- The first evaluation (`:1220-1226`).  If an integral is still not computed, the next `get_integral_result` throws
(`:93-98`): `none`. -/
def start (kind : ι → Kind) (sums : List (Sum ι)) (env : Env ι) (s : State ι) : Option (State ι) :=
  let s := evaluate kind env (sums.foldl ensureMineval s)
  if ∀ i, (s i).n > 0 then some s else none

/-- `refine_integrals` (`:913-1308`); the environments of the first evaluation and of the rounds of the two loops. -/
def refineIntegrals (kind : ι → Kind) (cfg : Config) (sums : List (Sum ι)) (env0 : Env ι) (env1 env2 : ℕ → Env ι) (fuel : ℕ)
    (s : State ι) : Option (State ι) :=
  (start kind sums env0 s).bind fun s =>
  (doWhile (fun k => precRound kind cfg sums (env1 k)) fuel 0 s).bind fun s =>
  doWhile (fun k => goalRound kind cfg sums (env2 k)) fuel 0 s

/-- The state after the construction of the integrals (`:71-74`): not computed, `next` is the argument of the constructor. -/
def initial (next : ι → ℕ) : State ι := fun i => ⟨0, next i, true, ⟨0, 0⟩, 0⟩

end
end Refine
end SecDec
