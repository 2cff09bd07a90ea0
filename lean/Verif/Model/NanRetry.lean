import Mathlib.Data.List.FinRange
import Verif.Model.Scheduler
/-
Model of the integration loop of pySecDec/disteval.py `do_eval`: `shift_done_cb` and `schedule_kernel`.
-/
namespace SecDec
namespace Disteval

/-- One request `integrate` (`disteval.py:611-617`): the kernel, the number of the random shift, and the
parameters (deformation parameters, lattice) at the time of the request; `id` is its serial number. -/
structure Job (K : Type) (ns : Nat) (D : Type) where
  id : Nat
  idx : K
  shift : Fin ns
  params : D
  deriving DecidableEq

/-- The closure variables of `do_eval` used by the callbacks.  `val idx s` is `shift_val[idx, s]`
(`none` for NaN), together with the request it came from; `tag` is `shift_tag`, `params` is `deformp`
(and the lattice).  `log` is the history of the scheduler. -/
structure Eval (k : Nat) (K : Type) (ns : Nat) (D V : Type) where
  sched : Sched k (Job K ns D) (Option V)
  log : List (SEv k (Job K ns D) (Option V)) := []
  nextId : Nat := 0
  params : K → D
  tag : K → Fin ns → Option (Fin k × Job K ns D) := fun _ _ => none
  val : K → Fin ns → Option (Job K ns D × V) := fun _ _ => none

namespace Eval
variable {k : Nat} {K : Type} {ns : Nat} {D V : Type} [DecidableEq K] [DecidableEq D]

/-- Perform a scheduler event. -/
def emit (st : Eval k K ns D V) (e : SEv k (Job K ns D) (Option V)) : Eval k K ns D V :=
  { st with sched := st.sched.step e, log := st.log ++ [e] }

/-- `par.cancel_cb(shift_tag[idx, s])` (`disteval.py:597-598`); the tag is always set when this is
called. -/
def cancelOne (idx : K) (st : Eval k K ns D V) (s : Fin ns) : Eval k K ns D V :=
  match st.tag idx s with
  | some (w, j) => st.emit (.cancel w j)
  | none => st

/-- One round of the loop of `schedule_kernel` (`disteval.py:608-617`); `ch s` is the worker chosen at
random. -/
def scheduleOne (idx : K) (ch : Fin ns → Fin k) (st : Eval k K ns D V) (s : Fin ns) : Eval k K ns D V :=
  let j : Job K ns D := ⟨st.nextId, idx, s, st.params idx⟩
  let st := st.emit (.callCb (ch s) j)
  { st with nextId := st.nextId + 1,
            tag := Function.update st.tag idx (Function.update (st.tag idx) s (some (ch s, j))) }

/-- `disteval.py:608-617` `schedule_kernel(idx)`. -/
def scheduleKernel (idx : K) (ch : Fin ns → Fin k) (st : Eval k K ns D V) : Eval k K ns D V :=
  (List.finRange ns).foldl (scheduleOne idx ch) st

/-- `disteval.py:594-606` `shift_done_cb`; `none` is a NaN; `shrink` is the multiplication of the
deformation parameters by 0.9.  (The timing statistics are omitted.) -/
def shiftDone (shrink : D → D) (ch : Fin ns → Fin k) (st : Eval k K ns D V) (j : Job K ns D) :
    Option V → Eval k K ns D V
  | none =>
    let st := (List.finRange ns).foldl (cancelOne j.idx) st
    let st := { st with params := Function.update st.params j.idx (shrink (st.params j.idx)) }
    scheduleKernel j.idx ch st
  | some v => { st with val := Function.update st.val j.idx (Function.update (st.val j.idx) j.shift (some (j, v))) }

/-- What can happen: the main loop schedules kernel `idx` with new parameters (`disteval.py:739-741`;
lattices are only changed by the main loop); a worker answers a request; draining. -/
inductive Event (k : Nat) (K : Type) (ns : Nat) (D V : Type) where
  | start (idx : K) (d : D) (ch : Fin ns → Fin k)
  | respond (w : Fin k) (j : Job K ns D) (r : Option V) (ch : Fin ns → Fin k)
  | drain
  | resume
  | timeout

/-- One event.  If the scheduler invokes a callback, it is `shift_done_cb` with the arguments stored
with the callback. -/
def step (shrink : D → D) (st : Eval k K ns D V) : Event k K ns D V → Eval k K ns D V
  | .start idx d ch => scheduleKernel idx ch { st with params := Function.update st.params idx d }
  | .respond w j r ch =>
    let st' := st.emit (.respond w (j, true) r)
    if st.sched.delivered.length < st'.sched.delivered.length then
      match st'.sched.delivered.getLast? with
      | some (_, j', r') => shiftDone shrink ch st' j' r'
      | none => st'
    else st'
  | .drain => st.emit .drain
  | .resume => st.emit .resume
  | .timeout => st.emit .timeout

/-- The initial state. -/
def init (d0 : D) : Eval k K ns D V := { sched := Sched.init k _ _, params := fun _ => d0 }

end Eval
end Disteval
end SecDec
