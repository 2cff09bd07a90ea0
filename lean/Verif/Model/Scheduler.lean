import Mathlib.Algebra.BigOperators.Fin
import Verif.Model.Worker
/-
Model of `class RandomScheduler` of pySecDec/disteval.py.
-/
namespace SecDec
namespace Disteval

/-- The state of the coroutine awaiting `drain()`: not running, blocked in `await self.drained.wait()`,
its future has been resolved but it has not been resumed yet, or returned. -/
inductive Waiter where
  | idle | blocked | woken | returned
  deriving DecidableEq

/-- `disteval.py:174-181` `RandomScheduler.__init__`.  There are `k` workers.  The requests of a worker
carry a flag: `true` if the callback is `RandomScheduler._cb` (requests made by `call_cb` and
`call_cb_unweighted`), `false` for requests made directly (`call`, or by `Worker.multicall`).
`drained` is the flag of the `asyncio.Event`. -/
structure Sched (k : Nat) (J R : Type) where
  workers : Fin k → Worker (J × Bool)
  npending : Int := 0
  drained : Bool := true
  waiter : Waiter := .idle
  delivered : List (Fin k × J × R) := []

/-- What can happen to a scheduler.  The worker chosen at random by `call_cb` is part of the event.
`cancel` refers to a request made by `call_cb`, via the returned pair `(w, t)`. -/
inductive SEv (k : Nat) (J R : Type) where
  | callCb (w : Fin k) (j : J)
  | callPlain (w : Fin k) (j : J)
  | multicall (w : Fin k) (js : List J)
  | cancel (w : Fin k) (j : J)
  | respond (w : Fin k) (j : J × Bool) (r : R)
  | drain
  | resume
  | timeout

namespace Sched
variable {k : Nat} {J R : Type} [DecidableEq J]

/-- A scheduler with fresh workers. -/
def init (k : Nat) (J R : Type) : Sched k J R := { workers := fun _ => {} }

/-- `self.npending -= 1; if self.npending == 0: self.drained.set()` (`disteval.py:208-210`,
`:216-218`); `asyncio.Event.set` resolves the future of a blocked waiter. -/
def decPending (s : Sched k J R) : Sched k J R :=
  if s.npending - 1 = 0 then
    { s with npending := s.npending - 1, drained := true,
             waiter := if s.waiter = .blocked then .woken else s.waiter }
  else { s with npending := s.npending - 1 }

/-- The condition asserted at the start of `drain`, `disteval.py:224`. -/
def drainAssert (s : Sched k J R) : Prop := s.npending ≤ ∑ w, ((s.workers w).callbacks.length : Int)

/-- The loop head of `drain` (`disteval.py:225-227`): return, or clear the event and wait for it. -/
def drainLoop (s : Sched k J R) : Sched k J R :=
  if s.npending > 0 then { s with drained := false, waiter := .blocked }
  else { s with waiter := .returned }

/-- One event: `call_cb`/`call_cb_unweighted` (`disteval.py:195-205`), `call` (`:190-193`),
`Worker.multicall`, `cancel_cb` (`:213-221`), an answer of a worker process (`_reader`, then `_cb`
`:207-211`), start of `drain` (`:223-227`), resumption of the waiting coroutine, and its cancellation
by `asyncio.wait_for`.
Simplification: the users' callbacks do not raise; requests they make are separate events that follow
immediately; one coroutine drains at a time. -/
def step (s : Sched k J R) : SEv k J R → Sched k J R
  | .callCb w j => { s with
      npending := s.npending + 1
      workers := Function.update s.workers w ((s.workers w).callCb (j, true)).1 }
  | .callPlain w j => { s with workers := Function.update s.workers w ((s.workers w).callCb (j, false)).1 }
  | .multicall w js => { s with
      workers := Function.update s.workers w ((s.workers w).multicall (js.map (fun j => (j, false)))) }
  | .cancel w j => match (s.workers w).tokenOf (j, true) with
    | none => s
    | some t =>
      let p := (s.workers w).cancelCb t
      let s' := { s with workers := Function.update s.workers w p.1 }
      if p.2 then s'.decPending else s'
  | .respond w j r => match (s.workers w).tokenOf j with
    | none => s
    | some t =>
      let p := (s.workers w).receive t
      let s' := { s with workers := Function.update s.workers w p.1 }
      match p.2 with
      | some (j', true) => { s'.decPending with delivered := s'.delivered ++ [(w, j', r)] }
      | some (_, false) => s'
      | none => s'
  | .drain => s.drainLoop
  | .resume => if s.waiter = .woken then s.drainLoop else s
  | .timeout => { s with waiter := .idle }

/-- A history of events. -/
def run (h : List (SEv k J R)) : Sched k J R := h.foldl step (init k J R)

end Sched
end Disteval
end SecDec
