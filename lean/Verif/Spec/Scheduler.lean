import Verif.Model.Scheduler
import Verif.Spec.Worker
/-
Which histories of a scheduler are considered, and which requests are pending.
-/
namespace SecDec
namespace Disteval
variable {k : Nat} {J R : Type}

/-- What a scheduler event means for worker `w`. -/
def SEv.proj (w : Fin k) : SEv k J R → Option (Ev (J × Bool) R)
  | .callCb w' j => if w' = w then some (.call (j, true)) else none
  | .callPlain w' j => if w' = w then some (.call (j, false)) else none
  | .multicall w' js => if w' = w then some (.multicall (js.map (fun j => (j, false)))) else none
  | .cancel w' j => if w' = w then some (.cancel (j, true)) else none
  | .respond w' j r => if w' = w then some (.respond j r) else none
  | .drain => none
  | .resume => none
  | .timeout => none

/-- The history of worker `w`. -/
def projH (w : Fin k) (h : List (SEv k J R)) : List (Ev (J × Bool) R) := h.filterMap (SEv.proj w)

/-- The requests made via the scheduler's `call_cb`. -/
def scheduled (h : List (SEv k J R)) : List (Fin k × J) :=
  h.filterMap (fun e => match e with | .callCb w j => some (w, j) | _ => none)

/-- The scheduled requests that were neither answered nor cancelled. -/
def openJobs [DecidableEq J] (h : List (SEv k J R)) : List (Fin k × J) :=
  (scheduled h).filter (fun p => decide ((p.2, true) ∉ answered (projH p.1 h) ∧ (p.2, true) ∉ cancelled (projH p.1 h)))

/-- Legal histories: legal for every worker, and no unanswered request is cancelled twice. -/
structure LegalS (h : List (SEv k J R)) : Prop where
  workers : ∀ w, Legal (projH w h)
  once : ∀ w j h1 h2, h = h1 ++ .cancel w j :: h2 → (j, true) ∈ cancelled (projH w h1) →
    (j, true) ∈ answered (projH w h1)

end Disteval
end SecDec
