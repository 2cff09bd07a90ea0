import Verif.Model.NanRetry
import Verif.Spec.Scheduler
/-
Which executions of the integration loop are considered.
-/
namespace SecDec
namespace Disteval
namespace Eval
variable {k : Nat} {K : Type} {ns : Nat} {D V : Type} [DecidableEq K] [DecidableEq D]

/-- A kernel is only (re)started by the main loop when it has no open requests (the main loop drains
before); the worker processes answer requests that were made, once. -/
def Allowed (st : Eval k K ns D V) : Event k K ns D V → Prop
  | .start idx _ _ => ∀ w j, (w, j) ∈ openJobs st.log → j.idx ≠ idx
  | .respond w j _ _ => (w, j) ∈ scheduled st.log ∧ (j, true) ∉ answered (projH w st.log)
  | _ => True

/-- The states reachable by any interleaving of events. -/
inductive Reachable (shrink : D → D) (d0 : D) : Eval k K ns D V → Prop
  | init : Reachable shrink d0 (init d0)
  | step {st : Eval k K ns D V} {e : Event k K ns D V} : Reachable shrink d0 st → Allowed st e →
      Reachable shrink d0 (st.step shrink e)

end Eval
end Disteval
end SecDec
