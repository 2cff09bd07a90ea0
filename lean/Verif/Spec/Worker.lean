import Verif.Model.Worker
/-
Which histories of a worker are considered, and what must be delivered.  Everything here refers to
requests, not to tokens.
-/
namespace SecDec
namespace Disteval
variable {J R : Type}

/-- The requests made by an event. -/
def Ev.requests : Ev J R → List J
  | .call j => [j]
  | .multicall js => js
  | _ => []

/-- All requests of a history. -/
def requested (h : List (Ev J R)) : List J := h.flatMap Ev.requests
/-- All requests that were answered by the worker process. -/
def answered (h : List (Ev J R)) : List J :=
  h.filterMap (fun e => match e with | .respond j _ => some j | _ => none)
/-- All requests that were cancelled. -/
def cancelled (h : List (Ev J R)) : List J :=
  h.filterMap (fun e => match e with | .cancel j => some j | _ => none)

/-- First component: the last request, if it was made by `call` (`none` if it was made by a nonempty
`multicall`, or if there is no request).  Second component: the requests made by `call` directly before
a nonempty `multicall`; their token is used again by the `multicall`. -/
def track (h : List (Ev J R)) : Option J × List J :=
  h.foldl (fun p e => match e with
    | .call j => (some j, p.2)
    | .multicall (_ :: _) => (none, p.1.toList ++ p.2)
    | _ => p) (none, [])

/-- The last request, if it was made by `call`. -/
def lastCall (h : List (Ev J R)) : Option J := (track h).1
/-- The requests whose token is used again. -/
def shadowed (h : List (Ev J R)) : List J := (track h).2

/-- The event `e` may happen after the history `h`:
every request is new; a nonempty `multicall` is only issued when the request made by `call` directly
before (if any) has been answered; only requests whose token is not reused are cancelled; the worker
process answers every message at most once. -/
def Allowed (h : List (Ev J R)) : Ev J R → Prop
  | .call j => j ∉ requested h
  | .multicall js => js.Nodup ∧ (∀ j ∈ js, j ∉ requested h) ∧
      (js ≠ [] → ∀ j, lastCall h = some j → j ∈ answered h)
  | .cancel j => j ∈ requested h ∧ j ∉ shadowed h
  | .respond j _ => j ∈ requested h ∧ j ∉ answered h

/-- Histories in which every event was allowed. -/
inductive Legal : List (Ev J R) → Prop
  | nil : Legal []
  | snoc {h : List (Ev J R)} {e : Ev J R} : Legal h → Allowed h e → Legal (h ++ [e])

/-- What has to be delivered after a history: the answers, in order, of the requests that were not
cancelled before; after the first callback that raises nothing is delivered. -/
structure Expected (J R : Type) where
  cancelled : List J := []
  delivered : List (J × R) := []
  stopped : Bool := false

def Expected.step [DecidableEq J] (raises : List (J × R) → J → R → Bool) (s : Expected J R) : Ev J R → Expected J R
  | .cancel j => { s with cancelled := j :: s.cancelled }
  | .respond j r =>
    if s.stopped || decide (j ∈ s.cancelled) then s
    else { s with delivered := s.delivered ++ [(j, r)], stopped := raises s.delivered j r }
  | _ => s

def expected [DecidableEq J] (raises : List (J × R) → J → R → Bool) (h : List (Ev J R)) : Expected J R :=
  h.foldl (Expected.step raises) {}

end Disteval
end SecDec
