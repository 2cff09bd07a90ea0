import Mathlib.Data.List.Basic
/-
Model of the remote procedure calls of pySecDec/disteval.py: `class Worker`.
-/
namespace SecDec
namespace Disteval

/-- A Python `dict` with integer keys, as a list of items in insertion order. -/
abbrev Dict (α : Type) := List (Nat × α)

namespace Dict
variable {α : Type}

/-- `d.get(k)`. -/
def get? (d : Dict α) (k : Nat) : Option α := (d.find? (fun p => p.1 = k)).map (·.2)
/-- `d[k] = v`: replaces the value in place or appends a new item. -/
def set : Dict α → Nat → α → Dict α
  | [], k, v => [(k, v)]
  | p :: d, k, v => if p.1 = k then (k, v) :: d else p :: set d k v
/-- `del d[k]`. -/
def erase : Dict α → Nat → Dict α
  | [], _ => []
  | p :: d, k => if p.1 = k then d else p :: erase d k

end Dict

/-- The state of a `Worker` (`disteval.py:72-80`).  `J` labels the requests: a callback together with its
`callback_args` is identified by the request it was registered for; `none` is the no-op callback
`lambda a,b,c:None` of `cancel_cb`.  `stdin` are the messages written to the worker process (token and
request); `dead` says that the reader coroutine has exited. -/
structure Worker (J : Type) where
  serial : Nat := 0
  callbacks : Dict (Option J) := []
  stdin : List (Nat × J) := []
  dead : Bool := false

namespace Worker
variable {J : Type}

/-- `disteval.py:83-88` `call_cb` (also `call`, `:96-102`, which passes a callback setting a future);
returns the token. -/
def callCb (w : Worker J) (j : J) : Worker J × Nat :=
  let token := w.serial + 1
  ({ w with
      serial := token
      callbacks := w.callbacks.set token (some j)
      stdin := w.stdin ++ [(token, j)] }, token)

/-- `disteval.py:90-94` `cancel_cb`. -/
def cancelCb (w : Worker J) (token : Nat) : Worker J × Bool :=
  match w.callbacks.get? token with
  | some _ => ({ w with callbacks := w.callbacks.set token none }, true)
  | none => (w, false)

/-- The loop `disteval.py:119-121`: register `s0 + i` for the `i`-th call. -/
def registerAll (cb : Dict (Option J)) : Nat → List J → Dict (Option J)
  | _, [] => cb
  | t, j :: js => registerAll (cb.set t (some j)) (t + 1) js

/-- The messages of `multicall`: `(s0 + i, method, args)`. -/
def messages : Nat → List J → List (Nat × J)
  | _, [] => []
  | t, j :: js => (t, j) :: messages (t + 1) js

/-- `disteval.py:104-124` `multicall`: note that the tokens start at `self.serial`, not at
`self.serial + 1`. -/
def multicall (w : Worker J) (js : List J) : Worker J :=
  { w with
    serial := w.serial + js.length
    callbacks := registerAll w.callbacks w.serial js
    stdin := w.stdin ++ messages w.serial js }

/-- `disteval.py:126-144` one round of the loop of `_reader`, for a message with the given token: an
unknown token raises `KeyError`, which ends the reader; otherwise the callback is removed and
returned (`none`: no-op callback, or the reader is dead). -/
def receive (w : Worker J) (token : Nat) : Worker J × Option J :=
  if w.dead then (w, none)
  else match w.callbacks.get? token with
    | none => ({ w with dead := true }, none)
    | some cb => ({ w with callbacks := w.callbacks.erase token }, cb)

/-- The token under which request `j` was sent. -/
def tokenOf [DecidableEq J] (w : Worker J) (j : J) : Option Nat :=
  (w.stdin.find? (fun m => m.2 = j)).map (·.1)

end Worker

/-- What can happen to a worker: requests of the program (`call` stands for `call_cb` and `call`),
cancellation of the request `j` (using the token returned by `call_cb`), and the answer `r` of the
worker process to the message of request `j` (echoing its token). -/
inductive Ev (J R : Type) where
  | call (j : J)
  | multicall (js : List J)
  | cancel (j : J)
  | respond (j : J) (r : R)

/-- A worker and the log of invoked callbacks. -/
structure WSys (J R : Type) where
  worker : Worker J := {}
  delivered : List (J × R) := []

/-- One event.  `raises d j r`: whether the callback of `j` raises an exception when called with `r`
after the callbacks `d` have been called before (the exception ends the reader,
`disteval.py:140-142`). -/
def WSys.step {J R : Type} [DecidableEq J] (raises : List (J × R) → J → R → Bool) (s : WSys J R) :
    Ev J R → WSys J R
  | .call j => { s with worker := (s.worker.callCb j).1 }
  | .multicall js => { s with worker := s.worker.multicall js }
  | .cancel j => match s.worker.tokenOf j with
    | some t => { s with worker := (s.worker.cancelCb t).1 }
    | none => s
  | .respond j r => match s.worker.tokenOf j with
    | some t =>
      let p := s.worker.receive t
      match p.2 with
      | some j' =>
        { worker := if raises s.delivered j' r then { p.1 with dead := true } else p.1,
          delivered := s.delivered ++ [(j', r)] }
      | none => { s with worker := p.1 }
    | none => s

/-- A history of events, from a fresh `Worker`. -/
def WSys.run {J R : Type} [DecidableEq J] (raises : List (J × R) → J → R → Bool) (h : List (Ev J R)) :
    WSys J R := h.foldl (WSys.step raises) {}

/-- State of the future returned by `multicall`. -/
inductive Fut (R : Type) where
  | pending
  | result (rs : List (Option R))
  | error

/-- The closure variables of `multicall` (`disteval.py:105-107`). -/
structure MultiState (R : Type) where
  fut : Fut R
  results : List (Option R)
  ntodo : Int

/-- `disteval.py:105-107`: the initial state for `n` calls. -/
def MultiState.init (R : Type) (n : Nat) : MultiState R := ⟨.pending, List.replicate n none, n⟩

/-- `disteval.py:108-115` `multicall_return(result, error, w, i)`; the answer is `none` for an error.
Returns also whether the callback raises: `set_result` and `set_exception` of a future that is
already done raise `InvalidStateError`. -/
def MultiState.onReturn {R : Type} (s : MultiState R) (i : Nat) : Option R → MultiState R × Bool
  | some r =>
    let s' := { s with results := s.results.set i (some r), ntodo := s.ntodo - 1 }
    if s'.ntodo = 0 then
      match s'.fut with
      | .pending => ({ s' with fut := .result s'.results }, false)
      | _ => (s', true)
    else (s', false)
  | none =>
    match s.fut with
    | .pending => ({ s with fut := .error }, false)
    | _ => (s, true)

end Disteval
end SecDec
