import Mathlib.Data.Real.Basic
/-
Model of `IntegralLibrary` of pySecDec/integral_interface.py (1175-1491): the choice of the integrator (`use_Vegas`, ...) and the call, which runs the integration in a second thread.
-/
namespace SecDec
namespace LibraryCall

/-- Accuracy goals and limits, `integral_interface.py:510-513`. -/
structure Settings where
  epsrel : ℝ
  epsabs : ℝ
  mineval : ℕ
  maxeval : ℕ

/-- The integrators with one pointer (`integral_interface.py:471-744`). -/
inductive Kind where | vegas | suave | divonne | cuhre | cquad | qmc

/-- `CPPIntegrator`s: `simple` and `MultiIntegrator` (`integral_interface.py:412-467`) have a `c_integrator_ptr`, `CudaQmc` (`:746-919`) has two other pointers. -/
inductive Integ where
  | simple (k : Kind) (s : Settings)
  | multi (low high : Integ) (criticalDim : ℕ)
  | cudaQmc (s : Settings)

/-- `hasattr(self, 'c_integrator_ptr')` (`integral_interface.py:467`, `:486`, `:508`, ..., `:885-903`). -/
def Integ.hasPtr : Integ → Bool
  | .simple _ _ => true
  | .multi _ _ _ => true
  | .cudaQmc _ => false

/-- `_epsrel`, `_epsabs`, `_mineval`, `_maxeval` (`integral_interface.py:510-513`, ..., `:905-908`); `CQuad` (`:488-489`) has only the first two: `none` stands for an `AttributeError` when
all four are needed. -/
def Integ.settings : Integ → Option Settings
  | .simple .cquad _ => none
  | .simple _ s => some s
  | .multi _ _ _ => none
  | .cudaQmc s => some s

/-- The attributes of an `IntegralLibrary` (`integral_interface.py:1175-1176`). -/
structure Lib where
  cuda : Bool
  integrator : Option Integ
  highDim : Option Integ

/-- What a user does to choose an integrator; `assign` is the assignment `integral_library.integrator = ...` of the documentation of `MultiIntegrator` (`integral_interface.py:440-447`). -/
inductive Op where
  | vegas (s : Settings) | suave (s : Settings) | divonne (s : Settings) | cuhre (s : Settings) | cquad (s : Settings) | qmc (s : Settings) | assign (i : Integ)

/-- `__init__`, `integral_interface.py:1176`. -/
def Lib.init : Lib := { cuda := false, integrator := none, highDim := none }

section
variable (cudaLib : Bool) (vegasDefault qmcDefault : Settings)

/-- `use_Qmc`, `integral_interface.py:1485-1491`; `cudaLib` means that the shared object does not contain `allocate_integrators_Qmc`. -/
def useQmc (st : Lib) (s : Settings) : Lib :=
  if cudaLib then { cuda := true, integrator := some (.cudaQmc s), highDim := some (.cudaQmc s) }
  else { cuda := false, integrator := some (.simple .qmc s), highDim := some (.simple .qmc s) }

/-- `use_Vegas`, `integral_interface.py:1461-1463`. -/
def useVegas (st : Lib) (s : Settings) : Lib := { cuda := false, integrator := some (.simple .vegas s), highDim := some (.simple .vegas s) }

/-- `MultiIntegrator.__init__` reads the pointers of both integrators, `integral_interface.py:467`; `none` is an `AttributeError`. -/
def mkMulti (low high : Integ) (d : ℕ) : Option Integ := if low.hasPtr && high.hasPtr then some (.multi low high d) else none

/-- The methods `use_...`, `integral_interface.py:1461-1491`; the second component says whether an exception was raised. -/
def step (st : Lib) : Op → Lib × Bool
  | .vegas s => (useVegas st s, false)
  | .suave s => ({ cuda := false, integrator := some (.simple .suave s), highDim := some (.simple .suave s) }, false)
  | .divonne s => ({ cuda := false, integrator := some (.simple .divonne s), highDim := some (.simple .divonne s) }, false)
  | .cuhre s => ({ st with integrator := some (.simple .cuhre s), highDim := some (.simple .cuhre s) }, false)      -- `:1473-1474`: `_cuda` is not reset
  | .cquad s =>                                                                                                    -- `:1476-1483`
    if st.cuda then (st, true)
    else
      let st := if st.highDim.isNone then useVegas st vegasDefault else st
      match st.highDim with
      | none => (st, true)
      | some high =>
        match mkMulti (.simple .cquad s) high 2 with
        | none => (st, true)
        | some i => ({ st with integrator := some i }, false)
  | .qmc s => (useQmc cudaLib st s, false)
  | .assign i => ({ st with integrator := some i }, false)

/-- A history of choices (`integral_interface.py:1461-1491`), exceptions are caught by the user. -/
def run (ops : List Op) : Lib := ops.foldl (fun st op => (step cudaLib vegasDefault st op).1) Lib.init

/-- The arguments of a call of the library (`integral_interface.py:1285-1295`): optional settings, and parameters as pairs of real and imaginary part. -/
structure Args where
  real : List ℝ
  complex : List (ℝ × ℝ)
  epsrel : Option ℝ
  epsabs : Option ℝ
  mineval : Option ℕ
  maxeval : Option ℕ
  errormode : String

/-- `integral_interface.py:1306-1317`. -/
def errormodeEnum (s : String) : Option ℕ :=
  if s = "abs" then some 0 else if s = "all" then some 1 else if s = "largest" then some 2 else if s = "real" then some 3 else if s = "imag" then some 4 else none

/-- The beginning of `__call__`, `integral_interface.py:1296-1317`: the integrator (`use_Qmc()` if none has been chosen), the settings and the number of the error mode. `none` is an
exception. Simplification: all attributes of the integrator are read if one of them is needed. -/
def prepare (st : Lib) (a : Args) : Option (Lib × Settings × ℕ) :=
  let st := if st.integrator.isNone then useQmc cudaLib st qmcDefault else st
  let s : Option Settings :=
    match a.epsrel, a.epsabs, a.mineval, a.maxeval with
    | some er, some ea, some mi, some ma => some ⟨er, ea, mi, ma⟩
    | er, ea, mi, ma => (st.highDim.bind Integ.settings).map fun d => ⟨er.getD d.epsrel, ea.getD d.epsabs, mi.getD d.mineval, ma.getD d.maxeval⟩
  s.bind fun s => (errormodeEnum a.errormode).map fun m => (st, s, m)

/-- `flattened_complex_parameters`, `integral_interface.py:1392-1395`. -/
def flatten : List (ℝ × ℝ) → List ℝ
  | [] => []
  | c :: l => c.1 :: c.2 :: flatten l

/-- What the C routine gets: whether it is `cuda_compute_integral`, the integrator, the parameters, the settings and the error mode (`integral_interface.py:1403-1435`). -/
structure CArgs where
  cuda : Bool
  integrator : Integ
  real : List ℝ
  complex : List ℝ
  settings : Settings
  errormode : ℕ

/-- `_call_implementation` up to the call of the C routine, `integral_interface.py:1381-1435`; `none` is an exception in the thread: a wrong number of parameters (an `AssertionError`) or a
missing pointer of the integrator (an `AttributeError`). -/
def cargs (nReal nComplex : ℕ) (st : Lib) (a : Args) (s : Settings) (m : ℕ) : Option CArgs :=
  if a.real.length ≠ nReal then none
  else if a.complex.length ≠ nComplex then none
  else
    match st.integrator with
    | none => none
    | some i => if st.cuda = !i.hasPtr then some ⟨st.cuda, i, a.real, flatten a.complex, s, m⟩ else none

end

/-! ### the two threads -/

/-- The thread of `_call_implementation` (`integral_interface.py:1380-1459`): before the call of the C routine; after it; the return value has been put into its queue; ended. -/
inductive Worker (T : Type) where
  | start
  | called (rv : ℤ) (out : T × T × T)
  | reported (out : T × T × T)
  | dead

/-- The thread of the caller (`integral_interface.py:1345-1368`): the loop of `join`s; waiting for the return value; waiting for the strings; ended with a result or with the
`RuntimeError`. -/
inductive Main (T : Type) where
  | join
  | getRv
  | getOut
  | returned (r : T × T × T)
  | raised

/-- Both threads and their queues, `integral_interface.py:1326-1345`. -/
structure Sys (T : Type) where
  worker : Worker T
  rvq : List ℤ
  outq : List (T × T × T)
  main : Main T

section
variable {T : Type} (job : Option (ℤ × (T × T × T))) (fmt : T → T)

/-- `integral_interface.py:1326-1328`, `:1345`. -/
def Sys.init : Sys T := { worker := .start, rvq := [], outq := [], main := .join }

/-- A step of one of the threads. `job` is what the C routine returns, `none` if the thread ends with an exception before. `fmt` is the conversion to the chosen format, which is not applied
to the prefactor (`integral_interface.py:1353-1368`). -/
inductive Step : Sys T → Sys T → Prop where
  | fail {s} : s.worker = .start → job = none → Step s { s with worker := .dead }                                                            -- `:1381-1435`
  | call {s rv out} : s.worker = .start → job = some (rv, out) → Step s { s with worker := .called rv out }                                 -- `:1403-1435`
  | report {s rv out} : s.worker = .called rv out → Step s { s with rvq := s.rvq ++ [rv], worker := if rv ≠ 0 then .dead else .reported out } -- `:1437-1439`
  | put {s out} : s.worker = .reported out → Step s { s with outq := s.outq ++ [out], worker := .dead }                                       -- `:1459`
  | joined {s} : s.main = .join → s.worker = .dead → Step s { s with main := .getRv }                                                         -- `:1346-1347`
  | rv {s r q} : s.main = .getRv → s.rvq = r :: q → Step s { s with rvq := q, main := if r ≠ 0 then .raised else .getOut }                    -- `:1348-1350`
  | out {s o q} : s.main = .getOut → s.outq = o :: q → Step s { s with outq := q, main := .returned (fmt o.1, o.2.1, fmt o.2.2) }             -- `:1352-1368`

/-- The timeouts of `join` while the other thread is alive (`integral_interface.py:1346-1347`) change nothing. -/
inductive Reachable : Sys T → Prop where
  | init : Reachable Sys.init
  | step {s s'} : Reachable s → Step job fmt s s' → Reachable s'

end
end LibraryCall
end SecDec
