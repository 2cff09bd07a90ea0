import Mathlib.Data.Complex.Basic
import Mathlib.Logic.Function.Basic
/-
Model of `IntegrandContainer` and `ResultInfo` (pySecDecContrib/util/secdecutil/integrand_container.hpp), and of the parts of the integrator interface
(integrators/integrator.hpp, integrators/cuba.hpp) which choose the integrand and the number of dimensions.  Numbers are exact; the members
`display_name`, `parameters_ptr` and `extra_parameters` are not modelled.
-/
namespace SecDec
namespace Container

/-! ### Errors -/

/-- `ResultInfo::ReturnValue` (`integrand_container.hpp:25`). -/
inductive ReturnValue where
  | noError
  | signCheckContour
  | signCheckPositive
  deriving DecidableEq

/-- What a failed sign check files: `return_value` and `signCheckId` (`SecDecInternalFunctions.hpp:303-316`). -/
structure Report where
  value : ReturnValue
  id : ℤ
  deriving DecidableEq

/-- The fields of `ResultInfo` (`integrand_container.hpp:21-27`). -/
structure Info where
  filled : Bool
  value : ReturnValue
  id : ℤ

/-- A thread which evaluates integrands: the reports it still has to file, and where it is in `fill_if_empty_threadsafe`
(`integrand_container.hpp:46-58`): before the compare-and-exchange, before the write of `return_value`, before the write of `signCheckId`. -/
inductive Filing where
  | ready (todo : List Report)
  | first (r : Report) (todo : List Report)
  | second (r : Report) (todo : List Report)

/-- The state of `T` threads which share one `ResultInfo`. -/
structure FillState (T : ℕ) where
  info : Info
  thread : Fin T → Filing

/-- One step of one thread in `fill_if_empty_threadsafe` (`integrand_container.hpp:46-58`). -/
inductive Fill {T : ℕ} : FillState T → FillState T → Prop where
  /-- `atomic_compare_exchange_strong(&filled, 0, 1)` succeeds (`integrand_container.hpp:51`). -/
  | claim (s : FillState T) (j : Fin T) (r : Report) (l : List Report) (h : s.thread j = .ready (r :: l)) (hf : s.info.filled = false) :
      Fill s ⟨{ s.info with filled := true }, Function.update s.thread j (.first r l)⟩
  /-- It fails: nothing is written. -/
  | skip (s : FillState T) (j : Fin T) (r : Report) (l : List Report) (h : s.thread j = .ready (r :: l)) (hf : s.info.filled = true) :
      Fill s ⟨s.info, Function.update s.thread j (.ready l)⟩
  /-- `return_value = ...` (`integrand_container.hpp:53`). -/
  | value (s : FillState T) (j : Fin T) (r : Report) (l : List Report) (h : s.thread j = .first r l) :
      Fill s ⟨{ s.info with value := r.value }, Function.update s.thread j (.second r l)⟩
  /-- `signCheckId = ...` (`integrand_container.hpp:54`). -/
  | id (s : FillState T) (j : Fin T) (r : Report) (l : List Report) (h : s.thread j = .second r l) :
      Fill s ⟨{ s.info with id := r.id }, Function.update s.thread j (.ready l)⟩

/-- `process_errors` (`integrand_container.hpp:29-36`): the error that is thrown. -/
def processErrors (i : Info) : Option Report := if i.value = .noError then none else some ⟨i.value, i.id⟩

/-- `clear_errors` (`integrand_container.hpp:38-41`). -/
def clearErrors (i : Info) : Info := { i with value := .noError, filled := false }

/-! ### Containers as objects -/

/-- The operations (`integrand_container.hpp:68`). -/
inductive Op where
  | add
  | subtract
  | multiply
  | divide

noncomputable def Op.apply : Op → ℂ → ℂ → ℂ
  | .add, a, b => a + b
  | .subtract, a, b => a - b
  | .multiply, a, b => a * b
  | .divide, a, b => a / b

/-- What a generated integrand computes from the integration variables and the parameters: its value and the reports it files. -/
abbrev Integrand := (ℕ → ℝ) → List ℝ → ℂ × List Report

/-- The `std::function` in a container: a generated function, or a lambda with what it has captured: copies of two containers
(`integrand_container.hpp:160-168`), the address of a container (`this`, `integrand_container.hpp:186`), or a copy of a container of which the real or
the imaginary part is taken (`integrand_container.hpp:249`). -/
inductive Fn where
  | leaf (f : Integrand)
  | bin (op : Op) (params1 : List (List ℝ)) (f1 : Fn) (params2 : List (List ℝ)) (f2 : Fn)
  | neg (this : ℕ)
  | part (imag : Bool) (f : Fn)

/-- A container (`integrand_container.hpp:60-75`). -/
structure Cont where
  dim : ℕ
  params : List (List ℝ)
  fn : Fn

/-- The objects which are alive, by their addresses. -/
abbrev Store := ℕ → Option Cont

/-- `parameters.size() ? parameters[0].data() : nullptr` (`integrand_container.hpp:133`, `139`). -/
def dataptr (params : List (List ℝ)) : List ℝ := params.headD []

/-- The call of the `std::function`; the reports of both operands are filed in the `ResultInfo` of the caller.  The fuel bounds the number of nested
calls through `this`; `none` is that it is used up, or the use of an object which is no longer alive. -/
noncomputable def call (σ : Store) (fuel : ℕ) (f : Fn) (x : ℕ → ℝ) (p : List ℝ) : Option (ℂ × List Report) :=
  match f with
  | .leaf f => some (f x p)
  | .bin op params1 f1 params2 f2 =>
    (call σ fuel f1 x (dataptr params1)).bind fun a => (call σ fuel f2 x (dataptr params2)).map fun b => (op.apply a.1 b.1, a.2 ++ b.2)
  | .neg i =>
    match fuel with
    | 0 => none
    | fuel + 1 => (σ i).bind fun c => (call σ fuel c.fn x p).map fun a => (-a.1, a.2)
  | .part imag f => (call σ fuel f x p).map fun a => (if imag then (a.1.im : ℂ) else (a.1.re : ℂ), a.2)
termination_by (fuel, sizeOf f)

/-- `operator()(x)` (`integrand_container.hpp:131-141`). -/
noncomputable def eval (σ : Store) (fuel : ℕ) (c : Cont) (x : ℕ → ℝ) : Option (ℂ × List Report) := call σ fuel c.fn x (dataptr c.params)

/-- `add_subtract_multiply_or_divide` (`integrand_container.hpp:154-171`). -/
def combine (op : Op) (a b : Cont) : Cont := ⟨max a.dim b.dim, [], .bin op a.params a.fn b.params b.fn⟩

/-- `operator-()` (`integrand_container.hpp:181-188`) of the object at the address `i`. -/
def negate (i : ℕ) (c : Cont) : Cont := ⟨c.dim, c.params, .neg i⟩

/-- `complex_to_real::real` and `imag` (`integrand_container.hpp:239-254`). -/
def part (imag : Bool) (c : Cont) : Cont := ⟨c.dim, c.params, .part imag c.fn⟩

/-- Statements of a program with containers. -/
inductive Stmt where
  /-- A container of a generated function (`integrand_container.hpp:80-91`). -/
  | new (x : ℕ) (dim : ℕ) (params : List (List ℝ)) (f : Integrand)
  /-- `x = y`, also `x = +y` (`integrand_container.hpp:107-112`, `176-179`). -/
  | copy (x y : ℕ)
  /-- `x = y op z`; `x op= z` is `x = x op z` (`integrand_container.hpp:193-236`). -/
  | bin (op : Op) (x y z : ℕ)
  /-- `x = -y`. -/
  | neg (x y : ℕ)
  /-- `x = real(y)`, `x = imag(y)`. -/
  | part (imag : Bool) (x y : ℕ)
  /-- The end of the life of `x`. -/
  | drop (x : ℕ)

/-- The object which a statement changes. -/
def Stmt.target : Stmt → ℕ
  | .new x _ _ _ => x
  | .copy x _ => x
  | .bin _ x _ _ => x
  | .neg x _ => x
  | .part _ x _ => x
  | .drop x => x

/-- One statement. -/
def exec (σ : Store) : Stmt → Store
  | .new x dim params f => Function.update σ x (some ⟨dim, params, .leaf f⟩)
  | .copy x y => Function.update σ x (σ y)
  | .bin op x y z => Function.update σ x ((σ y).bind fun a => (σ z).map (combine op a))
  | .neg x y => Function.update σ x ((σ y).map (negate y))
  | .part imag x y => Function.update σ x ((σ y).map (part imag))
  | .drop x => Function.update σ x none

/-- A program. -/
def run (σ : Store) (prog : List Stmt) : Store := prog.foldl exec σ

/-! ### Integrators -/

/-- `ndim` of the Cuba integrators (`cuba.hpp:45-48`). -/
def cubaDim (c : Cont) : ℕ := if c.dim ≤ 1 then 2 else c.dim

/-- `MultiIntegrator` (`integrator.hpp:271-277`): the dimension decides. -/
def multi {α : Type} (low high : Cont → α) (criticalDim : ℕ) (c : Cont) : α := if c.dim < criticalDim then low c else high c

/-- `CQuad` (`cquad.hpp:139-143`): an exception for more than one variable. -/
def cquad {α : Type} (quadrature : Cont → α) (c : Cont) : Option α := if c.dim > 1 then none else some (quadrature c)

/-- A complex integrator with `together = false` (`integrator.hpp:120-127`): two real integrations. -/
def separate (integrate : Cont → ℝ × ℝ) (c : Cont) : ℂ × ℂ :=
  let re := integrate (part false c)
  let im := integrate (part true c)
  (⟨re.1, im.1⟩, ⟨re.2, im.2⟩)

end Container
end SecDec
