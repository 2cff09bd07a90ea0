import Verif.Model.Container
import Mathlib.MeasureTheory.Integral.Bochner.Set
import Mathlib.MeasureTheory.Constructions.Pi
import Mathlib.MeasureTheory.Measure.Haar.OfBasis
import Mathlib.Logic.Relation
/-
Specification for C69: programs with containers as mathematical expressions.
-/
namespace SecDec
namespace Container

/-- What a container means: a number of variables, and a function of them with the failed sign checks. -/
structure Value where
  dim : ℕ
  f : (ℕ → ℝ) → ℂ × List Report

/-- The meaning of the variables of a program. -/
abbrev Env := ℕ → Option Value

/-- The meaning of a statement: the variable on the left gets the value of the expression on the right. -/
noncomputable def meaning (ρ : Env) : Stmt → Env
  | .new x dim params f => Function.update ρ x (some ⟨dim, fun v => f v (params.headD [])⟩)
  | .copy x y => Function.update ρ x (ρ y)
  | .bin op x y z => Function.update ρ x ((ρ y).bind fun a => (ρ z).map fun b =>
      ⟨max a.dim b.dim, fun v => (match op with
        | .add => (a.f v).1 + (b.f v).1
        | .subtract => (a.f v).1 - (b.f v).1
        | .multiply => (a.f v).1 * (b.f v).1
        | .divide => (a.f v).1 / (b.f v).1, (a.f v).2 ++ (b.f v).2)⟩)
  | .neg x y => Function.update ρ x ((ρ y).map fun a => ⟨a.dim, fun v => (-(a.f v).1, (a.f v).2)⟩)
  | .part imag x y => Function.update ρ x ((ρ y).map fun a => ⟨a.dim, fun v => (if imag then ((a.f v).1.im : ℂ) else ((a.f v).1.re : ℂ), (a.f v).2)⟩)
  | .drop x => Function.update ρ x none

/-- The meaning of a program. -/
noncomputable def meaningOf (prog : List Stmt) : Env := prog.foldl meaning fun _ => none

/-- Operands of the unary minus stay alive and unchanged: they are not the target of this or of a later statement. -/
def KeepsNegated (prog : List Stmt) : Prop :=
  ∀ pre x y post, prog = pre ++ .neg x y :: post → x ≠ y ∧ ∀ s ∈ post, s.target ≠ y

/-- There is no unary minus. -/
def NoMinus (prog : List Stmt) : Prop := ∀ x y, .neg x y ∉ prog

/-- The container at the address `i` after the program has the meaning of the variable `i`: evaluations with enough stack succeed. -/
def Agrees (fuel : ℕ) (prog : List Stmt) (i : ℕ) : Prop :=
  (run (fun _ => none) prog i = none ∧ meaningOf prog i = none) ∨
  ∃ c v, run (fun _ => none) prog i = some c ∧ meaningOf prog i = some v ∧ c.dim = v.dim ∧
    ∀ x, eval (run (fun _ => none) prog) fuel c x = some (v.f x)

/-- The first `d` variables as an array. -/
def extend {d : ℕ} (x : Fin d → ℝ) : ℕ → ℝ := fun i => if h : i < d then x ⟨i, h⟩ else 0

/-- The integral over the unit cube of `d` dimensions. -/
noncomputable def integral (d : ℕ) (f : (ℕ → ℝ) → ℂ) : ℂ := ∫ x : Fin d → ℝ in Set.Icc 0 1, f (extend x)

/-- The integrand is integrable over the unit cube. -/
def Integrable (d : ℕ) (f : (ℕ → ℝ) → ℂ) : Prop := MeasureTheory.IntegrableOn (fun x : Fin d → ℝ => f (extend x)) (Set.Icc 0 1)

/-- The integrand depends on the first `d` variables only. -/
def DependsOn (d : ℕ) (f : (ℕ → ℝ) → ℂ) : Prop := ∀ x y : ℕ → ℝ, (∀ i < d, x i = y i) → f x = f y

end Container
end SecDec
