import Verif.Model.Convert
import Mathlib.Analysis.SpecialFunctions.Pow.Complex
/-
What sympy expressions and the data types of pySecDec mean, and what `sp.poly` guarantees.
-/
namespace SecDec
namespace Convert
variable {n : ℕ} {Sym : Type}

/-- Values of the symbols, of the functions, and of everything else. -/
structure Env (Sym : Type) where
  sym : Sym → ℂ
  func : String → List ℂ → ℂ
  other : String → List ℂ → ℂ

/-- The values with those of the symbols `gens` replaced by `x`. -/
noncomputable def Env.at (env : Env Sym) (gens : Fin n → Sym) (x : Fin n → ℂ) : Env Sym := { env with sym := Function.extend gens x env.sym }

mutual
/-- The value of a sympy expression. -/
noncomputable def SExpr.eval (env : Env Sym) : SExpr Sym → ℂ
  | .num c => (c : ℂ)
  | .sym s => env.sym s
  | .add args => (SExpr.evalList env args).sum
  | .mul args => (SExpr.evalList env args).prod
  | .pow b e => (SExpr.eval env b) ^ (SExpr.eval env e)
  | .log a => Complex.log (SExpr.eval env a)
  | .exp a => Complex.exp (SExpr.eval env a)
  | .func f args => env.func f (SExpr.evalList env args)
  | .other f args => env.other f (SExpr.evalList env args)
/-- The values of the arguments. -/
noncomputable def SExpr.evalList (env : Env Sym) : List (SExpr Sym) → List ℂ
  | [] => []
  | e :: l => SExpr.eval env e :: SExpr.evalList env l
end

/-- The value of a polynomial in `x` whose coefficients are sympy expressions. -/
noncomputable def polyValue (env : Env Sym) (x : Fin n → ℂ) (ts : List ((Fin n → ℤ) × SExpr Sym)) : ℂ :=
  (ts.map fun t => t.2.eval env * ∏ i, x i ^ t.1 i).sum

mutual
/-- The value of an object of pySecDec as a function of its variables `x`; `env` gives the values of the symbols in the coefficients. -/
noncomputable def Conv.eval (env : Env Sym) (x : Fin n → ℂ) : Conv n Sym → ℂ
  | .poly ts => polyValue env x ts
  | .epoly ts e => polyValue env x ts ^ Conv.eval env x e
  | .lpoly ts => Complex.log (polyValue env x ts)
  | .sum l => (Conv.evalList env x l).sum
  | .prod l => (Conv.evalList env x l).prod
  | .pow b e => (Conv.eval env x b) ^ (Conv.eval env x e)
  | .log a => Complex.log (Conv.eval env x a)
  | .exp a => Complex.exp (Conv.eval env x a)
  | .func f args => env.func f (Conv.evalList env x args)
/-- The values of the operands. -/
noncomputable def Conv.evalList (env : Env Sym) (x : Fin n → ℂ) : List (Conv n Sym) → List ℂ
  | [] => []
  | e :: l => Conv.eval env x e :: Conv.evalList env x l
end

/-- What `sp.poly` guarantees: as a function of the symbols `gens`, the polynomial has the value of the expression (where no symbol vanishes). In particular the coefficients, which are
evaluated with arbitrary values of the symbols, do not depend on `gens`. -/
def Faithful (gens : Fin n → Sym) (fromExpr : SExpr Sym → Option (List ((Fin n → ℤ) × SExpr Sym))) : Prop :=
  ∀ e ts, fromExpr e = some ts → ∀ (env : Env Sym) (x : Fin n → ℂ), (∀ i, x i ≠ 0) → polyValue env x ts = e.eval (env.at gens x)

/-- Numbers and symbols are polynomials. -/
def AcceptsLeaves (fromExpr : SExpr Sym → Option (List ((Fin n → ℤ) × SExpr Sym))) : Prop :=
  (∀ c, fromExpr (.num c) ≠ none) ∧ ∀ s, fromExpr (.sym s) ≠ none

mutual
/-- Built from numbers, symbols, sums, products, powers, logarithms, exponentials and functions; no empty sums, products or argument lists. -/
def SExpr.Plain : SExpr Sym → Prop
  | .num _ => True
  | .sym _ => True
  | .add args => args ≠ [] ∧ SExpr.PlainList args
  | .mul args => args ≠ [] ∧ SExpr.PlainList args
  | .pow b e => b.Plain ∧ e.Plain
  | .log a => a.Plain
  | .exp a => a.Plain
  | .func _ args => args ≠ [] ∧ SExpr.PlainList args
  | .other _ _ => False
/-- All of them. -/
def SExpr.PlainList : List (SExpr Sym) → Prop
  | [] => True
  | e :: l => e.Plain ∧ SExpr.PlainList l
end

mutual
/-- The functions that occur in an object of pySecDec (outside of the coefficients of polynomials). -/
def Conv.functions : Conv n Sym → List (Conv n Sym)
  | .poly _ => []
  | .epoly _ e => e.functions
  | .lpoly _ => []
  | .sum l => Conv.functionsList l
  | .prod l => Conv.functionsList l
  | .pow b e => b.functions ++ e.functions
  | .log a => a.functions
  | .exp a => a.functions
  | .func f args => .func f args :: Conv.functionsList args
/-- Those in a list. -/
def Conv.functionsList : List (Conv n Sym) → List (Conv n Sym)
  | [] => []
  | e :: l => e.functions ++ Conv.functionsList l
end

end Convert
end SecDec
