import Verif.Model.Series
/-
Model of the expansion of the prefactor and of the C++ series generated from it: pySecDec/expansion.py (`expand_sympy`,
`sympy_to_nested_Polynomial`, `expand_ginac`) and pySecDec/code_writer/make_package.py (`_make_prefactor_function`).

The series expansion itself is done by sympy or by GiNaC (program `ginsh`); these are oracles. An exception is `none`.
-/
namespace SecDec
namespace Prefactor
open Cxx

/-- A nested `Polynomial` in the last `n` regulators, `expansion.py:371-380`, `:440`: the attribute `truncated` and the rows: the entry of `expolist` in the
column of the regulator of this level (the others are zero) with the coefficient, which is again a `Polynomial`, or an expression at the last level. -/
def Nested (E : Type) : ℕ → Type
  | 0 => E
  | n + 1 => Bool × List (ℤ × Nested E n)

/-! ### `expand_ginac` -/

/-- The expression `expr` of `sympy_to_nested_Polynomial` in the form in which `sp.poly` presents it (`expansion.py:429`): the powers of the regulators with their coefficients. -/
abbrev Terms (A : Type) := List (List ℤ × A)

section Ginac
variable {A : Type} [AddCommMonoid A]

/-- `co.get(p, sp_zero)` for the first regulator, `expansion.py:430-433`, `:438`. -/
def slice (p : ℤ) (l : Terms A) : Terms A := (l.filter fun t => decide (t.1.head? = some p)).map fun t => (t.1.tail, t.2)

/-- `co.keys()`, `expansion.py:430-433`; the terms of a zero `sp.poly` are a single one of power zero. -/
def keys (l : Terms A) : List ℤ := if l.isEmpty then [0] else l.map fun t => t.1.headD 0

/-- `min` (`expansion.py:436`, `make_package.py:645`) of a list that is not empty. -/
def minOf : List ℤ → ℤ
  | [] => 0
  | a :: l => l.foldl min a

/-- `max` (`make_package.py:646`) of a list that is not empty. -/
def maxOf : List ℤ → ℤ
  | [] => 0
  | a :: l => l.foldl max a

/-- The local function `rec` of `sympy_to_nested_Polynomial`, `expansion.py:428-440`. `Polynomial` fails for an empty `expolist` (its shape is not two-dimensional).
There is no attribute `truncated`; its reader uses the default `True` (`make_package.py:652`, `:660`). -/
def toNested : (n : ℕ) → List ℤ → Terms A → Option (Nested A n)
  | 0, _, l => some ((l.map Prod.snd).sum : A)
  | _ + 1, [], _ => none
  | n + 1, o :: os, l => do
    let rows ← (Series.ints (minOf (keys l)) o).mapM fun p => do
      let c ← toNested n os (slice p l)
      some (p, c)
    if rows.isEmpty then none else some (true, rows)

end Ginac

/-! ### `expand_sympy` -/

section Sympy
variable {E : Type}

/-- What the loop uses of the generator `sp.series(expression, variable, n=None)`, `expansion.py:325-336`, `:353-363`: power and coefficient
of the first term and of the further ones (`none`: `StopIteration`). Power and coefficient of a term are found by sympy (`lowest_order`, `current_term_order`, `.expand()`). -/
structure Generator (E : Type) where
  order : ℤ
  coeff : E
  next : ℕ → Option (ℤ × E)

/-- The `while` loop `expansion.py:346-367`. `fuel` is the number of orders that can still be appended, `k` the number of further terms taken from the generator. -/
def loop (zero : E) (next : ℕ → Option (ℤ × E)) (order : ℤ) : ℕ → ℕ → ℤ → E → List E → List E × Bool × ℤ
  | 0, _, current, _, coeffs => (coeffs, true, current)
  | fuel + 1, k, current, term, coeffs =>
    if current ≤ order then
      match next k with
      | none => (coeffs ++ [term], false, current + 1)
      | some (t, c) =>
        let z := (min t (order + 1) - (current + 1)).toNat
        loop zero next order fuel (k + 1) (current + 1 + z) c (coeffs ++ [term] ++ List.replicate z zero)
    else (coeffs, true, current)

/-- The local function `recursion` of `expand_sympy`, `expansion.py:320-382`: `gen i e` is the generator of the series of `e` in variable `i` (`none`: sympy raises). -/
def expandSympy (zero : E) (gen : ℕ → E → Option (Generator E)) : (n : ℕ) → ℕ → List ℤ → E → Option (Nested E n)
  | 0, _, _, e => some e
  | _ + 1, _, [], _ => none
  | n + 1, i, o :: os, e => do
    let g ← gen i e
    if o - g.order < 0 then none
    else
      let r := loop zero g.next o (o + 1 - g.order).toNat 0 g.order g.coeff []
      let rows ← ((Series.ints g.order (r.2.2 - 1)).zip r.1).mapM fun t => do
        let c ← expandSympy zero gen n (i + 1) os t.2
        some (t.1, c)
      some (r.2.1, rows)

end Sympy

/-! ### `_make_prefactor_function` -/

/-- The braced initializer written by the local function `recursion` (`make_package.py:649-662`): lower and upper order, the contents, the flag and the name of the regulator. -/
def Init (V : Type) : ℕ → Type
  | 0 => V
  | n + 1 => ℤ × ℤ × List (Init V n) × Bool × String

/-- The local function `recursion`, `make_package.py:643-662`. `num` is the number written for a coefficient (`evalf(20)`, `ccode`). -/
def emit {E V : Type} (num : E → V) : (n : ℕ) → List String → Nested E n → Init V n
  | 0, _, c => num c
  | n + 1, names, s =>
    let orders := s.2.map Prod.fst
    (minOf orders, maxOf orders, s.2.map (fun t => emit num n names.tail t.2), s.1, names.headD "")

/-- The type `prefactor_type`, `make_package.py:2162`. -/
def CSeries (V : Type) : ℕ → Type
  | 0 => V
  | n + 1 => Series (CSeries V n)

/-- The value of the initializer in C++: the constructor of `Series` (series.hpp:583-600) for every level. -/
def construct {V : Type} : (n : ℕ) → Init V n → Option (CSeries V n)
  | 0, c => some c
  | n + 1, (lo, hi, content, truncated, name) => do
    let c ← content.mapM (construct n)
    Series.make lo hi c truncated name

/-- `parameter_definitions`, `make_package.py:664-671`: the name, whether it is a complex parameter, and the position. -/
def definitions (reals complexes : List String) : List (String × Bool × ℕ) :=
  reals.zipIdx.map (fun p => (p.1, false, p.2)) ++ complexes.zipIdx.map (fun p => (p.1, true, p.2))

/-- The value of a name in the returned expression (`make_package.py:673`): the last `#define` of that name, the element of the vector of parameters (`at` throws if it is too short). -/
def lookup {V : Type} (reals complexes : List String) (realValues complexValues : List V) (name : String) : Option V :=
  match (definitions reals complexes).reverse.find? (fun d => decide (d.1 = name)) with
  | none => none
  | some (_, false, i) => realValues[i]?
  | some (_, true, i) => complexValues[i]?

end Prefactor
end SecDec
