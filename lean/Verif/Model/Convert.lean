import Mathlib.Data.Complex.Basic
/-
Model of `Expression` (pySecDec/algebra.py:1779-1853): the conversion of sympy expressions to the data types of pySecDec.
-/
namespace SecDec
namespace Convert

/-- Sympy expressions, as far as `Expression` looks at them (`algebra.py:1811-1850`): numbers, symbols, `Add`, `Mul`, `Pow`, `log`, `exp`, functions, and everything else
(e.g. an unevaluated derivative or integral). -/
inductive SExpr (Sym : Type) where
  | num (c : ℚ)
  | sym (s : Sym)
  | add (args : List (SExpr Sym))
  | mul (args : List (SExpr Sym))
  | pow (base exponent : SExpr Sym)
  | log (arg : SExpr Sym)
  | exp (arg : SExpr Sym)
  | func (name : String) (args : List (SExpr Sym))
  | other (name : String) (args : List (SExpr Sym))

/-- The data types of pySecDec that `Expression` returns (`algebra.py:1813-1848`); the coefficients of polynomials are sympy expressions. -/
inductive Conv (n : ℕ) (Sym : Type) where
  | poly (terms : List ((Fin n → ℤ) × SExpr Sym))
  | epoly (terms : List ((Fin n → ℤ) × SExpr Sym)) (exponent : Conv n Sym)
  | lpoly (terms : List ((Fin n → ℤ) × SExpr Sym))
  | sum (summands : List (Conv n Sym))
  | prod (factors : List (Conv n Sym))
  | pow (base exponent : Conv n Sym)
  | log (arg : Conv n Sym)
  | exp (arg : Conv n Sym)
  | func (symbol : String) (args : List (Conv n Sym))

/-- `sympy_function_calls` and `functions`, `algebra.py:1808-1809`. -/
structure Seen (n : ℕ) (Sym : Type) where
  calls : List (SExpr Sym)
  functions : List (Conv n Sym)

section
variable {n : ℕ} {Sym : Type} (fromExpr : SExpr Sym → Option (List ((Fin n → ℤ) × SExpr Sym)))

/-- `Polynomial.from_expression` refuses an empty list of symbols, `algebra.py:442-443`; `fromExpr` is the rest of the method. -/
def parse (e : SExpr Sym) : Option (List ((Fin n → ℤ) × SExpr Sym)) := if n = 0 then none else fromExpr e

/-- The constructors of `Product`, `Sum` and `Function` refuse an empty list (`algebra.py:1208`, `:1091`, `:169`). -/
def nonempty (c : List (Conv n Sym)) (k : List (Conv n Sym) → Conv n Sym) : Option (Conv n Sym) := if c.isEmpty then none else some (k c)

open Classical in
/-- `algebra.py:1845-1847`: with `follow_functions`, every call is noted once. -/
noncomputable def follow (e : SExpr Sym) (f : Conv n Sym) (st : Seen n Sym) : Seen n Sym :=
  if e ∈ st.calls then st else { calls := st.calls ++ [e], functions := st.functions ++ [f] }

mutual
/-- `recursive_call`, `algebra.py:1811-1850`. `none` is the `ValueError`. The state is that with `follow_functions=True`; otherwise it is ignored. -/
noncomputable def convert (e : SExpr Sym) (st : Seen n Sym) : Option (Conv n Sym × Seen n Sym) :=
  match parse fromExpr e with
  | some ts => some (.poly ts, st)                                                     -- `:1813`
  | none =>
    match e with
    | .mul args => (convertList args st).bind fun r => (nonempty r.1 .prod).map fun c => (c, r.2)        -- `:1816-1817`
    | .pow b x => (convert x st).bind fun rx =>                                        -- `:1819-1826`
        match parse fromExpr b with
        | some ts => some (.epoly ts rx.1, rx.2)
        | none => (convert b rx.2).map fun rb => (.pow rb.1 rx.1, rb.2)
    | .add args => (convertList args st).bind fun r => (nonempty r.1 .sum).map fun c => (c, r.2)         -- `:1828-1829`
    | .log a =>                                                                        -- `:1831-1837`
        match parse fromExpr a with
        | some ts => some (.lpoly ts, st)
        | none => (convert a st).map fun r => (.log r.1, r.2)
    | .exp a => (convert a st).map fun r => (.exp r.1, r.2)                            -- `:1839-1841`
    | .func name args => (convertList args st).bind fun r =>                           -- `:1843-1848`
        (nonempty r.1 (.func name)).map fun c => (c, follow (.func name args) c r.2)
    | .num _ | .sym _ | .other _ _ => none                                             -- `:1850`

/-- The arguments from left to right (`algebra.py:1817`, `:1829`, `:1844`). -/
noncomputable def convertList (l : List (SExpr Sym)) (st : Seen n Sym) : Option (List (Conv n Sym) × Seen n Sym) :=
  match l with
  | [] => some ([], st)
  | e :: l => (convert e st).bind fun r => (convertList l r.2).map fun rs => (r.1 :: rs.1, rs.2)
end

/-- `Expression(expression, polysymbols, follow_functions=True)`, `algebra.py:1852-1853`. -/
noncomputable def expression (e : SExpr Sym) : Option (Conv n Sym × List (Conv n Sym)) :=
  (convert fromExpr e { calls := [], functions := [] }).map fun r => (r.1, r.2.functions)

end
end Convert
end SecDec
