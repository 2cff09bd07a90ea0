import Mathlib.Algebra.Field.Defs
import Mathlib.Data.List.Dedup
import Mathlib.Data.Int.Basic
/-
Model of `pySecDec/make_regions.py:20-97`: the polynomials handed to `make_regions` are rewritten in the variables of the decomposition.
-/
namespace SecDec
namespace ParseRegions

variable {Sym F : Type} [DecidableEq Sym]

/-- A sympy expression, as it occurs as a coefficient or an exponent.  Simplification: a Laurent polynomial, a sum of numbers times products of
powers of symbols (otherwise `sp.poly` in `algebra.py:453` raises, or does not expand the coefficient). -/
abbrev Coef (Sym F : Type) := List (List (Sym × Int) × F)

/-- A `Polynomial` with its `polysymbols` (`algebra.py:369-422`): the rows of `expolist` with their coefficients. -/
structure NPoly (Sym F : Type) where
  symbols : List Sym
  terms : List (List Int × Coef Sym F)

/-- The powers of the symbols `gens` in a product of powers (`algebra.py:451-455`: the powers of `symbol` minus those of `1/symbol`). -/
def powersOf (gens : List Sym) (m : List (Sym × Int)) : List Int :=
  gens.map (fun g => ((m.filter (fun q => decide (q.1 = g))).map Prod.snd).sum)

/-- The other factors (`algebra.py:456`: `coeffs()`). -/
def others (gens : List Sym) (m : List (Sym × Int)) : List (Sym × Int) := m.filter (fun q => decide (q.1 ∉ gens))

/-- `sp.poly` collects the terms with the same powers (`algebra.py:453`). -/
def collect (e : List Int) (c : List (Sym × Int) × F) : List (List Int × Coef Sym F) → List (List Int × Coef Sym F)
  | [] => [(e, [c])]
  | (e', c') :: rest => if e' = e then (e', c' ++ [c]) :: rest else (e', c') :: collect e c rest

/-- `algebra.py:424-457` `Polynomial.from_expression`.  Simplification: the order of the terms is the order of their first occurrence (sympy
sorts them).  The polynomial zero has one term with the coefficient zero. -/
def fromExpression (c : Coef Sym F) (gens : List Sym) : NPoly Sym F :=
  ⟨gens, match c.foldl (fun acc t => collect (powersOf gens t.1) (others gens t.1, t.2) acc) [] with
    | [] => [(gens.map (fun _ => 0), [])]
    | ts => ts⟩

/-- `make_regions.py:30` `extra_variables` -/
def extraVariables (p : NPoly Sym F) (new : List Sym) : List Sym := new.filter (fun v => decide (v ∉ p.symbols))

/-- `make_regions.py:31` `old_variables` -/
def oldVariables (p : NPoly Sym F) (new : List Sym) : List Sym := p.symbols ++ extraVariables p new

/-- `make_regions.py:32-33` `missing_variables` and `missing_variable_indexes` -/
def missingIndexes (p : NPoly Sym F) (new : List Sym) : List Nat :=
  (p.symbols.filter (fun v => decide (v ∉ new))).map (oldVariables p new).idxOf

/-- `make_regions.py:37` `order` -/
def order (p : NPoly Sym F) (new : List Sym) : List Nat := new.map (oldVariables p new).idxOf

/-- `make_regions.py:45-47` `missing_variable_coeff`, as a list of factors; the row `e` is as long as `poly.polysymbols`. -/
def missingCoeff (p : NPoly Sym F) (new : List Sym) (e : List Int) : List (Sym × Int) :=
  (missingIndexes p new).filterMap (fun m => ((oldVariables p new)[m]?).map (fun v => (v, e.getD m 0)))

/-- `make_regions.py:39-43`: the coefficient as a polynomial in the extra variables. -/
def coeffPoly (p : NPoly Sym F) (new : List Sym) (c : Coef Sym F) : List (List Int × Coef Sym F) :=
  if (extraVariables p new).isEmpty then [([0], c)] else (fromExpression c (extraVariables p new)).terms

/-- `make_regions.py:44-49`: the coefficients are multiplied by `missing_variable_coeff`. -/
def withMissing (add : Bool) (p : NPoly Sym F) (new : List Sym) (e : List Int) (q : List Int × Coef Sym F) : List Int × Coef Sym F :=
  if add then (q.1, q.2.map (fun t => (missingCoeff p new e ++ t.1, t.2))) else q

/-- `make_regions.py:20-57` `_poly_variable_transform(poly, new_variables, add_missing_var_to_coeff)`. -/
def transform (p : NPoly Sym F) (new : List Sym) (add : Bool) : NPoly Sym F :=
  ⟨new, p.terms.flatMap (fun t =>
    ((coeffPoly p new t.2).map (withMissing add p new t.1)).map
      (fun q => ((order p new).map (fun k => (t.1 ++ q.1).getD k 0), q.2)))⟩

/-- What a user may hand to `make_regions` as a polynomial (`make_regions.py:67-96`): an `ExponentiatedPolynomial`, a `Polynomial`, or an
expression that is a power (`poly.is_Pow`), or another expression. -/
inductive Input (Sym F : Type) where
  | exponentiated (p : NPoly Sym F) (exponent : Coef Sym F)
  | polynomial (p : NPoly Sym F)
  | pow (base exponent : Coef Sym F)
  | expression (c : Coef Sym F)

/-- The body of the loop of `make_regions.py:59-97` `_parse_expressions`: the base and the exponent of the `ExponentiatedPolynomial`; the
exponent `_sympy_one` of an input without an exponent is `Polynomial.from_expression(1, ...)`.  Not modelled: the round trips
`sympify_expression(str(coeff))`. -/
def parse [One F] (new : List Sym) : Input Sym F → NPoly Sym F × NPoly Sym F
  | .exponentiated p exponent => (transform p new true, fromExpression exponent new)
  | .polynomial p => (transform p new true, fromExpression [([], 1)] new)
  | .pow base exponent => (fromExpression base new, fromExpression exponent new)
  | .expression c => (fromExpression c new, fromExpression [([], 1)] new)

/-- `make_regions.py:66-97` -/
def parseExpressions [One F] (inputs : List (Input Sym F)) (new : List Sym) : List (NPoly Sym F × NPoly Sym F) := inputs.map (parse new)

end ParseRegions
end SecDec
