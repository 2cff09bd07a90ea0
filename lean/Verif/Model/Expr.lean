import Verif.Model.Poly
/-
Model of the expression classes of pySecDec/algebra.py:
`Polynomial` with nested coefficients, `ExponentiatedPolynomial`, `LogOfPolynomial`, `Sum`,
`Product`, `ProductRule` (with the cache of derivatives resolved, see `Model/ProductRule.lean` for
the cache), `Pow`, `Log`, `Exp`.
-/
namespace SecDec

/-- Expression trees over `n` variables with plain coefficients in `F`.
`num c` is a plain coefficient or exponent (a Python number or sympy expression, *not* an
`_Expression`); all other constructors are the subclasses of `_Expression`
(`algebra.py:15`, `:333`, `:790`, `:963`, `:1062`, `:1178`, `:1299`, `:1530`, `:1647`, `:1715`).
`prule` stores for every term of a `ProductRule` its integer coefficient and its factors; the shared
cache `self.expressions` is resolved. -/
inductive Expr (n : Nat) (F : Type) where
  | num (c : F)
  | poly (ts : List (Expo n × Expr n F))
  | epoly (ts : List (Expo n × Expr n F)) (e : Expr n F)
  | lpoly (ts : List (Expo n × Expr n F))
  | sum (l : List (Expr n F))
  | prod (l : List (Expr n F))
  | prule (terms : List (Int × List (Expr n F)))
  | pow (b e : Expr n F)
  | log (a : Expr n F)
  | exp (a : Expr n F)

namespace Expr
variable {n : Nat} {F : Type} [CommRing F] [DecidableEq F]

/-- The list of terms of a polynomial with nested coefficients. -/
abbrev Terms (n : Nat) (F : Type) := List (Expo n × Expr n F)

/-- `Polynomial(np.zeros([1,n]), np.array([c]))`, a constant polynomial. -/
def const (c : F) : Expr n F := .poly [((fun _ => 0), .num c)]

/-- Not an `_Expression` (`isinstance(..., _Expression)` is false). -/
def isNum : Expr n F → Bool
  | .num _ => true
  | _ => false

/-- The test `coeff == 0`: true only for a plain zero (an `_Expression` never equals 0). -/
def isNumZero : Expr n F → Bool
  | .num c => decide (c = 0)
  | _ => false

/-- The test `coeff == 1`. -/
def isNumOne : Expr n F → Bool
  | .num c => decide (c = 1)
  | _ => false

/-- `(self.coeffs == 0).all()`. -/
def allCoeffsZero (ts : Terms n F) : Bool := ts.all (fun t => t.2.isNumZero)
/-- `(self.coeffs == 1).all()`. -/
def allCoeffsOne (ts : Terms n F) : Bool := ts.all (fun t => t.2.isNumOne)
/-- `(self.expolist == 0).all()`. -/
def allExposZero (ts : Terms n F) : Bool := ts.all (fun t => decide (t.1 = fun _ => 0))

/-- State of the merge loop of `Polynomial.simplify`. -/
structure MState (n : Nat) (F : Type) where
  coeffs : List (Expr n F)
  dist : Nat

/-- One iteration of the merge loop `algebra.py:676-686` for nested coefficients; `add` is the
Python `+` of coefficients. -/
def mstep (add : Expr n F → Expr n F → Expr n F) (expos : List (Expo n)) (s : MState n F) (i : Nat) :
    MState n F :=
  if (s.coeffs.getD i (.num 0)).isNumZero then { s with dist := s.dist + 1 }
  else if expos.getD (i - s.dist) (fun _ => 0) = expos.getD i (fun _ => 0) then
    let c1 := s.coeffs.set i (add (s.coeffs.getD i (.num 0)) (s.coeffs.getD (i - s.dist) (.num 0)))
    { coeffs := c1.set (i - s.dist) (.num 0), dist := 1 }
  else { s with dist := 1 }

/-- `algebra.py:674-696`: merge loop, removal of zero terms, at least one term; input sorted. -/
def mergeSorted (add : Expr n F → Expr n F → Expr n F) (ts : Terms n F) : Terms n F :=
  let expos := ts.map (·.1)
  let cs := ((List.range' 1 (ts.length - 1)).foldl (mstep add expos)
    { coeffs := ts.map (·.2), dist := 1 }).coeffs
  let nz := (expos.zip cs).filter (fun t => !t.2.isNumZero)
  if nz.length = 0 then [((fun _ => 0), .num 0)] else nz

/-- `algebra.py:660-664`: sort the terms by their rows. -/
def sortTerms (ts : Terms n F) : Terms n F :=
  takeIdx ts (argsort2D (ts.map (fun t => List.ofFn t.1)))

/-- Convert a plain number to a constant `Polynomial` (`algebra.py:28-29`, `:44-45`). -/
def wrap : Expr n F → Expr n F
  | .num c => const c
  | e => e

/-- Python `a + b` for coefficients: numbers add; `Polynomial`s and numbers use
`Polynomial._sub_or_add` (`algebra.py:577-598`, concatenate and `simplify(deep=False)`); everything
else is `Sum(a, b)` (`algebra.py:27-31`).  `add` is the addition used for the coefficients of
polynomials. -/
def caddWith (add : Expr n F → Expr n F → Expr n F) (a b : Expr n F) : Expr n F :=
  match a, b with
  | .num c, .num d => .num (c + d)
  | .poly ts, .poly us => .poly (mergeSorted add (sortTerms (ts ++ us)))
  | .poly ts, .num c => .poly (mergeSorted add (sortTerms (((fun _ => 0), .num c) :: ts)))
  | .num c, .poly ts => .poly (mergeSorted add (sortTerms (((fun _ => 0), .num c) :: ts)))
  | a, b => .sum [wrap a, wrap b]

/-- Addition of coefficients without descending into nested polynomials: numbers add, everything else
is `Sum(a, b)`. -/
def caddBase (a b : Expr n F) : Expr n F :=
  match a, b with
  | .num c, .num d => .num (c + d)
  | a, b => .sum [wrap a, wrap b]

/-- Python `a + b` for coefficients, see `caddWith`.
`fuel` bounds the nesting depth of polynomials inside coefficients; when it is exhausted the model
falls back to `Sum(a, b)`, which has the same value. -/
def cadd : Nat → Expr n F → Expr n F → Expr n F
  | 0, a, b => caddWith caddBase a b
  | fuel + 1, a, b => caddWith (cadd fuel) a b

/-- Python `a * k` for a coefficient `a` and a plain number `k`: `Polynomial.__mul__` with a number
(`algebra.py:610-616`) or `Product(a, k)` (`algebra.py:43-47`).
`fuel` as in `cadd`, fallback `Product(a, k)`. -/
def cmul : Nat → Expr n F → F → Expr n F
  | _, .num c, k => .num (c * k)
  | 0, a, k => .prod [a, const k]
  | fuel + 1, a, k => match a with
    | .poly ts =>
      if k = 1 then .poly ts
      else if k = 0 then const 0
      else .poly (ts.map (fun t => (t.1, cmul fuel t.2 k)))
    | a => .prod [a, const k]

/-- One pass of `Sum.simplify` over already simplified summands (`algebra.py:1129-1141`): returns the
new summands, whether something changed and the last zero found. -/
def sumPass : List (Expr n F) → Option (Expr n F) → List (Expr n F) × Bool × Option (Expr n F)
  | [], zero => ([], false, zero)
  | s :: rest, zero =>
    match s with
    | .sum l =>
      let r := sumPass rest zero
      (l ++ r.1, true, r.2.2)
    | .poly ts | .epoly ts _ | .lpoly ts =>
      if allCoeffsZero ts then
        let r := sumPass rest (some s)
        (r.1, true, r.2.2)
      else
        let r := sumPass rest zero
        (s :: r.1, r.2.1, r.2.2)
    | s =>
      let r := sumPass rest zero
      (s :: r.1, r.2.1, r.2.2)

/-- Result of one pass of `Product.simplify`. -/
structure ProdPass (n : Nat) (F : Type) where
  factors : List (Expr n F)
  changed : Bool
  one : Option (Expr n F)

/-- One pass of `Product.simplify` over already simplified factors (`algebra.py:1250-1266`); `acc` is
the list `self.factors` built so far.  A zero factor makes `self.factors = [factor]` and breaks. -/
def prodPass : List (Expr n F) → ProdPass n F → ProdPass n F
  | [], st => st
  | f :: rest, st =>
    match f with
    | .prod l => prodPass rest { st with factors := st.factors ++ l, changed := true }
    | .poly ts =>
      if allExposZero ts && allCoeffsOne ts then
        prodPass rest { st with changed := true, one := some f }
      else if allCoeffsZero ts then
        { st with factors := [f] }
      else prodPass rest { st with factors := st.factors ++ [f] }
    | f => prodPass rest { st with factors := st.factors ++ [f] }

/-- Final part of `Sum.simplify` (`algebra.py:1142-1149`); `none`: Python would raise because `zero`
is unbound. -/
def sumFinish (l : List (Expr n F)) (zero : Option (Expr n F)) : Option (Expr n F) :=
  match l with
  | [s] => some s
  | [] => zero
  | l => some (.sum l)

/-- Final part of `Product.simplify` (`algebra.py:1267-1274`). -/
def prodFinish (l : List (Expr n F)) (one : Option (Expr n F)) : Option (Expr n F) :=
  match l with
  | [s] => some s
  | [] => one
  | l => some (.prod l)

/-- `type(expression) is Polynomial and (expression.coeffs == 0).all()` (`algebra.py:1472`, `:1491`). -/
def isZeroPoly : Expr n F → Bool
  | .poly ts => allCoeffsZero ts
  | _ => false

/-- `self.exponent` after `algebra.py:924-927` (exponent already simplified if it is an
`_Expression`): a constant polynomial is replaced by its first coefficient. -/
def unwrapExponent : Expr n F → Expr n F
  | .poly (t :: ts) => if allExposZero (t :: ts) then t.2 else .poly (t :: ts)
  | e => e

/-- `algebra.py:671-672`: a simplified coefficient that is a constant one-term polynomial is replaced
by its coefficient. -/
def unwrapCoeff : Expr n F → Expr n F
  | .poly [t] => if t.1 = (fun _ => 0) then t.2 else .poly [t]
  | e => e

/-- The test `len(coeffs) == 1 and coeffs[0] == 1 and (expolist == 0).all()`. -/
def isOneTerms : Terms n F → Bool
  | [t] => t.2.isNumOne && decide (t.1 = fun _ => 0)
  | _ => false

/-- The test `len(coeffs) == 1 and coeffs[0] == 0 and (expolist == 0).all()`. -/
def isZeroTerms : Terms n F → Bool
  | [t] => t.2.isNumZero && decide (t.1 = fun _ => 0)
  | _ => false

mutual
/-- The method `simplify` of all classes:
`Polynomial` `algebra.py:648-698` (deep), `ExponentiatedPolynomial` `:915-941`,
`LogOfPolynomial` `:1050-1060`, `Sum` `:1111-1149`, `Product` `:1232-1274`, `ProductRule`
`:1451-1507` (without the merging of equal derivative multiindices, which needs the cache and is
modelled in `Model/ProductRule.lean`; here terms containing a zero polynomial are dropped), `Pow`
`:1574-1603`, `Log` `:1678-1690`, `Exp` `:1746-1758`.
Simplification: returns the new object instead of mutating; the flag `self.simplified`, which only
avoids repeating work, is omitted.  `fuel` bounds the recursion depth (Python: unbounded); `none` means
out of fuel. -/
def simplify : Nat → Expr n F → Option (Expr n F)
  | 0, _ => none
  | fuel + 1, e => match e with
    | .num c => some (.num c)
    | .poly ts => do
      let ts' ← simplifyTerms fuel ts
      some (.poly ts')
    | .epoly ts e => do
      let e1 ← (if e.isNum then some e else (simplify fuel e).map unwrapExponent : Option (Expr n F))
      if e1.isNumZero then some (const 1)
      else if e1.isNumOne then some (.poly ts)
      else do
        let ts' ← simplifyTerms fuel ts
        if isOneTerms ts' then some (.poly ts') else some (.epoly ts' e1)
    | .lpoly ts => do
      let ts' ← simplifyTerms fuel ts
      if isOneTerms ts' then some (const 0) else some (.lpoly ts')
    | .sum l => sumLoop fuel l none
    | .prod l => prodLoop fuel l none
    | .prule terms =>
      let nz := terms.filter (fun t => !decide (t.1 = 0) && !(t.2.any isZeroPoly))
      if nz.length = 0 then some (const 0) else some (.prule nz)
    | .pow b e => do
      let b' ← simplify fuel b
      match b' with
      | .poly ts => simplify fuel (.epoly ts e)
      | b' => do
        let e' ← simplify fuel e
        match e' with
        | .poly us =>
          if allCoeffsZero us then some (const 1)
          else if isOneTerms us then some b'
          else some (.pow b' (.poly us))
        | e' => some (.pow b' e')
    | .log a => do
      let a' ← simplify fuel a
      match a' with
      | .poly ts => if isOneTerms ts then some (const 0) else some (.log (.poly ts))
      | a' => some (.log a')
    | .exp a => do
      let a' ← simplify fuel a
      match a' with
      | .poly ts => if isZeroTerms ts then some (const 1) else some (.exp (.poly ts))
      | a' => some (.exp a')

/-- `Polynomial.simplify(deep=True)`, `algebra.py:660-696`. -/
def simplifyTerms : Nat → Terms n F → Option (Terms n F)
  | 0, _ => none
  | fuel + 1, ts => do
    let ts1 := sortTerms ts
    let ts2 ← ts1.mapM (fun t =>
      if t.2.isNum then some t else (simplify fuel t.2).map (fun s => (t.1, unwrapCoeff s)))
    some (mergeSorted (cadd fuel) ts2)

/-- The `while changed` loop of `Sum.simplify`, `algebra.py:1124-1149`. -/
def sumLoop : Nat → List (Expr n F) → Option (Expr n F) → Option (Expr n F)
  | 0, _, _ => none
  | fuel + 1, l, zero => do
    let l' ← l.mapM (simplify fuel)
    let r := sumPass l' zero
    if r.2.1 then sumLoop fuel r.1 r.2.2 else sumFinish r.1 r.2.2

/-- The `while changed` loop of `Product.simplify`, `algebra.py:1245-1274`. -/
def prodLoop : Nat → List (Expr n F) → Option (Expr n F) → Option (Expr n F)
  | 0, _, _ => none
  | fuel + 1, l, one => do
    let l' ← l.mapM (simplify fuel)
    let r := prodPass l' ⟨[], false, one⟩
    if r.changed then prodLoop fuel r.factors r.one else prodFinish r.factors r.one
end

/-- Multiplication without descending into polynomials: numbers multiply, everything else becomes a
`Product`. -/
def mulBase (a b : Expr n F) : Expr n F :=
  match a, b with
  | .num c, .num d => .num (c * d)
  | a, b => .prod [wrap a, wrap b]

/-- Python `a * b` for two expressions or coefficients, `algebra.py:600-616` and `:43-47`; numbers
times polynomials are scaled, polynomials are multiplied out (concatenating `other.expolist + e` and
`other.coeffs * c` over the terms of `self`, then `simplify(deep=False)`), everything else
becomes a `Product`.  `fuel` as in `cadd`. -/
def mulExpr : Nat → Expr n F → Expr n F → Expr n F
  | 0, a, b => mulBase a b
  | fuel + 1, a, b => match a, b with
    | .num c, .num d => .num (c * d)
    | .num c, b => cmul fuel b c
    | a, .num c => cmul fuel a c
    | .poly ts, .poly us => .poly (mergeSorted (cadd fuel) (sortTerms
        (ts.flatMap (fun s => us.map (fun t => (t.1 + s.1, mulExpr fuel t.2 s.2))))))
    | a, b => .prod [a, b]

/-- `self.exponent - 1` for a plain or expression exponent (`algebra.py:887`, `:1626`). -/
def subOne (fuel : Nat) (e : Expr n F) : Expr n F :=
  match e with
  | .num c => .num (c - 1)
  | e => cadd fuel e (.num (-1))

/-- `Polynomial.derive` (`algebra.py:511-558`) for nested coefficients; `dc` is the list of
derivatives of the coefficients (`none` for plain numbers). -/
def deriveTerms (fuel : Nat) (ts : Terms n F) (dc : List (Option (Expr n F))) (i : Fin n) : Terms n F :=
  let s1 := (ts.filter (fun t => decide (t.1 i ≠ 0))).map
    (fun t => (Function.update t.1 i (t.1 i - 1), cmul fuel t.2 ((t.1 i : Int) : F)))
  let hasS2 := dc.any Option.isSome
  let s2 := (ts.zip dc).map (fun p => (p.1.1, p.2.getD (.num 0)))
  if hasS2 then
    if s1.length = 0 then s2 else mergeSorted (cadd fuel) (sortTerms (s1 ++ s2))
  else
    if s1.length = 0 then [((fun _ => 0), .num 0)] else s1

/-- The method `derive(index)` of all classes: `Polynomial` `algebra.py:511-558`,
`ExponentiatedPolynomial` `:856-908`, `LogOfPolynomial` `:1023-1048`, `Sum` `:1159-1169`,
`Product` `:1280-1290` (via `ProductRule`), `ProductRule` `:1399-1443` (with the derivative of each
factor computed directly instead of via the cache; terms with a vanishing factor get coefficient 0),
`Pow` `:1605-1639`, `Log` `:1696-1709`, `Exp` `:1764-1773`.
`none` means out of fuel. -/
def derive : Nat → Expr n F → Fin n → Option (Expr n F)
  | 0, _, _ => none
  | fuel + 1, e, i => match e with
    | .num _ => some (const 0)
    | .poly ts => do
      let dc ← ts.mapM (fun t => if t.2.isNum then some none else (derive fuel t.2 i).map some)
      some (.poly (deriveTerms fuel ts dc i))
    | .epoly ts e => do
      let s0 ← (if e.isNum then some none else
        (derive fuel e i).map (fun de => some (.prod [.epoly ts e, de, .lpoly ts])) :
        Option (Option (Expr n F)))
      let dp ← derive fuel (.poly ts) i
      let s1 := match dp with
        | .poly us =>
          if allCoeffsZero us then none
          else
            let factor1 := mulExpr fuel e dp
            let newExp := subOne fuel e
            if newExp.isNumZero then some factor1
            else some (.prod [.epoly ts newExp, factor1])
        | _ => none
      match s0, s1 with
      | none, none => some (const 0)
      | none, some s1 => some s1
      | some s0, none => some s0
      | some s0, some s1 => some (.sum [s0, s1])
    | .lpoly ts => do
      let dp ← derive fuel (.poly ts) i
      match dp with
      | .poly us =>
        if allCoeffsZero us then some (const 0)
        else some (.prod [.epoly ts (.num (-1)), dp])
      | _ => none
    | .sum l => do
      let l' ← l.mapM (fun e => derive fuel e i)
      some (.sum l')
    | .prod l => do
      let l' ← l.mapM (simplify fuel)
      derive fuel (.prule [(1, l')]) i
    | .prule terms => do
      let dterms ← terms.mapM (fun t => t.2.mapM (fun f => do
        let d ← derive fuel f i
        simplify fuel d))
      let m := (terms.headD (0, [])).2.length
      let new := (List.range m).flatMap (fun j => (terms.zip dterms).map (fun p =>
        let factors := p.1.2.set j (p.2.getD j (.num 0))
        (if factors.any isZeroPoly then 0 else p.1.1, factors)))
      some (.prule new)
    | .pow b e => do
      let de ← derive fuel e i
      let db ← derive fuel b i
      some (.sum [.prod [.pow b e, de, .log b],
                  .prod [.pow b (subOne fuel e), mulExpr fuel e db]])
    | .log a => do
      let da ← derive fuel a i
      some (.prod [.pow a (const (-1)), da])
    | .exp a => do
      let da ← derive fuel a i
      some (.prod [.exp a, da])

/-- The coefficient and row part of `Polynomial.replace` (`algebra.py:701-755`, `remove=False`) for
`value != 0`, given the substituted coefficients; `vpow k` is Python's `value**k`. -/
def replaceRows (fuel : Nat) (v : F) (vpow : Int → F) (i : Fin n) (ts : Terms n F)
    (cs : List (Expr n F)) : Terms n F :=
  (ts.zip cs).map (fun p => (Function.update p.1.1 i 0,
    if v = 1 then p.2 else cmul fuel p.2 (vpow (p.1.1 i))))

/-- `Polynomial.replace` for `value == 0` (`algebra.py:703-706`): terms containing the variable get
coefficient zero, the other coefficients are kept *without* substituting in them. -/
def replaceRowsZero (i : Fin n) (ts : Terms n F) : Terms n F :=
  ts.map (fun t => (Function.update t.1 i 0, if t.1 i = 0 then t.2 else .num 0))

/-- The method `replace(index, value, remove=False)` of all classes: `Polynomial`,
`ExponentiatedPolynomial`, `LogOfPolynomial` `algebra.py:701-755`, `Sum` `:1172-1176`, `Product`
`:1293-1297`, `ProductRule` `:1521-1528` (which becomes a `Sum` of `Product(...) * coeff`), `Pow`
`:1642-1645`, `Log` `:1712-1713`, `Exp` `:1776-1777`.  `v` is the (numeric) value, `vpow k` is
`v**k`.  Plain numbers are kept.  `none` means out of fuel. -/
def replace (v : F) (vpow : Int → F) (i : Fin n) : Nat → Expr n F → Option (Expr n F)
  | 0, _ => none
  | fuel + 1, e => match e with
    | .num c => some (.num c)
    | .poly ts =>
      if v = 0 then some (.poly (replaceRowsZero i ts))
      else do
        let cs ← ts.mapM (fun t => replace v vpow i fuel t.2)
        some (.poly (replaceRows fuel v vpow i ts cs))
    | .epoly ts e => do
      let e' ← replace v vpow i fuel e
      if v = 0 then some (.epoly (replaceRowsZero i ts) e')
      else do
        let cs ← ts.mapM (fun t => replace v vpow i fuel t.2)
        some (.epoly (replaceRows fuel v vpow i ts cs) e')
    | .lpoly ts =>
      if v = 0 then some (.lpoly (replaceRowsZero i ts))
      else do
        let cs ← ts.mapM (fun t => replace v vpow i fuel t.2)
        some (.lpoly (replaceRows fuel v vpow i ts cs))
    | .sum l => do
      let l' ← l.mapM (replace v vpow i fuel)
      some (.sum l')
    | .prod l => do
      let l' ← l.mapM (replace v vpow i fuel)
      some (.prod l')
    | .prule terms => do
      let ts' ← terms.mapM (fun t => t.2.mapM (replace v vpow i fuel))
      some (.sum ((terms.zip ts').map (fun p => .prod [.prod p.2, const ((p.1.1 : Int) : F)])))
    | .pow b e => do
      let b' ← replace v vpow i fuel b
      let e' ← replace v vpow i fuel e
      some (.pow b' e')
    | .log a => do
      let a' ← replace v vpow i fuel a
      some (.log a')
    | .exp a => do
      let a' ← replace v vpow i fuel a
      some (.exp a')

end Expr
end SecDec
