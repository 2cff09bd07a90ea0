import Verif.Model.Exparse
import Mathlib.Data.Complex.Basic
/-
The texts which `ginsh` prints for expanded expressions, and their meaning.
-/
namespace SecDec
namespace Exparse

/-- The base of a factor: a number with the given decimal digits, a substituted name, or a regulator. -/
inductive Base where
  | lit (ds : List (Fin 10))
  | param (k : ℕ)
  | reg (i : ℕ)

/-- `base` or `base^e`, where `e` is a sign and decimal digits. -/
structure Factor where
  base : Base
  power : Option (Bool × List (Fin 10))

/-- Factors separated by `*` (`false`) or `/` (`true`). -/
structure Term where
  first : Factor
  rest : List (Bool × Factor)

/-- The first term with an optional sign, and further terms with the sign `+` (`false`) or `-` (`true`). -/
structure Expression where
  sign : Option Bool
  head : Term
  tail : List (Bool × Term)

/-! ### Text -/

def digitChar (d : Fin 10) : Char := Char.ofNat (48 + d)

def Base.render (T : Tables) : Base → List Char
  | .lit ds => ds.map digitChar
  | .param k => (T.subst.map (·.1)).getD k []
  | .reg i => T.symbols.getD i []

def Factor.render (T : Tables) (f : Factor) : List Char :=
  f.base.render T ++ match f.power with
    | none => []
    | some (neg, ds) => '^' :: ((if neg then ['-'] else []) ++ ds.map digitChar)

def opChar (b : Bool) : Char := if b then '/' else '*'
def signChar (b : Bool) : Char := if b then '-' else '+'

def Term.render (T : Tables) (t : Term) : List Char :=
  t.first.render T ++ t.rest.flatMap (fun f => opChar f.1 :: f.2.render T)

def Expression.render (T : Tables) (e : Expression) : List Char :=
  (match e.sign with | none => [] | some b => [signChar b]) ++ e.head.render T ++
    e.tail.flatMap (fun t => signChar t.1 :: t.2.render T)

/-! ### Meaning -/

/-- The complex number. -/
noncomputable def Q2.val (a : Q2) : ℂ := ⟨a.re, a.im⟩

/-- The number with the given digits. -/
def natOf (ds : List (Fin 10)) : ℕ := ds.foldl (fun acc d => 10 * acc + d) 0

def intOf (p : Bool × List (Fin 10)) : ℤ := if p.1 then -(natOf p.2 : ℤ) else natOf p.2

noncomputable def Base.value (T : Tables) (x : ℕ → ℂ) : Base → ℂ
  | .lit ds => natOf ds
  | .param k => Q2.val ((T.subst.map (fun s => s.2)).getD k ⟨0, 0⟩)
  | .reg i => x i

noncomputable def Factor.value (T : Tables) (x : ℕ → ℂ) (f : Factor) : ℂ :=
  match f.power with
  | none => f.base.value T x
  | some p => f.base.value T x ^ intOf p

/-- Products and quotients are formed from left to right. -/
noncomputable def Term.value (T : Tables) (x : ℕ → ℂ) (t : Term) : ℂ :=
  t.rest.foldl (fun acc f => if f.1 then acc / f.2.value T x else acc * f.2.value T x) (t.first.value T x)

/-- The value of the expression if the regulators have the values `x`. -/
noncomputable def Expression.value (T : Tables) (x : ℕ → ℂ) (e : Expression) : ℂ :=
  (if e.sign = some true then -(e.head.value T x) else e.head.value T x) +
    (e.tail.map (fun t => if t.1 then -(t.2.value T x) else t.2.value T x)).sum

mutual
/-- The value of a nested Laurent series: the outermost level is the regulator `k`. -/
noncomputable def Nested.eval (x : ℕ → ℂ) : ℕ → Nested → ℂ
  | _, .num c => c.val
  | k, .series lo content => Nested.evalList x k lo content

/-- `c_0 x^lo + c_1 x^(lo+1) + ...` where `x` is the regulator `k`. -/
noncomputable def Nested.evalList (x : ℕ → ℂ) : ℕ → ℤ → List Nested → ℂ
  | _, _, [] => 0
  | k, lo, c :: cs => Nested.eval x (k + 1) c * x k ^ lo + Nested.evalList x k (lo + 1) cs
end

/-! ### Conditions -/

/-- Names are not empty, contain no operator, and are not numbers; substituted names are distinct, regulators are distinct, and no
name is both. -/
structure Tables.Ok (T : Tables) : Prop where
  subst : ∀ s ∈ T.subst, s.1 ≠ [] ∧ ∀ c ∈ s.1, c ∉ ['+', '-', '*', '/', '^']
  symbols : ∀ s ∈ T.symbols, s ≠ [] ∧ ∀ c ∈ s, c ∉ ['+', '-', '*', '/', '^']
  notNumber : ∀ ds : List (Fin 10), ds.map digitChar ∉ T.subst.map (·.1) ∧ ds.map digitChar ∉ T.symbols
  substNodup : (T.subst.map (·.1)).Nodup
  symbolsNodup : T.symbols.Nodup
  disjoint : ∀ s ∈ T.symbols, s ∉ T.subst.map (·.1)

def Base.Ok (T : Tables) : Base → Prop
  | .lit ds => ds ≠ []
  | .param k => k < T.subst.length
  | .reg i => i < T.symbols.length

def Factor.Ok (T : Tables) (f : Factor) : Prop := f.base.Ok T ∧ ∀ p, f.power = some p → p.2 ≠ []

def Term.Ok (T : Tables) (t : Term) : Prop := t.first.Ok T ∧ ∀ f ∈ t.rest, f.2.Ok T

def Expression.Ok (T : Tables) (e : Expression) : Prop := e.head.Ok T ∧ ∀ t ∈ e.tail, t.2.Ok T

/-- The factor is not a power of a regulator. -/
def Factor.Numeric (f : Factor) : Prop := ∀ i, f.base ≠ .reg i

/-- No minus sign directly in front of a regulator (or of a zeroth power), and no regulator after `/`. -/
def Expression.Plain (e : Expression) : Prop :=
  let signed (s : Bool) (t : Term) : Prop :=
    (s = true → t.first.Numeric ∧ ∀ p, t.first.power = some p → intOf p ≠ 0) ∧ ∀ f ∈ t.rest, f.1 = true → f.2.Numeric
  signed (e.sign = some true) e.head ∧ ∀ t ∈ e.tail, signed t.1 t.2

/-- No number in the expression is zero. -/
def Expression.NonZero (T : Tables) (e : Expression) : Prop :=
  let nz (f : Factor) : Prop := f.Numeric → f.base.value T (fun _ => 1) ≠ 0
  let nzt (t : Term) : Prop := nz t.first ∧ ∀ f ∈ t.rest, nz f.2
  nzt e.head ∧ ∀ t ∈ e.tail, nzt t.2

end Exparse
end SecDec
