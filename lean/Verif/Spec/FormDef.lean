import Verif.Model.FormDef
import Verif.Spec.Expr
/-
Meaning of a sequence of FORM definitions.
-/
namespace SecDec
namespace FormDef
variable {n : Nat} {F : Type} [CommRing F]

/-- The value of a right-hand side, if the values of the names are given by `env` (an empty right-hand side is zero in
FORM). -/
noncomputable def Rhs.value (φ : F →+* ℂ) (x : Fin n → ℂ) (env : Name → ℂ) : Rhs n F → ℂ
  | .whole e => Expr.eval φ x e
  | .sumOf names => (names.map env).sum
  | .prodOf names => if names = [] then 0 else (names.map env).prod
  | .times name e => env name * ∏ i, x i ^ e i

/-- FORM applies the substitutions one after the other. Hence the value of a name after all substitutions is found from
the last line to the first: each line defines the value of its name in terms of the later ones. `env` are the values of
the names which are not substituted. -/
noncomputable def substituted (φ : F →+* ℂ) (x : Fin n → ℂ) (env : Name → ℂ) : List (Line n F) → Name → ℂ
  | [] => env
  | l :: ls => Function.update (substituted φ x env ls) l.name (l.rhs.value φ x (substituted φ x env ls))

/-- The names on a right-hand side which have to be substituted. -/
def Rhs.uses : Rhs n F → List Name
  | .whole _ => []
  | .sumOf names => names
  | .prodOf names => names
  | .times name _ => [name]

/-- Nothing remains to be substituted: every name on a right-hand side is defined in a later line. -/
def Resolved : List (Line n F) → Prop
  | [] => True
  | l :: ls => (∀ m ∈ l.rhs.uses, m ∈ ls.map Line.name) ∧ Resolved ls

/-- `splittable e`: the type of the expression is one of those which can be split. -/
def Splittable : Expr n F → Prop
  | .poly _ => True
  | .sum _ => True
  | .prod _ => True
  | .prule _ => True
  | _ => False

end FormDef
end SecDec

namespace SecDec
namespace FormDef
variable {n : Nat} {F : Type} [CommRing F]

/-- The terms of the polynomials which have a plain number as coefficient are printed within the limit, and plain numbers
occur only as coefficients of polynomials (or inside of expressions which are not split). -/
inductive Printable (len : Expr n F → Nat) (limit : Nat) : Expr n F → Prop
  | poly (ts : List (Expo n × Expr n F)) :
      (∀ t ∈ ts, ∀ c, t.2 = .num c → len (.poly [t]) ≤ limit) →
      (∀ t ∈ ts, (∀ c, t.2 ≠ .num c) → Printable len limit t.2) → Printable len limit (.poly ts)
  | sum (l : List (Expr n F)) : (∀ e ∈ l, Printable len limit e) → Printable len limit (.sum l)
  | prod (l : List (Expr n F)) : (∀ e ∈ l, Printable len limit e) → Printable len limit (.prod l)
  | prule (terms : List (Int × List (Expr n F))) :
      (∀ t ∈ terms, len (.poly [((fun _ => 0), .num (t.1 : F))]) ≤ limit) →
      (∀ t ∈ terms, ∀ e ∈ t.2, Printable len limit e) → Printable len limit (.prule terms)
  | epoly (ts : List (Expo n × Expr n F)) (e : Expr n F) : Printable len limit (.epoly ts e)
  | lpoly (ts : List (Expo n × Expr n F)) : Printable len limit (.lpoly ts)
  | pow (b e : Expr n F) : Printable len limit (.pow b e)
  | log (a : Expr n F) : Printable len limit (.log a)
  | exp (a : Expr n F) : Printable len limit (.exp a)

end FormDef
end SecDec
