import Verif.Model.Expr
/-
Which expression trees are complete: what the constructors of the classes in `algebra.py` guarantee.
-/
namespace SecDec
namespace Expr
variable {n : Nat} {F : Type}

/-- Every `Sum`, `Product` and `ProductRule` inside the expression has at least one operand. -/
inductive Complete : Expr n F → Prop
  | num (c : F) : Complete (.num c)
  | poly (ts : List (Expo n × Expr n F)) : (∀ t ∈ ts, Complete t.2) → Complete (.poly ts)
  | epoly (ts : List (Expo n × Expr n F)) (e : Expr n F) : (∀ t ∈ ts, Complete t.2) → Complete e → Complete (.epoly ts e)
  | lpoly (ts : List (Expo n × Expr n F)) : (∀ t ∈ ts, Complete t.2) → Complete (.lpoly ts)
  | sum (l : List (Expr n F)) : l ≠ [] → (∀ e ∈ l, Complete e) → Complete (.sum l)
  | prod (l : List (Expr n F)) : l ≠ [] → (∀ e ∈ l, Complete e) → Complete (.prod l)
  | prule (terms : List (Int × List (Expr n F))) : terms ≠ [] → (∀ t ∈ terms, t.2 ≠ []) →
      (∀ t ∈ terms, ∀ e ∈ t.2, Complete e) → Complete (.prule terms)
  | pow (b e : Expr n F) : Complete b → Complete e → Complete (.pow b e)
  | log (a : Expr n F) : Complete a → Complete (.log a)
  | exp (a : Expr n F) : Complete a → Complete (.exp a)

/-- A computation with a bound on the recursion depth terminates with the result `a`: for all sufficiently large bounds it
returns `a`. -/
def Terminates {α : Type*} (f : ℕ → Option α) (a : α) : Prop := ∃ N, ∀ fuel, N ≤ fuel → f fuel = some a

/-- A computation with a bound on the recursion depth which may raise an error stops by itself: for all sufficiently large
bounds it has the same outcome (a result or an exception), and this outcome is not `bad`, which says that the bound was
reached. -/
def Stops {ε α : Type*} (bad : ε) (f : ℕ → Except ε α) (r : Except ε α) : Prop := r ≠ .error bad ∧ ∃ N, ∀ fuel, N ≤ fuel → f fuel = r

end Expr
end SecDec
