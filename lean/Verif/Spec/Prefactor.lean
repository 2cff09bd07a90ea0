import Verif.Model.Prefactor
/-
What it means that a nested C++ series is the expansion of a function.
-/
namespace SecDec
namespace Prefactor
open Cxx

/-- All powers are at most the requested orders. -/
def Within (e orders : List ℤ) : Prop := List.Forall₂ (· ≤ ·) e orders

/-- `s` is the expansion, to `orders`, of the function with the (iterated) Laurent coefficients `c`, in the regulators `names`; a coefficient is represented by the number `num`.
A series that is truncated has all orders up to the requested one; a series that is not truncated contains everything. -/
def IsExpansion {A V : Type} [Zero A] (num : A → V) : (n : ℕ) → List String → List ℤ → (List ℤ → A) → CSeries V n → Prop
  | 0, _, _, c, s => s = num (c [])
  | n + 1, names, orders, c, (s : Series (CSeries V n)) =>
    s.param = names.headD "" ∧
    (∀ p < s.orderMin, ∀ e, Within e orders.tail → c (p :: e) = 0) ∧
    (s.truncated = true ∧ s.orderMax = orders.headD 0 ∨
      s.truncated = false ∧ s.orderMax ≤ orders.headD 0 ∧ ∀ p > s.orderMax, ∀ e, Within e orders.tail → c (p :: e) = 0) ∧
    ∀ p, s.orderMin ≤ p → p ≤ s.orderMax →
      ∃ t, s.at' p = some t ∧ IsExpansion num n names.tail orders.tail (fun e => c (p :: e)) t

/-- The coefficient of a monomial in a list of terms. -/
def coef {A : Type} [AddCommMonoid A] (l : Terms A) (e : List ℤ) : A := ((l.filter fun t => decide (t.1 = e)).map Prod.snd).sum

/-- The list of terms is what is left, after the expansion to `orders`, of the function with the Laurent coefficients `F`. -/
structure IsTruncation {A : Type} [AddCommMonoid A] (F : List ℤ → A) (orders : List ℤ) (l : Terms A) : Prop where
  /-- no other terms -/
  within : ∀ t ∈ l, Within t.1 orders
  /-- the right coefficients -/
  value : ∀ e, Within e orders → coef l e = F e

/-- The generator gives the terms, in increasing order, of the series with the coefficients `a`. -/
structure Generates {E : Type} (zero : E) (a : ℤ → E) (g : Generator E) : Prop where
  below : ∀ p < g.order, a p = zero
  first : a g.order = g.coeff
  /-- after the term of power `p`, the `k`-th further term -/
  step : ∀ (k : ℕ) (p : ℤ), (if k = 0 then p = g.order else ∃ c, g.next (k - 1) = some (p, c)) →
    match g.next k with
    | none => ∀ q > p, a q = zero
    | some (t, c) => p < t ∧ (∀ q, p < q → q < t → a q = zero) ∧ a t = c

/-- The iterated coefficients: `a i e p` is the coefficient of `e` at the power `p` of variable `i`. -/
def iter {E : Type} (a : ℕ → E → ℤ → E) : ℕ → E → List ℤ → E
  | _, e, [] => e
  | i, e, p :: ps => iter a (i + 1) (a i e p) ps

end Prefactor
end SecDec
