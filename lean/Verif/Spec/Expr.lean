import Mathlib.Analysis.SpecialFunctions.Pow.Deriv
import Verif.Spec.Poly
import Verif.Model.Expr
/-
What an expression tree denotes: a complex number for every point, and the set of points where this
is meaningful.
-/
namespace SecDec
namespace Expr
variable {n : Nat} {F : Type} [CommRing F]

private theorem size_snd {α β : Type} [SizeOf α] [SizeOf β] {l : List (α × β)} {t : α × β} (h : t ∈ l) :
    sizeOf t.2 < 1 + sizeOf l := by
  have h1 := List.sizeOf_lt_of_mem h
  have h2 : sizeOf t = 1 + sizeOf t.1 + sizeOf t.2 := by cases t; simp
  omega

private theorem size_mem {α : Type} [SizeOf α] {l : List α} {t : α} (h : t ∈ l) :
    sizeOf t < 1 + sizeOf l := by
  have h1 := List.sizeOf_lt_of_mem h
  omega

/-- The value of an expression at the point `x`; `φ` gives the values of the plain coefficients (e.g.
the evaluation of symbols such as the regulators). -/
noncomputable def eval (φ : F →+* ℂ) (x : Fin n → ℂ) : Expr n F → ℂ
  | .num c => φ c
  | .poly ts => (ts.map (fun t => eval φ x t.2 * Poly.mono x t.1)).sum
  | .epoly ts e => (ts.map (fun t => eval φ x t.2 * Poly.mono x t.1)).sum ^ (eval φ x e)
  | .lpoly ts => Complex.log (ts.map (fun t => eval φ x t.2 * Poly.mono x t.1)).sum
  | .sum l => (l.map (eval φ x)).sum
  | .prod l => (l.map (eval φ x)).prod
  | .prule terms => (terms.map (fun t => (t.1 : ℂ) * (t.2.map (eval φ x)).prod)).sum
  | .pow b e => (eval φ x b) ^ (eval φ x e)
  | .log a => Complex.log (eval φ x a)
  | .exp a => Complex.exp (eval φ x a)
termination_by e => sizeOf e
decreasing_by
  all_goals simp_wf
  all_goals try omega
  · rename_i h; exact size_snd h
  · rename_i h; have := size_snd h; omega
  · rename_i h; exact size_snd h
  · rename_i h; exact size_mem h
  · rename_i h; exact size_mem h
  · rename_i h1 _ h2; have := size_snd h1; have := size_mem h2; omega

/-- The negative powers in the monomial are defined at `x`. -/
def DefinedAt (x : Fin n → ℂ) (m : Expo n) : Prop := ∀ i, x i = 0 → 0 ≤ m i

/-- A term list which is not a disguised constant: if no variable occurs, there is exactly one term. -/
def Good (ts : Terms n F) : Prop := (∀ t ∈ ts, t.1 = fun _ => 0) → ts.length = 1

/-- A term list which is not a disguised integer: if no variable occurs and all coefficients are the
number one, there is exactly one term.  (Weaker than `Good`.) -/
def NotOnes (ts : Terms n F) : Prop :=
  (∀ t ∈ ts, t.1 = (fun _ => 0) ∧ t.2 = .num 1) → ts.length = 1

/-- A plain number or a `Polynomial` with plain numbers as coefficients (e.g. a polynomial in the
regulators). -/
inductive Flat : Expr n F → Prop
  | num (c : F) : Flat (.num c)
  | poly (ts : Terms n F) : (∀ t ∈ ts, ∃ c, t.2 = .num c) → Flat (.poly ts)

/-- Structural side conditions on an expression tree: a condition on the polynomials inside an
`ExponentiatedPolynomial` or `LogOfPolynomial`, on exponents, and on coefficients of polynomials. -/
structure Mode (n : Nat) (F : Type) where
  /-- Condition on the base and the exponent together (a logarithm counts as exponent `-1`). -/
  base : Terms n F → Expr n F → Prop
  /-- What is known about polynomials after `simplify` (not a condition on the input). -/
  clean : Terms n F → Prop
  expo : Expr n F → Prop
  coef : Expr n F → Prop

/-- Bases are `Good`, exponents and coefficients are arbitrary trees. -/
def Mode.strict : Mode n F := ⟨fun ts _ => Good ts, Good, fun _ => True, fun _ => True⟩
/-- Bases are `NotOnes`, exponents are numbers or polynomials, coefficients of polynomials are plain
numbers (as everywhere in pySecDec's own use). -/
def Mode.flat : Mode n F := ⟨fun ts _ => NotOnes ts, NotOnes, Flat, fun e => ∃ c, e = .num c⟩

/-- The value of `e` is not a positive integer (constantly), at points with nonzero coordinates. -/
def NotPosInt (φ : F →+* ℂ) (e : Expr n F) : Prop :=
  ∀ k : ℕ, ∃ x : Fin n → ℂ, (∀ i, x i ≠ 0) ∧ eval φ x e ≠ (k : ℂ) + 1

/-- The value of `e` does not depend on the variable `i`, at points with nonzero coordinates. -/
def IndepOf (φ : F →+* ℂ) (i : Fin n) (e : Expr n F) : Prop :=
  ∀ (x : Fin n → ℂ) (s : ℂ), (∀ k, x k ≠ 0) → s ≠ 0 → eval φ (Function.update x i s) e = eval φ x e

/-- Bases are arbitrary; exponents are numbers or polynomials, but not positive integers, and contain
only the variables `dep` (e.g. the regulators); coefficients of polynomials are plain numbers. -/
def Mode.nonint (φ : F →+* ℂ) (dep : Fin n → Prop) : Mode n F :=
  ⟨fun _ _ => True, NotOnes, fun e => Flat e ∧ NotPosInt φ e ∧ ∀ i, ¬ dep i → IndepOf φ i e,
    fun e => ∃ c, e = .num c⟩

/-- No negative powers of variables in a polynomial. -/
def NonNegPowers (e : Expr n F) : Prop := ∀ ts, e = .poly ts → ∀ t ∈ ts, ∀ i, 0 ≤ t.1 i

/-- The exponent `e` has no negative powers and its value at zero is not a positive integer. -/
def NotPosIntAtZero (φ : F →+* ℂ) (e : Expr n F) : Prop := NonNegPowers e ∧ ∀ k : ℕ, eval φ 0 e ≠ (k : ℂ) + 1

/-- Weaker than `Mode.flat`: bases need not be `NotOnes` where the value of the exponent at zero is not a positive integer. -/
def Mode.free (φ : F →+* ℂ) : Mode n F :=
  ⟨fun ts e => NotOnes ts ∨ NotPosIntAtZero φ e, NotOnes, Flat, fun e => ∃ c, e = .num c⟩

/-- Exponents are numbers or polynomials (without negative powers) of the variables `dep`, whose values at zero are not positive
integers.  Coefficients of polynomials are plain numbers, bases are arbitrary. -/
def Mode.nonint0 (φ : F →+* ℂ) (dep : Fin n → Prop) : Mode n F :=
  ⟨fun _ _ => True, NotOnes, fun e => Flat e ∧ NotPosIntAtZero φ e ∧
    ∀ i, ¬ dep i → ∀ (x : Fin n → ℂ) (s : ℂ), eval φ (Function.update x i s) e = eval φ x e, fun e => ∃ c, e = .num c⟩

/-- The base `b` of an `ExponentiatedPolynomial` with exponent `e` is fine on `U`: it avoids zero and the
negative real axis, or it avoids zero and the exponent is a plain integer. -/
def BaseOK (φ : F →+* ℂ) (U : Set (Fin n → ℂ)) (b e : Expr n F) : Prop :=
  (∀ x ∈ U, eval φ x b ∈ Complex.slitPlane) ∨
  (∃ (c : F) (k : ℤ), e = .num c ∧ φ c = (k : ℂ) ∧ ∀ x ∈ U, eval φ x b ≠ 0)

/-- `Adm M φ U e`: the expression `e` is meaningful on the set of points `U`: negative powers only of
nonzero variables, and all bases of powers and arguments of logarithms avoid zero and the negative
real axis (in particular: positive reals are fine); the base of an `ExponentiatedPolynomial` with a
plain integer exponent only has to avoid zero.
Structural side conditions: the polynomial inside an `ExponentiatedPolynomial` or `LogOfPolynomial`
and all exponents and coefficients satisfy the conditions of `M`, and all terms of a `ProductRule` have equally many
factors (guaranteed by the class). -/
inductive Adm (M : Mode n F) (φ : F →+* ℂ) (U : Set (Fin n → ℂ)) : Expr n F → Prop
  | num (c : F) : Adm M φ U (.num c)
  | poly (ts : Terms n F) : (∀ t ∈ ts, ∀ x ∈ U, DefinedAt x t.1) → (∀ t ∈ ts, Adm M φ U t.2) →
      (∀ t ∈ ts, M.coef t.2) → Adm M φ U (.poly ts)
  | epoly (ts : Terms n F) (e : Expr n F) : Adm M φ U (.poly ts) → Adm M φ U e → M.expo e → M.base ts e →
      BaseOK φ U (.poly ts) e → Adm M φ U (.epoly ts e)
  | lpoly (ts : Terms n F) : Adm M φ U (.poly ts) → M.base ts (.num (-1)) →
      (∀ x ∈ U, eval φ x (.poly ts) ∈ Complex.slitPlane) → Adm M φ U (.lpoly ts)
  | sum (l : List (Expr n F)) : (∀ e ∈ l, Adm M φ U e) → Adm M φ U (.sum l)
  | prod (l : List (Expr n F)) : (∀ e ∈ l, Adm M φ U e) → Adm M φ U (.prod l)
  | prule (terms : List (Int × List (Expr n F))) : (∀ t ∈ terms, ∀ e ∈ t.2, Adm M φ U e) →
      (∀ t ∈ terms, ∀ t' ∈ terms, t.2.length = t'.2.length) → Adm M φ U (.prule terms)
  | pow (b e : Expr n F) : Adm M φ U b → Adm M φ U e → M.expo e →
      (∀ x ∈ U, eval φ x b ∈ Complex.slitPlane) → Adm M φ U (.pow b e)
  | log (a : Expr n F) : Adm M φ U a → (∀ x ∈ U, eval φ x a ∈ Complex.slitPlane) → Adm M φ U (.log a)
  | exp (a : Expr n F) : Adm M φ U a → Adm M φ U (.exp a)

end Expr
end SecDec
