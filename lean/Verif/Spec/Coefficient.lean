import Mathlib.Algebra.MvPolynomial.Degrees
/-
What C66 asks of coefficients, independently of the program: what a text means, which words occur in a text, the lowest order of a rational
function in one of its variables.
-/
namespace SecDec
namespace CoeffSpec

/-! ### The meaning of a text -/

inductive Kind where
  | sum
  | prod
  | pow
  | atom

/-- The usual meaning of arithmetic texts: numbers and names (`base`), parentheses, powers with an exponent without sign (`expo`), products and
quotients, read from left to right, and sums and differences, read from left to right. -/
inductive Means {K : Type*} [Field K] (base : List Char → K → Prop) (expo : List Char → ℕ → Prop) : Kind → List Char → K → Prop
  | base {s x} : base s x → Means base expo .atom s x
  | paren {s x} : Means base expo .sum s x → Means base expo .atom ('(' :: (s ++ [')'])) x
  | ofAtom {s x} : Means base expo .atom s x → Means base expo .pow s x
  | pow {s x t k} : Means base expo .atom s x → expo t k → Means base expo .pow (s ++ '^' :: t) (x ^ k)
  | ofPow {s x} : Means base expo .pow s x → Means base expo .prod s x
  | mul {s x t y} : Means base expo .prod s x → Means base expo .pow t y → Means base expo .prod (s ++ '*' :: t) (x * y)
  | div {s x t y} : Means base expo .prod s x → Means base expo .pow t y → Means base expo .prod (s ++ '/' :: t) (x / y)
  | ofProd {s x} : Means base expo .prod s x → Means base expo .sum s x
  | neg {s x} : Means base expo .prod s x → Means base expo .sum ('-' :: s) (-x)
  | add {s x t y} : Means base expo .sum s x → Means base expo .prod t y → Means base expo .sum (s ++ '+' :: t) (x + y)
  | sub {s x t y} : Means base expo .sum s x → Means base expo .prod t y → Means base expo .sum (s ++ '-' :: t) (x - y)

/-- The characters with a meaning of their own. -/
def special : List Char := ['(', ')', '+', '-', '*', '/', '^']

/-- Numbers, names and exponents are texts without special characters, with one meaning each. -/
structure Ok {K : Type*} [Field K] (base : List Char → K → Prop) (expo : List Char → ℕ → Prop) : Prop where
  base_plain : ∀ s x, base s x → s ≠ [] ∧ ∀ c ∈ s, c ∉ special
  expo_plain : ∀ s k, expo s k → s ≠ [] ∧ ∀ c ∈ s, c ∉ special
  base_fun : ∀ s x y, base s x → base s y → x = y
  expo_fun : ∀ s k l, expo s k → expo s l → k = l

/-- The same text with the python notation of powers. -/
def python (s : List Char) : List Char := s.flatMap fun c => if c = '^' then ['*', '*'] else [c]

/-! ### Words -/

/-- `w` is a word of the text: a longest sequence of letters, digits and underscores, without the digits at its beginning. -/
def IsWord (start word : Char → Bool) (text w : List Char) : Prop :=
  ∃ a d b, text = a ++ d ++ w ++ b ∧
    (∀ c ∈ d, word c ∧ ¬ start c) ∧ (∃ c l, w = c :: l ∧ start c) ∧ (∀ c ∈ w, word c) ∧
    (∀ c, a.getLast? = some c → ¬ word c) ∧ (∀ c, b.head? = some c → ¬ word c)

/-- A letter of the alphabet or an underscore, by its code. -/
def letter (c : Char) : Bool := (97 ≤ c.toNat && c.toNat ≤ 122) || (65 ≤ c.toNat && c.toNat ≤ 90) || c.toNat == 95

/-- A letter, an underscore or a digit. -/
def letterOrDigit (c : Char) : Bool := letter c || (48 ≤ c.toNat && c.toNat ≤ 57)

/-! ### Orders -/

variable {K : Type*} [Field K] {v : ℕ}

/-- The lowest power of a variable in a polynomial. -/
noncomputable def lowest (x : Fin v) (P : MvPolynomial (Fin v) K) : ℕ := sInf {k | ∃ m, P.coeff m ≠ 0 ∧ m x = k}

/-- The coefficient of `x^k` in a polynomial, as a polynomial in the other variables. -/
noncomputable def coefficientOf (x : Fin v) (k : ℕ) (P : MvPolynomial (Fin v) K) : MvPolynomial (Fin v) K :=
  ∑ m ∈ P.support with m x = k, MvPolynomial.monomial (m.erase x) (P.coeff m)

/-- The random numbers `r` do not happen to be a zero of the numerator, of the denominator, or of the coefficient of their lowest
power of one of the regulators. -/
def Generic {n : ℕ} (reg : Fin n → Fin v) (N D : MvPolynomial (Fin v) K) (r : Fin v → K) : Prop :=
  MvPolynomial.eval r N ≠ 0 ∧ MvPolynomial.eval r D ≠ 0 ∧
    ∀ i, MvPolynomial.eval r (coefficientOf (reg i) (lowest (reg i) N) N) ≠ 0 ∧
      MvPolynomial.eval r (coefficientOf (reg i) (lowest (reg i) D) D) ≠ 0

/-- The coefficient of the power `m` of the regulators in the product of two expansions. -/
noncomputable def productAt {n : ℕ} (c I : (Fin n → ℤ) →₀ K) (m : Fin n → ℤ) : K := c.sum fun a x => x * I (m - a)

end CoeffSpec
end SecDec
