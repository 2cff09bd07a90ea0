import Mathlib.Algebra.MvPolynomial.Eval
import Mathlib.RingTheory.LaurentSeries
/-
Model of the coefficients of an amplitude: the class `Coefficient` and the preparation of the sums in
pySecDec/code_writer/sum_package.py, and the expansion of a coefficient in the generated C++ library
(pySecDec/code_writer/templates/sum_package/src/name_weighted_integral.cpp and
pySecDecContrib/util/secdecutil/coefficient_parser.hpp).
-/
namespace SecDec
namespace Coeff

/-! ### The text of a coefficient -/

/-- The arguments `numerators` and `denominators` (`sum_package.py:41`): a string, or an iterable of strings. -/
inductive Arg where
  | text (s : List Char)
  | list (l : List (List Char))

/-- `"*".join(f"({f})" for f in l)` (`sum_package.py:45,47`). -/
def joinFactors : List (List Char) → List Char
  | [] => []
  | [f] => '(' :: (f ++ [')'])
  | f :: g :: l => '(' :: (f ++ (')' :: '*' :: joinFactors (g :: l)))

/-- `... or default` for a string: an empty string is replaced. -/
def orText (s d : List Char) : List Char := if s = [] then d else s

/-- The numerator (`sum_package.py:44-45`). -/
def numText : Arg → List Char
  | .text s => s
  | .list l => orText (joinFactors l) ['1']

/-- The denominator (`sum_package.py:46-47`). -/
def denText : Arg → List Char
  | .text s => s
  | .list l => joinFactors l

/-- `self.expression` (`sum_package.py:48`). -/
def expression (n d : Arg) : List Char :=
  if denText d = [] then numText n
  else '(' :: (numText n ++ (')' :: '/' :: '(' :: (denText d ++ [')'])))

/-- A character matched by `[a-zA-Z_]` (`sum_package.py:126`). -/
def isStart (c : Char) : Bool := ('a' ≤ c && c ≤ 'z') || ('A' ≤ c && c ≤ 'Z') || c == '_'

/-- A character matched by `[a-zA-Z_0-9]` (`sum_package.py:126`). -/
def isWord (c : Char) : Bool := isStart c || ('0' ≤ c && c ≤ '9')

/-- `expression.replace("**", "^")` (`sum_package.py:125`): from left to right, without overlap. -/
def caret : List Char → List Char
  | '*' :: '*' :: l => '^' :: caret l
  | c :: l => c :: caret l
  | [] => []

/-- `re.findall("[a-zA-Z_][a-zA-Z_0-9]*", s)` (`sum_package.py:126`): the leftmost longest matches. -/
def findNames : List Char → List (List Char)
  | [] => []
  | c :: l =>
    if isStart c then (c :: l.takeWhile isWord) :: findNames (l.dropWhile isWord)
    else findNames l
  termination_by l => l.length
  decreasing_by
  · simpa using Nat.lt_succ_of_le (List.dropWhile_sublist isWord).length_le
  · simp

/-- `ginsh_constant_names` (`sum_package.py:19-21`). -/
def constantNames : List (List Char) :=
  ["Pi".toList, "Euler".toList, "Catalan".toList, "FAIL".toList, "I".toList, "Digits".toList]

/-- `Coefficient.from_string` (`sum_package.py:123-127`): the text and the names of the parameters.  (The order of the set after `sorted`
does not matter for what follows; the list is left in the order of the first appearance of a name.) -/
def fromString (s : List Char) (exclude : List (List Char)) : List Char × List (List Char) :=
  (caret s, ((findNames (caret s)).filter fun w => !(exclude.contains w || constantNames.contains w)).dedup)

/-! ### The leading orders -/

section Leading
variable {K : Type*} [Field K] {v n : ℕ}
open Polynomial

/-- What `ginsh` knows of a coefficient: a rational function of the regulators and the parameters.  (Only rational functions are modelled;
`ginsh` and its command `series` are an oracle which answers as defined below.) -/
structure Rational (K : Type*) [Field K] (v : ℕ) where
  num : MvPolynomial (Fin v) K
  den : MvPolynomial (Fin v) K

/-- The substitution of random numbers for all symbols but `x` (`sum_package.py:75-76`, `88-94`). -/
noncomputable def restrict (r : Fin v → K) (x : Fin v) (P : MvPolynomial (Fin v) K) : K[X] :=
  MvPolynomial.aeval (fun j => if j = x then X else C (r j)) P

/-- The Laurent series of a quotient. -/
noncomputable def laurent (N D : K[X]) : LaurentSeries K :=
  ((N : PowerSeries K) : LaurentSeries K) / ((D : PowerSeries K) : LaurentSeries K)

/-- `is(series_to_poly(series(f, x, n)) == 0)` (`sum_package.py:95-97`): the terms below `x^n` vanish. -/
def seriesZero (f : LaurentSeries K) (n : ℤ) : Prop := ∀ k < n, f.coeff k = 0

open Classical in
/-- `ldegree(series_to_poly(series(f, x, n)), x)` (`sum_package.py:99`); the lowest degree of the polynomial zero is zero. -/
noncomputable def ldegree (f : LaurentSeries K) (n : ℤ) : ℤ := if seriesZero f n then 0 else f.order

/-- The condition at `sum_package.py:111`. -/
def retry (f : Fin n → LaurentSeries K) (maxorder : ℤ) (orders : Fin n → ℤ) (i : Fin n) : Prop :=
  seriesZero (f i) (orders i + 1) ∧ orders i ≤ maxorder

open Classical in
/-- The body of the loop for regulator `i` (`sum_package.py:110-113`). -/
noncomputable def advance (f : Fin n → LaurentSeries K) (maxorder : ℤ) (orders : Fin n → ℤ) : Fin n → ℤ :=
  fun i => if retry f maxorder orders i then orders i + 1 else orders i

theorem advance_lt (f : Fin n → LaurentSeries K) (maxorder : ℤ) (orders : Fin n → ℤ) (h : ∃ i, retry f maxorder orders i) :
    (∑ i, (maxorder + 1 - advance f maxorder orders i).toNat) < ∑ i, (maxorder + 1 - orders i).toNat := by
  obtain ⟨i, hi⟩ := h
  refine Finset.sum_lt_sum (fun j _ => ?_) ⟨i, Finset.mem_univ i, ?_⟩
  · unfold advance; split <;> omega
  · unfold advance; rw [if_pos hi]; have := hi.2; omega

open Classical in
/-- The loop `while True` after the test for zero (`sum_package.py:77-115`). -/
noncomputable def loop (f : Fin n → LaurentSeries K) (maxorder : ℤ) (orders : Fin n → ℤ) : Fin n → ℤ :=
  if h : ∃ i, retry f maxorder orders i then loop f maxorder (advance f maxorder orders)
  else fun i => ldegree (f i) (orders i + 1)
termination_by ∑ i, (maxorder + 1 - orders i).toNat
decreasing_by exact advance_lt f maxorder orders h

open Classical in
/-- `Coefficient.leading_orders` (`sum_package.py:51-115`), with the random numbers `r`; `none` if `ginsh` divides by zero. -/
noncomputable def leadingOrders (e : Rational K v) (reg : Fin n → Fin v) (r : Fin v → K) (maxorder : ℤ) : Option (Fin n → ℤ) :=
  if MvPolynomial.eval r e.den = 0 then none
  else if MvPolynomial.eval r e.num = 0 then some fun _ => maxorder
  else some (loop (fun i => laurent (restrict r (reg i) e.num) (restrict r (reg i) e.den)) maxorder fun _ => 0)

end Leading

/-! ### The expansion in the C++ library -/

/-- `compute_required_orders` for one regulator (`name_weighted_integral.cpp:31-47`). -/
def requiredOrder (requested lowestCoefficient lowest lowestPrefactor : ℤ) : ℤ :=
  let order := requested + 1 - lowestCoefficient - lowest - lowestPrefactor
  if order > 0 then order else 1

/-- `series_to_poly(series(EXPR, x, required_orders + 1))` in every regulator (`coefficient_parser.hpp:185-195`): the powers which are kept. -/
def kept {n : ℕ} (required : Fin n → ℤ) (a : Fin n → ℤ) : Prop := ∀ i, a i < required i + 1

open Classical in
/-- The part of an expansion which is kept (`coefficient_parser.hpp:185-195`). -/
noncomputable def truncate {K : Type*} [Field K] {n : ℕ} (required : Fin n → ℤ) (c : (Fin n → ℤ) →₀ K) : (Fin n → ℤ) →₀ K :=
  c.filter (kept required)

/-- The lines of the text of a file (`std::getline` at `coefficient_parser.hpp:179`). -/
def linesOf : List Char → List (List Char)
  | [] => []
  | c :: l => (c :: l).takeWhile (· ≠ '\n') :: linesOf (((c :: l).dropWhile (· ≠ '\n')).drop 1)
  termination_by l => l.length
  decreasing_by
  · have := (List.dropWhile_sublist (l := c :: l) (fun x => decide (x ≠ '\n'))).length_le
    rw [List.length_drop]
    simp only [List.length_cons] at this ⊢
    omega

/-- The value of the symbol `EXPR` after the statements written for the lines of the file of a coefficient (`coefficient_parser.hpp:174-184`):
each line is assigned to the same symbol.  (Blanks at the ends of a line are removed by the program and are left here; a file without lines
leaves `EXPR` undefined.) -/
def assigned (file : List Char) : Option (List Char) := ((linesOf file).map caret).getLast?

/-! ### The sums -/

/-- A coefficient as given by the user (`sum_package.py:288-296`): `None`, a `Coefficient`, or something else, as text. -/
inductive Given where
  | none
  | coefficient (c : List Char)
  | other (s : List Char)

/-- The coefficients of one sum (`sum_package.py:277-284`): a list, or a dict. -/
inductive GivenSum where
  | list (l : List Given)
  | dict (d : List (ℤ × Given))

/-- The checks of the indices (`sum_package.py:278-284`, `302-308`). -/
def GivenSum.ok (gens : ℕ) : GivenSum → Prop
  | .list l => l.length = gens
  | .dict d => ∀ t ∈ d, 0 ≤ t.1 ∧ t.1 < gens

/-- `c != 0 and c != "0"` (`sum_package.py:294`, `318`; a `Coefficient` is never equal to zero). -/
def Given.keep : Given → Bool
  | .none => true
  | .coefficient _ => true
  | .other s => s ≠ ['0']

/-- The text of the coefficient (`sum_package.py:289-292`); `coefficient_1` is `Coefficient((), (), ())`. -/
def Given.expr : Given → List Char
  | .none => expression (.list []) (.list [])
  | .coefficient c => c
  | .other s => caret s

/-- The pairs of index and coefficient (`sum_package.py:293`). -/
def GivenSum.pairs : GivenSum → List (ℤ × Given)
  | .list l => l.zipIdx.map fun t => ((t.2 : ℤ), t.1)
  | .dict d => d

/-- One entry of `sums` (`sum_package.py:287-295`). -/
def prepare (s : GivenSum) : List (ℤ × List Char) :=
  (s.pairs.filter fun t => t.2.keep).map fun t => (t.1, t.2.expr)

end Coeff
end SecDec
