import Verif.Model.Poly
import Mathlib.Algebra.Order.Field.Rat
/-
Model of `loop_integral/leading_order.py`.

A sector has `v` variables: the integration variables (after one Feynman parameter has been eliminated) and then the
`R` regulators; the last `K` symbols of its polynomials are the names (`U` and `F`).  The decomposition into sectors
(`decompose_sectors`, lines 10-34: a dispatch to functions which are modelled in `Model/Decomp.lean`, `Model/Primary.lean` and
`Model/Geometric.lean`) is not repeated here: the sectors are the input.  Exponents are polynomials of the regulators with rational
coefficients (in the code: sympy expressions).
-/
namespace SecDec
namespace LeadingOrder
variable {v K R : ℕ} {F : Type} [Field F] [DecidableEq F]

/-- One entry of `sector.cast` (`leading_order.py:79-85`): the product of a monomial (with coefficient one, `decomposition/common.py:53`)
and of the rest, both to the same exponent. -/
structure Factor (v K R : ℕ) (F : Type) where
  mono : Expo (v + K)
  rest : Poly (v + K) F
  exponent : Poly R ℚ

/-- One pair `prim_sector, sector`: the exponents of the two Jacobians, `sector.cast` and `sector.other`. -/
structure Sector (v K R : ℕ) (F : Type) where
  prim : Expo (v + K)
  jac : Expo (v + K)
  cast : List (Factor v K R F)
  other : List (Poly (v + K) F)

/-- `leading_order.py:60,86` `exponent.subs(reg_eq_0)`. -/
def atZero (p : Poly R ℚ) : ℚ := (p.terms.map fun t => if t.1 = (fun _ => 0) then t.2 else 0).sum

/-- `leading_order.py:78,86-87`: the powers of all symbols, without the numerators. -/
def powers (s : Sector v K R F) (i : Fin (v + K)) : ℚ :=
  (s.prim i + s.jac i : ℤ) + (s.cast.map fun f => (f.mono i : ℚ) * atZero f.exponent).sum

/-- Without the columns of the names (`leading_order.py:89`, `polysymbols[:-n_poly_names]`). -/
def drop (e : Expo (v + K)) : Expo v := fun i => e (Fin.castAdd K i)

/-- `leading_order.py:93-113`: what is inserted for a name: the monomial if `faster`, otherwise the whole polynomial.  (The
monomial and the rest do not contain the names.) -/
def replacement (faster : Bool) (f : Factor v K R F) : Poly v F :=
  if faster then ⟨[(drop f.mono, 1)]⟩ else ⟨f.rest.terms.map fun t => (drop (t.1 + f.mono), t.2)⟩

/-- A power, by repeated multiplication. -/
def power (p : Poly v F) (k : ℕ) : Poly v F := (List.replicate k p).foldl Poly.mul ⟨[((fun _ => 0), 1)]⟩

/-- One term of a numerator with the replacements inserted; `none` for a negative power of a name (then
`Polynomial.from_expression` raises an error). -/
def insertTerm (reps : List (Poly v F)) (t : Expo (v + K) × F) : Option (Poly v F) :=
  if (List.finRange K).all fun k => 0 ≤ t.1 (Fin.natAdd v k) then
    some ((((List.finRange K).zip reps).map fun x => power x.2 (t.1 (Fin.natAdd v x.1)).toNat).foldl Poly.mul ⟨[(drop t.1, t.2)]⟩)
  else none

/-- `leading_order.py:116,123-125`: `sympify(str(poly)).subs(replacements).expand()`, read with `Polynomial.from_expression`.  The
expansion by sympy is replaced by the (exact) multiplication and addition of polynomials, which also collects the terms. -/
def numerator (reps : List (Poly v F)) (p : Poly (v + K) F) : Option (Poly v F) :=
  (p.terms.mapM (insertTerm reps)).map fun l => (l.foldl Poly.add Poly.zeroPoly).simplify

/-- `leading_order.py:114-129`: the exponents of the monomial which is factored out of a numerator. -/
def numeratorPowers (reps : List (Poly v F)) (p : Poly (v + K) F) : Option (Expo v) :=
  (numerator reps p).bind fun q => (q.refactorizeMethod []).bind fun r => (r.1.terms.head?).map Prod.fst

/-- `leading_order.py:131-132`: the number of negative powers among the first `nvars` ones, plus the sum of the others.
(`nvars` is the number of integration variables of the loop integral, before one is eliminated.) -/
def divergences (nvars : ℕ) (e : Fin v → ℚ) : ℚ :=
  (((List.finRange v).filter fun i => i.val < nvars ∧ e i < 0).length : ℚ) + (((List.finRange v).filter fun i => nvars ≤ i.val).map e).sum

/-- `leading_order.py:73-132`: one pass of the loop; `none` is a failed assertion or an error. -/
def sectorDivergences (nvars : ℕ) (faster : Bool) (s : Sector v K R F) : Option ℚ :=
  if ¬ ((List.finRange K).all fun k => powers s (Fin.natAdd v k) = 0) then none
  else if s.cast.length < K then none
  else
    let reps := (s.cast.take K).map (replacement faster)
    (s.other.mapM (numeratorPowers reps)).map fun ms =>
      divergences nvars fun i => powers s (Fin.castAdd K i) + (ms.map fun m => (m i : ℚ)).sum

/-- `leading_order.py:135-137`: `arg.is_integer and int(arg) <= 0`. -/
def gammaPole (arg : Poly R ℚ) : Bool := (atZero arg).den = 1 ∧ atZero arg ≤ 0

/-- `leading_order.py:37-138` `leading_order`. -/
def leadingOrder (nvars : ℕ) (faster : Bool) (gammaArgument : Poly R ℚ) (sectors : List (Sector v K R F)) : Option ℚ :=
  (sectors.mapM (sectorDivergences nvars faster)).map fun ds =>
    (ds.foldl (fun p d => min p (-d)) 0) - (if gammaPole gammaArgument then 1 else 0)

end LeadingOrder
end SecDec
