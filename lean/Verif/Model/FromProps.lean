import Mathlib.Algebra.Group.Invertible.Defs
import Mathlib.Algebra.BigOperators.Fin
import Mathlib.Data.Fin.SuccPred
import Verif.Model.Poly
/-
Model of `pySecDec/loop_integral/from_propagators.py`: the polynomials U and F of a list of propagators; and of
`det`, `parallel_det`, `adjugate` of `pySecDec/misc.py`.
-/
namespace SecDec
namespace FromProps

variable {P D : Nat} {R K : Type}

section det
variable [CommRing R] [DecidableEq R]

/-- `misc.py:186`, `:224`: `M[[[k] for k in range(1,D)],sub_indices(i)]`, the first row and the column `i` are removed. -/
def minor {T : Type} (M : Fin (D+1+1) → Fin (D+1+1) → T) (i : Fin (D+1+1)) : Fin (D+1) → Fin (D+1) → T :=
  fun a b => M a.succ (i.succAbove b)

/-- `misc.py:226-231`: one further term of the sum. -/
def addTerm (result term : Poly P R) (i : Nat) : Poly P R :=
  if i % 2 = 0 then result.add term else result.sub term

/-- `misc.py:196-232` `det`, for a matrix of polynomials.  (There is no determinant of a `0x0` matrix, the variable
`result` is not defined.) -/
def det : (D : Nat) → (Fin (D+1) → Fin (D+1) → Poly P R) → Poly P R
  | 0, M => M 0 0
  | D + 1, M => (List.finRange (D+1)).foldl
      (fun result i => addTerm result ((M 0 i.succ).mul (det D (minor M i.succ))) (i.val + 1))
      ((M 0 0).mul (det D (minor M 0)))

/-- `misc.py:142-194` `parallel_det`; `pool.imap` returns the results in the order of the arguments. -/
def parallelDet : (D : Nat) → (Fin (D+1) → Fin (D+1) → Poly P R) → Poly P R
  | 0, M => M 0 0
  | D + 1, M => (List.finRange (D+1)).foldl
      (fun result i => addTerm result ((M 0 i.succ).mul (det D (minor M i.succ))) (i.val + 1))
      (((M 0 0).mul (det D (minor M 0))).addScalar 0)

/-- `misc.py:234-266` `adjugate`, an entry for at least two rows.  Simplification: the code takes a formula for the
entries from sympy, a sum of products; here the (equal) signed minor. -/
def adjugate (M : Fin (D+1+1) → Fin (D+1+1) → Poly P R) (i j : Fin (D+1+1)) : Poly P R :=
  let m := det D (fun a b => M (j.succAbove a) (i.succAbove b))
  if (j.val + i.val) % 2 = 0 then m else m.neg

/-- `q*adjugate(M)[i,j]`; for one row (`misc.py:246-248`) the entry is the number one. -/
def mulAdjugate : (D : Nat) → (Fin (D+1) → Fin (D+1) → Poly P R) → Poly P R → Fin (D+1) → Fin (D+1) → Poly P R
  | 0, _, q, _, _ => q.mulScalar 1
  | _ + 1, M, q, i, j => q.mul (adjugate M i j)

/-! ### U and F -/

/-- The propagators (`from_propagators.py:145-149`): `quad i a b` is the coefficient of `k_a*k_b` (`a <= b`) in the
propagator `i`, `lin i a` the one of `k_a`, and `cst i` the rest; `k_0,...,k_D` are the loop momenta.  The coefficients
are expressions in the other symbols, in particular the external momenta.
Simplification: the coefficients are those after the substitution of the `replacement_rules` in lines 222 and 228. -/
structure Props (P D : Nat) (R : Type) where
  quad : Fin P → Fin (D+1) → Fin (D+1) → R
  lin : Fin P → Fin (D+1) → R
  cst : Fin P → R

/-- `Polynomial.from_expression(expression, Feynman_parameters)` (`algebra.py:423-457`) for the expression `sum(c_i*x_i)`;
the expression `0` has one row. -/
def linear (c : Fin P → R) : Poly P R :=
  let rows := (List.finRange P).filterMap (fun i => if c i = 0 then none else some (fun k => if k = i then (1 : Int) else 0, c i))
  if rows.isEmpty then Poly.zeroPoly else ⟨rows⟩

variable [Invertible (2 : R)]

/-- `from_propagators.py:200-204`: `tmp.coeffs.astype(int)`.  `num c` is `int(c)`, which truncates numbers and is
`none` (a `TypeError`) for symbolic expressions; then nothing is converted. -/
def asInt (num : R → Option Int) (q : Poly P R) : Poly P R :=
  match q.terms.mapM (fun t => (num t.2).map (fun z : Int => (t.1, (z : R)))) with
  | some l => ⟨l⟩
  | none => q

/-- `from_propagators.py:189-207` the matrix `M` -/
def matM (num : R → Option Int) (p : Props P D R) (a b : Fin (D+1)) : Poly P R :=
  asInt num (linear (fun i => if a = b then p.quad i a b else p.quad i (min a b) (max a b) * ⅟2))

/-- `from_propagators.py:217-223` the vector `Q` -/
def vecQ (p : Props P D R) (a : Fin (D+1)) : Poly P R := linear (fun i => -(p.lin i a * ⅟2))

/-- `from_propagators.py:225-228` `J` -/
def polyJ (p : Props P D R) : Poly P R := linear p.cst

/-- `from_propagators.py:209-211`, `:231`: `preliminary_U` -/
def preliminaryU (num : R → Option Int) (p : Props P D R) : Poly P R := det D (matM num p)

/-- `from_propagators.py:236-239`: the double sum; it starts with the number `0`. -/
def doubleSum (num : R → Option Int) (p : Props P D R) : Poly P R :=
  match (List.finRange (D+1)).flatMap (fun i => (List.finRange (D+1)).map (fun j =>
      (mulAdjugate D (matM num p) (vecQ p i) i j).mul (vecQ p j))) with
  | [] => Poly.zeroPoly
  | t :: ts => ts.foldl Poly.add (t.addScalar 0)

/-- `from_propagators.py:233-244` `preliminary_F`; `rules` applies the replacement rules to a coefficient. -/
def preliminaryF [CommRing K] [DecidableEq K] (num : R → Option Int) (rules : R → K) (p : Props P D R) : Poly P K :=
  Poly.simplify ⟨((doubleSum num p).sub ((preliminaryU num p).mul (polyJ p))).terms.map (fun t => (t.1, rules t.2))⟩

/-- `from_propagators.py:181-182`: `max(poly.expolist.sum(axis=1)) < 2`, the propagator `i` is not quadratic in the loop
momenta. -/
def notQuadratic (p : Props P D R) (i : Fin P) : Bool :=
  (List.finRange (D+1)).all (fun a => (List.finRange (D+1)).all (fun b => decide (a ≤ b → p.quad i a b = 0)))

/-- `from_propagators.py:175-183`: `U_derivatives`, starting with the number of derivatives (`common.py:191`). -/
def uDerivatives (p : Props P D R) (ks : Fin P → Nat) : Int :=
  (∑ i, (ks i : Int)) - ∑ i, (if notQuadratic p i then (ks i : Int) else 0)

end det
end FromProps
end SecDec
