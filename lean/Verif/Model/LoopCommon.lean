import Mathlib.Data.Rat.Floor
import Mathlib.Algebra.Field.Rat
import Mathlib.Data.Fin.VecNotation
import Verif.Model.Poly
/-
Model of `pySecDec/loop_integral/common.py`: propagator powers, U, F, numerator, exponents.
-/
namespace SecDec
namespace LoopCommon

/-- A propagator power (`common.py:175-181`): its value for vanishing regulators (`power0`) and the part that depends on
the regulators.  Simplification: powers with the same two parts are equal, a power is a number iff the second part is zero. -/
structure Power (R : Type) where
  const : ℚ
  reg : R
deriving DecidableEq

/-- `common.py:182-187`: the entry of `derivativelist`. -/
def derivs (power0 : ℚ) : Nat :=
  if 1 ≤ power0 then 0
  else if power0.isInt then power0.num.natAbs
  else ⌊power0⌋.natAbs + 1

section
variable {R : Type} [AddCommGroup R] [DecidableEq R]

/-- `powerlist[i] + derivativelist[i]` (`common.py:279`, `:299`, `:322`, `:344`). -/
def effPower (p : Power R) : Power R := ⟨p.const + derivs p.const, p.reg⟩

/-- `powerlist[i].is_integer and powerlist[i].is_nonpositive` (`common.py:201`, `:210`, `:359`). -/
def nonposInt (p : Power R) : Bool := decide (p.reg = 0) && (p.const.isInt && decide (p.const ≤ 0))

/-- `newpower == 0` (`common.py:280`), `eff_power.is_integer and eff_power.is_zero` (`:323`). -/
def newPowerZero (p : Power R) : Bool := decide (effPower p = ⟨0, 0⟩)
end

section field
variable {K : Type} [Field K] [DecidableEq K]

/-- `common.py:219-229`: the two additional variables `U`, `F` do not occur. -/
def extend {N : Nat} (p : Poly N K) : Poly (N+2) K := ⟨p.terms.map (fun t => (Fin.append t.1 ![0, 0], t.2))⟩

/-- `Polynomial.from_expression('U', ...)`, `Polynomial.from_expression('F', ...)` (`common.py:232-233`). -/
def symbol {N : Nat} (i : Fin N) : Poly N K := ⟨[(fun j => if j = i then 1 else 0, 1)]⟩

/-- the index of the variable `U`, `-2` in the code -/
def iU (N : Nat) : Fin (N+2) := Fin.natAdd N 0
/-- the index of the variable `F`, `-1` in the code -/
def iF (N : Nat) : Fin (N+2) := Fin.natAdd N 1

/-- `.replace(i,0,remove=True).simplify()` -/
def remove : {N : Nat} → Fin N → Poly N K → Poly (N-1) K
  | _ + 1, i, p => (p.replaceRemove i 0).simplify

/-- `.replace(i,0,remove=True).simplify()` for polynomials with the additional variables `U`, `F` -/
def remove2 : {N : Nat} → Fin N → Poly (N+2) K → Poly (N-1+2) K
  | N' + 1, i, p => (Poly.replaceRemove (n := N'+2) p (i.castAdd 2) 0).simplify

/-- The local variables of the method `numerator`. -/
structure St (K : Type) where
  N : Nat
  Uexp : Poly (N+2) K
  Fexp : Poly (N+2) K
  U : Poly (N+2) K
  F : Poly (N+2) K
  Nu : Poly (N+2) K
  n : K
  m : K

/-- `common.py:250-274`: one derivative; returns `Nu`, `n`, `m`. -/
def deriveOnce {N : Nat} (dUdx dFdx U F : Poly (N+2) K) (i : Fin N) (q : Poly (N+2) K × K × K) :
    Poly (N+2) K × K × K :=
  let Nu := q.1
  let n := q.2.1
  let m := q.2.2
  let term1 := (dUdx.mulScalar n).mul Nu
  let term2 := (dFdx.mulScalar (-m)).mul Nu
  let term3 := ((Nu.derive (i.castAdd 2)).add ((Nu.derive (iF N)).mul dFdx)).add ((Nu.derive (iU N)).mul dUdx)
  if dUdx.coeffs.any (fun c => decide (c ≠ 0)) then
    (((term1.mul F).add (term2.mul U)).add ((term3.mul U).mul F), n - 1, m + 1)
  else
    (((term1.mul F).add term2).add (term3.mul F), n, m + 1)

/-- `common.py:240-285`: the body of the loop over the Feynman parameters, with `k` derivatives; the parameter is set to
zero if `zero`.  (The loop only visits existing indices, see `C32_numerator`.) -/
def stepNum (k : Nat) (zero : Bool) (s : St K) (i : Fin s.N) : St K :=
  let dFdx := s.Fexp.derive (i.castAdd 2)
  let dUdx := s.Uexp.derive (i.castAdd 2)
  let q := (deriveOnce dUdx dFdx s.U s.F i)^[k] (s.Nu, s.n, s.m)
  if zero then
    ⟨s.N - 1, remove2 i s.Uexp, remove2 i s.Fexp, remove2 i s.U, remove2 i s.F, remove2 i q.1, q.2.1, q.2.2⟩
  else ⟨s.N, s.Uexp, s.Fexp, s.U, s.F, q.1, q.2.1, q.2.2⟩

/-- `common.py:240`: `for i in range(self.P-1,-1,-1)`. `none` is an index error. -/
def loopNum (ks : Nat → Nat) (zeros : Nat → Bool) : Nat → St K → Option (St K)
  | 0, s => some s
  | i + 1, s => if h : i < s.N then loopNum ks zeros i (stepNum (ks i) (zeros i) s ⟨i, h⟩) else none

/-- `common.py:214-287` `numerator`; together with `Nu`, the final values of the other variables. -/
def numerator {P : Nat} (U F : Poly P K) (Nu : Poly (P+2) K) (n m : K) (ks : Nat → Nat) (zeros : Nat → Bool) :
    Option (St K) :=
  loopNum ks zeros P ⟨P, extend U, extend F, symbol (iU P), symbol (iF P), Nu, n, m⟩

/-- `common.py:200-202`, `:209-211`: the loops of `U`, `F`. -/
def loopRestrict (zeros : Nat → Bool) : Nat → (Σ N, Poly N K) → Option (Σ N, Poly N K)
  | 0, s => some s
  | i + 1, s => if zeros i then
      (if h : i < s.1 then loopRestrict zeros i ⟨s.1 - 1, remove ⟨i, h⟩ s.2⟩ else none)
    else loopRestrict zeros i s

/-- `common.py:196-212`: the properties `U`, `F`. -/
def restrict {P : Nat} (U : Poly P K) (zeros : Nat → Bool) : Option (Σ N, Poly N K) :=
  loopRestrict zeros P ⟨P, U⟩

/-- `common.py:62-64` `exponent_U` -/
def exponentU (Nnu D : K) (L rank : Nat) (Uderivatives : Int) : K :=
  Nnu - (Uderivatives : K) - D / 2 * ((L : K) + 1) - (rank : K)

/-- `common.py:71-72` `exponent_F` -/
def exponentF (Nnu D : K) (L : Nat) (Fderivatives : Int) : K := D / 2 * (L : K) - (Nnu + (Fderivatives : K))

/-- `common.py:235` -/
def startN (Nnu D : K) (L rank : Nat) : K := Nnu - D / 2 * ((L : K) + 1) - (rank : K)
/-- `common.py:236` -/
def startM (Nnu D : K) (L : Nat) : K := Nnu - D / 2 * (L : K)

/-- `common.py:189` `number_of_derivatives` -/
def numberOfDerivatives (ks : Nat → Nat) (P : Nat) : Nat := ((List.range P).map ks).sum

end field
end LoopCommon
end SecDec
