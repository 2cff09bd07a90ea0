import Mathlib.Data.Nat.Factorial.Basic
import Verif.Model.Decomp
/-
Model of pySecDec/decomposition/splitting.py.
-/
namespace SecDec.Splitting
open SecDec SecDec.Squash

variable {n : Nat} {K E : Type} [Field K] [DecidableEq K]

/-- `splitting.py:53`: `pow(-1,k) * factorial(n) // factorial(n-k) // factorial(k)` with Python's
floor division. -/
def binomCoeff (m k : Nat) : Int :=
  Int.fdiv (Int.fdiv ((-1) ^ k * (Nat.factorial m : Int)) (Nat.factorial (m - k))) (Nat.factorial k)

/-- `splitting.py:50-54` `binompoly`, the polynomial `(1-x)^m` of the variable `index`. -/
def binomPoly (index : Fin n) (m : Nat) : Poly n K :=
  ⟨(List.range (m + 1)).map (fun (k : Nat) => (fun j => if j = index then (k : Int) else 0,
    ((binomCoeff m k : Int) : K)))⟩

/-- `splitting.py:43-55` for one term.  `none`: a negative power of a remapped variable (numpy's
`ValueError` for a negative array dimension; for the power `-1` the array is empty). -/
def remapTerm (indices : List (Fin n)) (t : Expo n × K) : Option (Poly n K) :=
  if indices.all (fun i => decide (0 ≤ t.1 i)) then
    some (indices.foldl (fun termpoly i => termpoly.mul (binomPoly i (t.1 i).toNat))
      ⟨[(fun m => if m ∈ indices then 0 else t.1 m, t.2)]⟩)
  else none

/-- `splitting.py:17-74` `remap_one_to_zero`. -/
def remapOneToZero (p : Poly n K) (indices : List (Fin n)) : Option (Poly n K) :=
  (p.terms.mapM (remapTerm indices)).map (fun l => Poly.simplify ⟨l.flatMap (·.terms)⟩)

/-! ### singular sets at one -/

/-- `expolist[:,singular_set] = 0`. -/
def zeroCols (S : List (Fin n)) (e : Expo n) : Expo n := fun i => if i ∈ S then 0 else e i

/-- `splitting.py:97-98`. -/
def indicesToConsider (p : Poly n K) : List (Fin n) :=
  (List.finRange n).filter (fun i => p.terms.any (fun t => decide (t.1 i ≠ 0)))

/-- `splitting.py:77-105` `find_singular_sets_at_one` (the generator as a list). -/
def findSingularSetsAtOne (p : Poly n K) : List (List (Fin n)) :=
  ((Misc.powerset (indicesToConsider p) 0 1).getD []).filter (fun S =>
    let q := Poly.simplify (⟨p.terms.map (fun t => (zeroCols S t.1, t.2))⟩ : Poly n K)
    !(q.hasConstantTerm none) || (match q.terms with
      | [t] => decide (t.2 = 0)
      | _ => false))

/-! ### split -/

/-- The sectors handled by `split`: as in `Model/Squash.lean`, but the Jacobian may have several terms
(`remap_one_to_zero` is applied to it, `splitting.py:160`). -/
structure GSector (n : Nat) (K E : Type) where
  jac : Poly n K
  cast : List (SProd n K E)
  other : List (SPoly n K E)

/-- `splitting.py:174-176` `multiply_by`: the coefficients of `replace(index, number)`, the exponents
are kept. -/
def multiplyBy (terms : List (Expo n × K)) (number : K) (index : Fin n) : List (Expo n × K) :=
  terms.map (fun t => (t.1, Poly.replaceCoeff number t index))

/-- `splitting.py:154-163`: one `cast` entry under `x -> 1-x`. -/
def remapCast (index : Fin n) (p : SProd n K E) : Option (SProd n K E) :=
  (remapOneToZero ⟨p.poly.terms.map (fun t => (Function.update t.1 index (t.1 index + p.mono.1 index),
      t.2))⟩ [index]).bind (fun q =>
    Decomp.refactorizeAt index
      { mono := (Function.update p.mono.1 index 0, p.mono.2)
        poly := { terms := q.terms, exponent := p.poly.exponent } })

/-- `splitting.py:150-168`: the sector under `x -> 1-x`. -/
def remapSector (index : Fin n) (s : GSector n K E) : Option (GSector n K E) :=
  (s.cast.mapM (remapCast index)).bind (fun cast =>
    (s.other.mapM (fun p => (remapOneToZero ⟨p.terms⟩ [index]).map (fun q =>
      ({ terms := q.terms, exponent := p.exponent } : SPoly n K E)))).bind (fun other =>
        (remapOneToZero s.jac [index]).map (fun jac => { jac := jac, cast := cast, other := other })))

/-- `splitting.py:173-189`: rescale the variable by `factor`. -/
def rescale (index : Fin n) (factor : K) (s : GSector n K E) : GSector n K E :=
  { jac := ⟨multiplyBy (s.jac.mulScalar factor).terms factor index⟩
    cast := s.cast.map (fun p =>
      { mono := (p.mono.1, Poly.replaceCoeff factor p.mono index)
        poly := { p.poly with terms := multiplyBy p.poly.terms factor index } })
    other := s.other.map (fun p => { p with terms := multiplyBy p.terms factor index }) }

/-- `splitting.py:139-193` `split_recursively`; the indices are paired with their splitting points.
`none`: an exception (see `remapTerm`). -/
def splitRec : List (Fin n × K) → GSector n K E → Option (List (GSector n K E))
  | [], s => some [s]
  | (index, c) :: rest, s =>
    (remapSector index s).bind (fun s1 =>
      (splitRec rest (rescale index c s)).bind (fun l0 =>
        (splitRec rest (rescale index (1 - c) s1)).map (fun l1 => l0 ++ l1)))

/-- `splitting.py:133-137`, the splitting points `k/20`; `rng` is the sequence of random numbers of
`randint(1,20)` (from 1 to 19) for the given seed. -/
def split (rng : Nat → Nat) (s : GSector n K E) (indices : List (Fin n)) : Option (List (GSector n K E)) :=
  splitRec (indices.zipIdx.map (fun p => (p.1, ((rng p.2 : Nat) : K) / 20))) s

/-- `splitting.py:223-236`: the variables to be split, in increasing order. -/
def singularParameters (s : GSector n K E) (indices : List (Fin n)) : List (Fin n) :=
  (List.finRange n).filter (fun i =>
    s.cast.any (fun p => (findSingularSetsAtOne (⟨p.poly.terms⟩ : Poly n K)).any (fun S => decide (i ∈ S)))
    && (indices.isEmpty || decide (i ∈ indices)))

/-- `splitting.py:198-239` `split_singular`. -/
def splitSingular (rng : Nat → Nat) (s : GSector n K E) (indices : List (Fin n)) :
    Option (List (GSector n K E)) :=
  split rng s (singularParameters s indices)

end SecDec.Splitting
