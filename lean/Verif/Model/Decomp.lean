import Verif.Model.Squash
import Verif.Model.Misc
/-
Model of pySecDec/decomposition/iterative.py.  Sectors are those of `Model/Squash.lean`
(`decomposition/common.py:16-90`).
-/
namespace SecDec.Decomp
open SecDec SecDec.Squash

variable {n : Nat} {R E : Type}

/-- The exceptions of the iterative decomposition: the internal signal `EndOfDecomposition`
(`iterative.py:122-129`), a failing `assert`, and numpy's `ValueError` for the minimum or maximum of
an empty array. -/
inductive Err where
  | endOfDecomposition
  | assertion
  | emptyArray
deriving DecidableEq

/-! ### constructor -/

/-- `item.refactorize()` of the `Sector` constructor (`decomposition/common.py:80-81`,
`algebra.py:757-768`): pull out all common powers; `none` for a polynomial without terms. -/
def refactorizeAll [One R] (p : SPoly n R E) : Option (SProd n R E) :=
  ((⟨p.terms⟩ : Poly n R).refactorizeMethod []).bind (fun r =>
    r.1.terms.head?.map (fun m => { mono := m, poly := { p with terms := r.2.terms } }))

/-- `decomposition/common.py:39-81` `Sector.__init__` with `cast` a list of polynomials
(`none`: the assertion on empty `cast`, or a polynomial without terms). -/
def mkSector [One R] (cast other : List (SPoly n R E)) (jac : Expo n × R := (fun _ => 0, 1)) :
    Option (Sector n R E) :=
  if cast.isEmpty then none
  else (cast.mapM refactorizeAll).map (fun c => { jac := jac, cast := c, other := other })

/-! ### iteration step -/

/-- `iterative.py:170-172` for one exponent vector: add the powers of the other singular parameters
to the power of the first one. -/
def remapExpo (S : List (Fin n)) (e : Expo n) : Expo n :=
  match S with
  | [] => e
  | a :: rest => rest.foldl (fun e b => Function.update e a (e a + e b)) e

/-- `iterative.py:171-172` on all rows of a polynomial. -/
def remapTerms (S : List (Fin n)) (terms : List (Expo n × R)) : List (Expo n × R) :=
  terms.map (fun t => (remapExpo S t.1, t.2))

/-- `iterative.py:174`: multiply the Jacobian by the first singular parameter to the power
`len(singular_parameters) - 1`. -/
def jacShift (S : List (Fin n)) (e : Expo n) : Expo n :=
  match S with
  | [] => e
  | a :: rest => Function.update e a (e a + rest.length)

/-- `refactorize(polyprod, singular_set[0])` (`iterative.py:302-303`, `algebra.py:1882-1885`). -/
def refactorizeAt (i : Fin n) (p : SProd n R E) : Option (SProd n R E) :=
  (p.poly.terms.map (fun t => t.1 i)).min?.map (fun k =>
    { mono := (Function.update p.mono.1 i (p.mono.1 i + k), p.mono.2)
      poly := { p.poly with
        terms := p.poly.terms.map (fun t => (Function.update t.1 i (t.1 i - k), t.2)) } })

/-- one subsector (`iterative.py:297-304`); `S` is the singular set with the distinguished parameter
first.  The Jacobian is one of the remapped polynomials and is then multiplied by the determinant. -/
def subsector (s : Sector n R E) (S : List (Fin n)) : Except Err (Sector n R E) :=
  match S with
  | [] => .error .emptyArray
  | a :: _ =>
    match (s.cast.map (fun p => ({ mono := (remapExpo S p.mono.1, p.mono.2)
                                   poly := { p.poly with terms := remapTerms S p.poly.terms } }
                                : SProd n R E))).mapM (refactorizeAt a) with
    | none => .error .emptyArray
    | some cast => .ok
      { jac := (jacShift S (remapExpo S s.jac.1), s.jac.2)
        cast := cast
        other := s.other.map (fun p => { p with terms := remapTerms S p.terms }) }

/-- `iterative.py:290-293`: the copies of the singular set with item `i` swapped to the front. -/
def swappedSets (S : List (Fin n)) : List (List (Fin n)) :=
  (List.range S.length).map (fun i =>
    match S[0]?, S[i]? with
    | some x0, some xi => (S.set 0 xi).set i x0
    | _, _ => S)

def hasConst (indices : List (Fin n)) (p : SPoly n R E) : Bool :=
  (⟨p.terms⟩ : Poly n R).hasConstantTerm (some indices)

/-- `iterative.py:219-227`: the loop over `powerset(indices, min_length=2)`. -/
def possibleSets (p : SPoly n R E) : List (List (Fin n)) → List (List (Fin n)) → List (List (Fin n))
  | [], acc => acc
  | S :: rest, acc =>
    if (match acc with | [] => false | f :: _ => decide (f.length < S.length)) then acc
    else if (⟨p.terms⟩ : Poly n R).becomesZeroFor S then possibleSets p rest (acc ++ [S])
    else possibleSets p rest acc

/-- state of `iterative.py:233-244`. -/
structure Best (n : Nat) where
  howmanyMax : Nat
  bestSets : List (List (Fin n))

/-- `iterative.py:236-244`, the loop body for one set (`howmany` starts at zero for each set). -/
def bestStep (indices : List (Fin n)) (cast : List (SProd n R E)) (st : Best n)
    (S : List (Fin n)) : Best n :=
  let r := cast.foldl (fun (acc : Nat × Best n) p =>
    let howmany := if hasConst indices p.poly then acc.1 else acc.1 + 1
    if acc.2.howmanyMax < howmany then (howmany, { howmanyMax := howmany, bestSets := [] })
    else (howmany, acc.2)) (0, st)
  { r.2 with bestSets := r.2.bestSets ++ [S] }

/-- `poly.expolist[:,test_set].max(axis=0).sum()` (`iterative.py:250`). -/
def exposum (p : SPoly n R E) (S : List (Fin n)) : Option Int :=
  (S.mapM (fun i => (p.terms.map (fun t => t.1 i)).max?)).map List.sum

/-- `iterative.py:249-253`, the loop body; `none` is `exposum_max = -inf`, the outer `none` numpy's
`ValueError`. -/
def pickStep (p : SPoly n R E) (acc : Option (Int × List (Fin n))) (S : List (Fin n)) :
    Option (Option (Int × List (Fin n))) :=
  (exposum p S).map (fun e =>
    match acc with
    | none => some (e, S)
    | some (m, T) => if m < e then some (e, S) else some (m, T))

/-- `iterative.py:248-253`: first set with the largest exposum. -/
def pickBest (p : SPoly n R E) (sets : List (List (Fin n))) :
    Option (Option (Int × List (Fin n))) :=
  sets.foldlM (pickStep p) none

/-- `iterative.py:176-257` `find_singular_set`. -/
def findSingularSet (s : Sector n R E) (indices : List (Fin n)) : Except Err (List (Fin n)) :=
  match s.cast.find? (fun p => !hasConst indices p.poly) with
  | none => .error .endOfDecomposition
  | some prod =>
    let possible := possibleSets prod.poly ((Misc.powerset indices 2 1).getD []) []
    if possible.isEmpty then .error .assertion
    else
      let best := (possible.foldl (bestStep indices s.cast) { howmanyMax := 1, bestSets := [] }).bestSets
      match pickBest prod.poly best with
      | none => .error .emptyArray
      | some none => .error .assertion
      | some (some (_, S)) => .ok S

/-- `iterative.py:259-304` `iteration_step` (the generator as a list). -/
def iterationStep (s : Sector n R E) (indices : List (Fin n)) : Except Err (List (Sector n R E)) :=
  (findSingularSet s indices).bind (fun S => (swappedSets S).mapM (subsector s))

/-- `iterative.py:306-334` `iterative_decomposition` (the generator as a list).  The outer `none`
means: recursion deeper than `fuel`; the Python recursion has no bound. -/
def iterativeDecomposition (indices : List (Fin n)) :
    Nat → Sector n R E → Option (Except Err (List (Sector n R E)))
  | 0, _ => none
  | fuel+1, s =>
    match iterationStep s indices with
    | .error .endOfDecomposition => some (.ok [s])
    | .error e => some (.error e)
    | .ok subs =>
      (subs.mapM (iterativeDecomposition indices fuel)).map (fun rs =>
        (rs.mapM id).map List.flatten)

end SecDec.Decomp
