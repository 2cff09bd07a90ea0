import Mathlib.Data.Finset.Card
import Verif.Model.Poly
import Verif.Model.MatrixSort
/-
Model of the sort based symmetry finder of pySecDec/decomposition/common.py.
-/
namespace SecDec.Squash
open SecDec MatrixSort

/-- A polynomial in a sector: its terms and, for an `ExponentiatedPolynomial`, the exponent
(`E` is an arbitrary type of exponents; `none` for a plain `Polynomial`). -/
structure SPoly (n : Nat) (R E : Type) where
  terms : List (Expo n × R)
  exponent : Option E

/-- An element of `Sector.cast`: a `Product` of a monomial and a polynomial
(`decomposition/common.py:39-81`).  Both factors of a product made by `refactorize` carry the same
exponent; the model keeps it on the polynomial. -/
structure SProd (n : Nat) (R E : Type) where
  mono : Expo n × R
  poly : SPoly n R E

/-- `decomposition/common.py:16-90` `class Sector`.  The Jacobian has a single term. -/
structure Sector (n : Nat) (R E : Type) where
  jac : Expo n × R
  cast : List (SProd n R E)
  other : List (SPoly n R E)

/-- The tags multiplied to the coefficients in `_sector2array`:
`SecDecInternalExponent(e)*SecDecInternalCast(i)`, `SecDecInternalOther(i)`, ...; `jac` stands for
the untagged Jacobian coefficient `1`. -/
inductive Tag (E : Type) where
  | jac
  | cast (i : Nat) (e : Option E)
  | other (i : Nat) (e : Option E)
deriving DecidableEq

/-- A tagged coefficient `coeff * tag`; `none` is the expression `0` (`0 * tag` is `0` whatever the
tag).  Simplification: sympy products of a coefficient and a tag function are equal iff coefficient
and tag are. -/
abbrev TCoeff (R E : Type) := Option (R × Tag E)

section
variable {n : Nat} {R E : Type} [CommRing R] [DecidableEq R]

/-- `coeff * tag` (`decomposition/common.py:151-154`, `:160-163`). -/
def tagCoeff (c : R) (t : Tag E) : TCoeff R E := if c = 0 then none else some (c, t)

/-- rows of one `cast` entry (`decomposition/common.py:144-154`): the factorization is undone. -/
def castRows (i : Nat) (p : SProd n R E) : List (Expo n × TCoeff R E) :=
  p.poly.terms.map (fun t =>
    (t.1 + p.mono.1, tagCoeff (t.2 * p.mono.2) (Tag.cast i p.poly.exponent)))

/-- rows of one `other` entry (`decomposition/common.py:157-163`). -/
def otherRows (i : Nat) (p : SPoly n R E) : List (Expo n × TCoeff R E) :=
  p.terms.map (fun t => (t.1, tagCoeff t.2 (Tag.other i p.exponent)))

/-- `decomposition/common.py:126-166` `_sector2array`: rows of exponent vector and tagged
coefficient.  The Jacobian coefficient is replaced by `1`. -/
def sector2array (s : Sector n R E) : List (Expo n × TCoeff R E) :=
  (s.jac.1, tagCoeff 1 Tag.jac) ::
    ((s.cast.zipIdx.flatMap (fun p => castRows p.2 p.1)) ++
     (s.other.zipIdx.flatMap (fun p => otherRows p.2 p.1)))
end

/-! ### `_collision_safe_hash` -/
section
variable {α : Type} [DecidableEq α]

/-- number of distinct elements, `len(set(l))`. -/
def countDistinct {β : Type} [DecidableEq β] (l : List β) : Nat := l.toFinset.card

/-- `hash_value in hashes[i+1:] and objects[i] not in objects[i+1:]`
(`decomposition/common.py:189-194`). -/
def collidesAt (objs : List α) (hashes : List Int) (i : Nat) : Bool :=
  match objs[i]?, hashes[i]? with
  | some o, some h => decide (h ∈ hashes.drop (i+1)) && decide (o ∉ objs.drop (i+1))
  | _, _ => false

/-- the value of the loop variable `i` after the search loop (`decomposition/common.py:189-194`):
the first collision, or the last index if there is none. -/
def collisionIndex (objs : List α) (hashes : List Int) : Nat :=
  ((List.range hashes.length).find? (collidesAt objs hashes)).getD (hashes.length - 1)

/-- `hashes[np.where(objects == objects[i])] += 1` (`decomposition/common.py:197`). -/
def bump (objs : List α) (hashes : List Int) (i : Nat) : List Int :=
  List.zipWith (fun o h => if objs[i]? = some o then h + 1 else h) objs hashes

/-- the `while` loop (`decomposition/common.py:187-200`); `none` if not finished after `fuel`
rounds. -/
def safeHashLoop (objs : List α) : Nat → List Int → Option (List Int)
  | 0, _ => none
  | fuel+1, hashes =>
    if countDistinct objs = countDistinct hashes then some hashes
    else safeHashLoop objs fuel (bump objs hashes (collisionIndex objs hashes))

/-- `decomposition/common.py:168-202` `_collision_safe_hash`, for an arbitrary function `hash`.
Simplification: hashes are unbounded integers (numpy: 64 bit). -/
def safeHash (hash : α → Int) (fuel : Nat) (objs : List α) : Option (List Int) :=
  safeHashLoop objs fuel (objs.map hash)
end

/-! ### squashing -/
section
variable {n m : Nat} {R R' E : Type} [CommRing R] [DecidableEq R] [DecidableEq E] [Add R']

/-- `numpy` reshape of the flattened hashes back to one list per sector
(`decomposition/common.py:673-674`). -/
def splitLike {α β : Type} : List (List α) → List β → List (List β)
  | [], _ => []
  | l :: ls, hs => hs.take l.length :: splitLike ls (hs.drop l.length)

/-- `np.hstack((coeffs.reshape(-1,1), expolist))` (`decomposition/common.py:680`). -/
def hashedArray (arr : List (Expo m × TCoeff R E)) (hs : List Int) : Mat :=
  List.zipWith (fun h r => h :: List.ofFn r.1) hs arr

/-- The arrays `all_sectors_array` after applying the sort function to each
(`decomposition/common.py:662-690`).  `none`: hashing did not finish, the sectors have different
numbers of terms (ragged numpy array) or the sort function failed. -/
def canonicalArrays (hash : TCoeff R E → Int) (fuel : Nat) (sortf : Mat → Option Mat)
    (replaced : List (Sector m R E)) : Option (List Mat) :=
  let arrs := replaced.map sector2array
  if ∀ a ∈ arrs, ∀ b ∈ arrs, a.length = b.length then
    (safeHash hash fuel (arrs.flatMap (fun a => a.map (·.2)))).bind (fun hs =>
      (List.zipWith hashedArray arrs (splitLike arrs hs)).mapM sortf)
  else none

/-- state of the pruning loop: finished sectors, `previous_sector_array` and `previous_sector`. -/
structure Prune (n : Nat) (R' E : Type) where
  done : List (Sector n R' E)
  arr : Mat
  cur : Sector n R' E

/-- `previous_sector.Jacobian.coeffs[0] += ...` (`decomposition/common.py:705`). -/
def addJac (s t : Sector n R' E) : Sector n R' E := { s with jac := (s.jac.1, s.jac.2 + t.jac.2) }

/-- one round of the pruning loop (`decomposition/common.py:702-711`).  (The assignment
`previous_index = indices_sorted_sectors[sector_index]` has no effect.) -/
def pruneStep (st : Prune n R' E) (x : Mat × Sector n R' E) : Prune n R' E :=
  if x.1 = st.arr then { st with cur := addJac st.cur x.2 }
  else { done := st.done ++ [st.cur], arr := x.1, cur := x.2 }

/-- `decomposition/common.py:581-713` `squash_symmetry_redundant_sectors_sort`.  `replaced` are the
sectors used for comparison: the sectors themselves if `indices is None`, otherwise
`_remove_variables(sectors, indices)`.  `none` is an exception (for instance for an empty list). -/
def squashWith (hash : TCoeff R E → Int) (fuel : Nat) (sortf : Mat → Option Mat)
    (replaced : List (Sector m R E)) (sectors : List (Sector n R' E)) :
    Option (List (Sector n R' E)) :=
  (canonicalArrays hash fuel sortf replaced).bind (fun arrays =>
    match takeIdx (arrays.zip sectors) (argsortND arrays) with
    | [] => none
    | x :: rest =>
      let st := rest.foldl pruneStep { done := [], arr := x.1, cur := x.2 }
      some (st.done ++ [st.cur]))

/-- `squash_symmetry_redundant_sectors_sort(sectors, sort_function)` (`indices=None`). -/
def squash (hash : TCoeff R E → Int) (fuel : Nat) (sortf : Mat → Option Mat)
    (sectors : List (Sector n R E)) : Option (List (Sector n R E)) :=
  squashWith hash fuel sortf sectors sectors
end

/-! ### `_remove_variables` -/
section
variable {n : Nat} {R E : Type} [Field R] [DecidableEq R]

/-- `new_expression.replace(index, symbols[index], True)` for one variable on a polynomial of a
sector (`decomposition/common.py:565-569`); `sym` is the symbol as element of the coefficients. -/
def removeVarTerms (i : Fin (n+1)) (sym : R) (terms : List (Expo (n+1) × R)) : List (Expo n × R) :=
  ((⟨terms⟩ : Poly (n+1) R).replaceRemove i sym).terms

/-- one removed variable on a whole sector (`decomposition/common.py:571-577`). -/
def removeVar (i : Fin (n+1)) (sym : R) (s : Sector (n+1) R E) : Sector n R E :=
  { jac := (removeVarTerms i sym [s.jac]).headD (fun _ => 0, 0)
    cast := s.cast.map (fun p =>
      { mono := (removeVarTerms i sym [p.mono]).headD (fun _ => 0, 0)
        poly := { terms := removeVarTerms i sym p.poly.terms, exponent := p.poly.exponent } })
    other := s.other.map (fun p =>
      { terms := removeVarTerms i sym p.terms, exponent := p.exponent }) }
end

end SecDec.Squash
