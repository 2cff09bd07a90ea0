import Mathlib.Data.Nat.Nth
import Mathlib.Data.Nat.Prime.Basic
import Mathlib.Algebra.BigOperators.Fin
import Mathlib.Algebra.Field.Rat
/-
Model of `suggested_extra_regulator_exponent` and `extra_regulator_constraints`
(`pySecDec/loop_integral/loop_regions.py`, lines 292-458).

Simplifications: the facets of polytopes come from an oracle (`Polytope.complete_representation` calls `normaliz`); only
`indices=None`; the values of the powers without regulators are rational numbers.
-/
namespace SecDec
namespace ExtraReg
noncomputable section
variable {m : ℕ}

/-- A facet: the normal vector and the constant, `normal.v + constant >= 0` (`polytope.facets`). -/
abbrev Facet (m : ℕ) := (Fin m → ℤ) × ℤ

/-- `normal.v + constant` -/
def Facet.at (f : Facet m) (v : Fin m → ℤ) : ℤ := ∑ i, v i * f.1 i + f.2

/-- `loop_regions.py:423-424`: the facets which are regions up to the expansion order.  `powers` is the `powerlist`
with an entry zero for the small parameter, `half` half of the dimension (lines 401-407). -/
def regions (p : Fin m) (powers : Fin m → ℚ) (half : ℚ) (order : ℚ) (facets : List (Facet m)) : List (Facet m) :=
  (facets.filter fun f => 0 < f.1 p).filter fun f => ∑ i, (f.1 i : ℚ) * powers i + f.2 * half ≤ order

/-- `loop_regions.py:430-432`: the vertices in the region, without the small parameter. -/
def regionVertices (p : Fin (m+1)) (vertices : List (Fin (m+1) → ℤ)) (region : Facet (m+1)) : List (Fin m → ℤ) :=
  (vertices.filter fun v => region.at v = 0).map fun v => p.removeNth v

/-- `loop_regions.py:438`: `facets[facets[:,-1]==0][:,:-1]`. -/
def zeroFacets (facets : List (Facet m)) : List (Fin m → ℤ) := (facets.filter fun f => f.2 = 0).map Prod.fst

/-- `loop_regions.py:444`: the internal facets. -/
def internal (all : List (Fin m → ℤ)) : List (Fin m → ℤ) := all.filter fun f => all.any fun g => f = -g

/-- `loop_regions.py:449`: `facet[facet!=0][0]>0`; an `IndexError` for the zero vector. -/
def firstPositive (f : Fin m → ℤ) : Option Bool :=
  (((List.finRange m).map f).filter fun z => z ≠ 0).head?.map fun z => 0 < z

/-- The list comprehension in line 449. -/
def select (l : List (Fin m → ℤ)) : Option (List (Fin m → ℤ)) :=
  (l.mapM fun f => (firstPositive f).map fun b => (f, b)).map fun l => (l.filter fun x => x.2).map Prod.fst

/-- `loop_regions.py:455-456`: a zero for the small parameter. -/
def insertZero (p : Fin (m+1)) (f : Fin m → ℤ) : Fin (m+1) → ℤ := p.insertNth 0 f

/-- Errors: `noRegion` is the `ValueError` of `np.concatenate` for an empty list. -/
inductive Err
  | noRegion
  | index
  | type
deriving DecidableEq

/-- `loop_regions.py:354-458` `extra_regulator_constraints`: the facets for each region and the entry `all`. -/
def constraints (oracle : (k : ℕ) → List (Fin k → ℤ) → List (Facet k)) (p : Fin (m+1)) (vertices : List (Fin (m+1) → ℤ))
    (powers : Fin (m+1) → ℚ) (half order : ℚ) :
    Except Err (List (List (Fin (m+1) → ℤ)) × List (Fin (m+1) → ℤ)) :=
  let rs := regions p powers half order (oracle (m+1) vertices)
  let fs := rs.map fun r => zeroFacets (oracle m (regionVertices p vertices r))
  if fs.isEmpty then .error .noRegion
  else
    let ints := internal fs.flatten
    match select ints with
    | none => .error .index
    | some s => .ok ((fs.map fun l => (l.filter fun f => ints.any fun g => f = g).map (insertZero p)), s.map (insertZero p))

/-! ### The exponents -/

/-- `loop_regions.py:345`: `0 if k < 0 else 1 if k < 1 else 1/prime(k)` (`prime(1) = 2`). -/
def value (k : ℤ) : ℚ := if k < 0 then 0 else if k < 1 then 1 else 1 / (Nat.nth Nat.Prime (k.toNat - 1) : ℚ)

/-- `loop_regions.py:337`: `constr[:,i].any()`. -/
def needed (constr : List (Fin m → ℤ)) (i : Fin m) : Bool := constr.any fun c => c i ≠ 0

/-- `loop_regions.py:341-347`: the inner loop; the state is `exp`, `lasti` and `k`. -/
def assign (need : Fin m → Bool) (exp : Fin m → ℚ) (k : ℤ) : (Fin m → ℚ) × Option (Fin m) × ℤ :=
  (List.finRange m).foldl (fun st i =>
    if need i then (Function.update st.1 i (value st.2.2), some i, st.2.2 + 1) else st) (exp, none, k)

/-- `loop_regions.py:341-349`: one iteration up to the test; a `TypeError` if `lasti` is `None`. -/
def attempt (constr : List (Fin m → ℤ)) (exp : Fin m → ℚ) (nzero : ℤ) : Option (Fin m → ℚ) :=
  let st := assign (needed constr) exp (-nzero)
  st.2.1.map fun l =>
    let e := Function.update st.1 l 0
    Function.update e l (-∑ i, e i)

/-- `loop_regions.py:350`: `(constr @ exp).all()`. -/
def good (constr : List (Fin m → ℤ)) (exp : Fin m → ℚ) : Bool := constr.all fun c => ∑ i, (c i : ℚ) * exp i ≠ 0

/-- `loop_regions.py:340-352`: at most `fuel` iterations of the loop; `none` if the loop goes on. -/
def search (constr : List (Fin m → ℤ)) : ℕ → (Fin m → ℚ) → ℤ → Option (Except Err (Fin m → ℚ))
  | 0, _, _ => none
  | fuel + 1, exp, nzero =>
    match attempt constr exp nzero with
    | none => some (.error .type)
    | some e => if good constr e then some (.ok e) else search constr fuel e (nzero - 1)

/-- `loop_regions.py:292-352` `suggested_extra_regulator_exponent`; the small parameter is the last one.
`.ok none` is the answer `None`: no regulator is needed. -/
def suggested (oracle : (k : ℕ) → List (Fin k → ℤ) → List (Facet k)) (vertices : List (Fin (m+1) → ℤ))
    (powers : Fin (m+1) → ℚ) (half order : ℚ) (fuel : ℕ) : Option (Except Err (Option (Fin m → ℚ))) :=
  match constraints oracle (Fin.last m) vertices powers half order with
  | .error .noRegion => some (.ok none)
  | .error e => some (.error e)
  | .ok r =>
    if r.2.isEmpty then some (.ok none)
    else (search (r.2.map fun c => Fin.init c) fuel (fun _ => 0) m).map fun x => x.map some

end
end ExtraReg
end SecDec
