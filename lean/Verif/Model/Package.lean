import Mathlib.Data.Complex.Basic
import Verif.Model.Decomp
import Verif.Model.Primary
import Verif.Model.Sector
import Verif.Model.Geometric
/-
Model of the whole of pySecDec/code_writer/make_package.py for one integral: constructor of the initial sector, primary decomposition,
symmetries, secondary decomposition, symmetries, and the treatment of each sector.

Simplifications: one regulator; no `split`, no contour deformation, no `other_polynomials`, a trivial
`remainder_expression`, no `polynomial_names`; the coefficients are real numbers and do not contain the regulator (so the columns of the regulators,
which are always zero in the decomposition, are added only in `initializer`).  The sectors of different processes of
the `Pool` are independent.
-/
namespace SecDec
namespace Package
open Squash Decomp Subtraction Sector MatrixSort
variable {n : ℕ}

instance : DecidableEq (Poly 1 ℚ) := fun a b => decidable_of_iff (a.terms = b.terms) (by cases a; cases b; simp)

/-- The external program `normaliz` (`polytope.py:102-236`, `:286-347`): the vertices and facets of the convex hull of points, and the triangulations of
cones which are given by rays or by inequalities (`switch_representation=True`). -/
structure Normaliz (n : ℕ) where
  polytope : List (Expo n) → Geometric.PolytopeData n
  triangulate : List (Expo n) → List (List (Expo n))
  triangulateDual : List (Expo n) → List (List (Expo n))

/-- The ways to decompose (`make_package.py:306-334`).  With a primary decomposition these are the strategies `iterative`, `geometric` and `geometric_ku`;
without one, `iterative_no_primary`, `geometric_infinity_no_primary` and `geometric_no_primary`. -/
inductive Method
  | iterative
  | geometric
  | geometricKu

/-- The options of `make_package` which are relevant here: `use_iterative_sort`, `use_light_Pak`, `use_Pak` (`make_package.py:1433-1441`),
`ibp_power_goal` for the variables after the primary decomposition (`:2003`) and the required order of the regulator.  `hash` is
Python's hash function, `val` tells whether a number is rational; the other fields bound the recursions of the model. -/
structure Options where
  useIterativeSort : Bool
  useLightPak : Bool
  usePak : Bool
  goals : List ℚ
  order : ℤ
  hash : TCoeff ℝ (Poly 1 ℚ) → Int
  val : ℝ → Option ℚ
  sortFuel : ℕ
  depth : ℕ
  fuel : ℕ
  method : Method := .iterative
  normaliz : (n : ℕ) → Normaliz n := fun _ => ⟨fun _ => ⟨[], [], []⟩, fun _ => [], fun _ => []⟩

/-- The sort functions which are used one after the other (`make_package.py:1431-1440`); the matrices have the column of the
hashes and `n` columns of powers. -/
def passes (n : ℕ) (o : Options) : List (Mat → Option Mat) :=
  (if o.useIterativeSort then [iterativeSort (n + 1) o.sortFuel] else []) ++
    (if o.useLightPak then [fun M => lightPakSort (n + 1) M] else []) ++
    (if o.usePak then [fun M => pakSort (n + 1) M] else [])

/-- `make_package.py:1424-1443` `_reduce_sectors_by_symmetries` (without dreadnaut). -/
noncomputable def reduceSectors (o : Options) (sectors : List (Squash.Sector n ℝ (Poly 1 ℚ))) : Option (List (Squash.Sector n ℝ (Poly 1 ℚ))) :=
  (passes n o).foldlM (fun s f => squash o.hash o.sortFuel f s) sectors

/-- `make_package.py:1943-1957`: no need to look for symmetries if there is only one sector. -/
noncomputable def reducePrimary (o : Options) (primary : List (Squash.Sector n ℝ (Poly 1 ℚ))) : Option (List (Squash.Sector n ℝ (Poly 1 ℚ))) :=
  if 1 < primary.length then reduceSectors o primary else some primary

/-- `strategy['primary'](initial_sector, indices)` with `indices = range(len(integration_variables))` (`make_package.py:306-320`, `:1947`). -/
def primary (o : Options) (s : Squash.Sector (n + 1) ℝ (Poly 1 ℚ)) : List (Squash.Sector n ℝ (Poly 1 ℚ)) :=
  match o.method with
  | .geometric => [chengWu s (Fin.last n)]
  | _ => primaryDecomposition s (List.finRange (n + 1))

/-- `strategy['secondary'](primary_sector, indices)` with `indices = range(len(integration_variables))` (`make_package.py:306-334`, `:2099-2102`). -/
def secondary (o : Options) (s : Squash.Sector n ℝ (Poly 1 ℚ)) : Option (List (Squash.Sector n ℝ (Poly 1 ℚ))) :=
  match o.method with
  | .iterative =>
    match iterativeDecomposition (List.finRange n) o.depth s with
    | some (.ok ts) => some ts
    | _ => none
  | .geometric => Geometric.geometricDecomposition (o.normaliz n).polytope (o.normaliz n).triangulate s
  | .geometricKu => Geometric.geometricKu (o.normaliz n).triangulateDual s

/-- The primary sectors: `make_package.py:1839` and `:1935-1939` (initial sector), `:1943-1956` (primary sectors).
Without symmetries (`:1957-1986`, `:2115-2116`) no sector is removed.  One integration variable only (`n = 0`), where the primary
decomposition keeps the variable, is not modelled. -/
noncomputable def primarySectors (o : Options) (polys : List (SPoly (n + 1) ℝ (Poly 1 ℚ))) : Option (List (Squash.Sector n ℝ (Poly 1 ℚ))) :=
  if n = 0 then none else (mkSector polys []).bind fun s => reducePrimary o (primary o s)

/-- The secondary sectors (`make_package.py:2097-2114`). -/
noncomputable def secondarySectors (o : Options) (l : List (Squash.Sector n ℝ (Poly 1 ℚ))) : Option (List (Squash.Sector n ℝ (Poly 1 ℚ))) :=
  (l.mapM (secondary o)).bind fun subsectors => reduceSectors o subsectors.flatten

/-- All sectors, for the strategies with a primary decomposition. -/
noncomputable def sectors (o : Options) (polys : List (SPoly (n + 1) ℝ (Poly 1 ℚ))) : Option (List (Squash.Sector n ℝ (Poly 1 ℚ))) :=
  (primarySectors o polys).bind (secondarySectors o)

/-- All sectors, for the strategies without a primary decomposition (`make_package.py:321-332`; there is only one primary sector, `:1948`). -/
noncomputable def sectorsNoPrimary (o : Options) (polys : List (SPoly (n + 1) ℝ (Poly 1 ℚ))) : Option (List (Squash.Sector (n + 1) ℝ (Poly 1 ℚ))) :=
  (mkSector polys []).bind fun s => secondarySectors o [s]

/-- A row of the expolist with the column of the regulator. -/
def withRegulator (e : Expo n) : Expo (n + 1) := Fin.append e (fun _ : Fin 1 => 0)

/-- `Polynomial.from_expression(exponent, symbols)` (`make_package.py:917-931`): the exponent, a polynomial of the regulator, as a polynomial of all
symbols. -/
def allSymbols (e : Poly 1 ℚ) : Poly (n + 1) ℝ := ⟨e.terms.map (fun t => (Fin.append (fun _ : Fin n => 0) t.1, (t.2 : ℝ)))⟩

/-- The exponent of an element of `polynomials_to_decompose` (one for a plain `Polynomial`, `make_package.py:98-103`). -/
def exponentOf (p : SPoly n ℝ (Poly 1 ℚ)) : Poly 1 ℚ := p.exponent.getD ⟨[((fun _ => 0), 1)]⟩

/-- `Product(monomials, pole_part_initializer, symbolic_cal_I)` (`make_package.py:1083-1140`): the monomials of the Jacobian and of the factorized
polynomials, `Pow(1, -1)`, and `cal_I`, the product of the coefficient of the Jacobian and of the remaining polynomials to their powers
(the symbolic functions are replaced by what they stand for; after `cal_I.simplify()` the coefficient of the Jacobian is a plain
polynomial and the trivial remainder is gone). -/
def initializer (s : Squash.Sector n ℝ (Poly 1 ℚ)) : PolyProd (n + 1) ℝ where
  monos := ⟨withRegulator s.jac.1, 1, ⟨[((fun _ => 0), 1)]⟩⟩ ::
    s.cast.map (fun p => ⟨withRegulator p.mono.1, p.mono.2, allSymbols (exponentOf p.poly)⟩)
  regBase := ⟨[((fun _ => 0), 1)]⟩
  regExp := .poly [((fun _ => 0), .num (-1))]
  calI := .poly [((fun _ => 0), .num s.jac.2)] ::
    s.cast.map (fun p => .pow (.poly (p.poly.terms.map (fun t => (withRegulator t.1, .num t.2)))) (ofPoly (allSymbols (exponentOf p.poly))))

/-- `make_package.py:1143-1186` for one sector: the sum of products and the highest pole (one regulator). -/
noncomputable def processOne (o : Options) (s : Squash.Sector n ℝ (Poly 1 ℚ)) : Option (List (Summand (n + 1) ℝ) × ℤ) :=
  match processSector o.fuel o.val o.goals ((List.finRange n).map (Fin.castAdd 1)) [(Fin.natAdd n 0, o.order)] (initializer s) with
  | .ok (l, [p]) => some (l, p)
  | _ => none

/-- All sectors (`make_package.py:2118-2150`). -/
noncomputable def package (o : Options) (polys : List (SPoly (n + 1) ℝ (Poly 1 ℚ))) : Option (List (List (Summand (n + 1) ℝ) × ℤ)) := do
  let l ← sectors o polys
  l.mapM (processOne o)

/-- All sectors, for the strategies without a primary decomposition. -/
noncomputable def packageNoPrimary (o : Options) (polys : List (SPoly (n + 1) ℝ (Poly 1 ℚ))) : Option (List (List (Summand (n + 2) ℝ) × ℤ)) := do
  let l ← sectorsNoPrimary o polys
  l.mapM (processOne o)

end Package
end SecDec
