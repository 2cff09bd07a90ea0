import Verif.Model.Splitting
import Verif.Model.Package
/-
Model of the option `split` of pySecDec/code_writer/make_package.py (lines 1845-1887): decomposition and splitting are repeated until no polynomial
vanishes if some parameters are set to one.
-/
namespace SecDec.SplitDecomp
open SecDec SecDec.Squash SecDec.Splitting

variable {n : Nat} {K E : Type} [Field K] [DecidableEq K]

/-- The decompositions of `Model/Decomp` and `Model/Geometric` are about sectors whose Jacobian is a monomial.  All of them transform the polynomial of the
Jacobian like the polynomials of `sector.other` and then multiply it by a monomial and a number (`iterative.py:174`, `:299-301`; `geometric.py:324`, `:335`), so here the
polynomial travels as the first one of `other`, and the monomial in the field `jac` of the model. -/
def toSector (g : GSector n K E) : Squash.Sector n K E :=
  { jac := (fun _ => 0, 1), cast := g.cast, other := { terms := g.jac.terms, exponent := none } :: g.other }

/-- The polynomial of the Jacobian and the monomial are multiplied (see `toSector`). -/
def fromSector (s : Squash.Sector n K E) : Option (GSector n K E) :=
  match s.other with
  | [] => none
  | j :: other => some { jac := ⟨j.terms.map fun t => (t.1 + s.jac.1, t.2 * s.jac.2)⟩, cast := s.cast, other := other }

/-- `original_decomposition_strategies['secondary'](split_sector, indices)` (`make_package.py:1878`); `sec` is the decomposition.  `none`: it does not return. -/
def decompose (sec : Squash.Sector n K E → Option (List (Squash.Sector n K E))) (g : GSector n K E) : Option (List (GSector n K E)) :=
  (sec (toSector g)).bind fun ts => ts.mapM fromSector

/-- `make_package.py:1873-1884` `secondary_decomposition_with_splitting` with the argument `split_sectors` (the generators as lists).  `rng` are the random
numbers of the seed `split`; `fuel` bounds the depth of the recursion, which has no bound in Python. -/
def splitAgain (sec : Squash.Sector n K E → Option (List (Squash.Sector n K E))) (rng : Nat → Nat) (indices : List (Fin n)) :
    Nat → List (GSector n K E) → Option (List (GSector n K E))
  | 0, _ => none
  | fuel + 1, splitSectors =>
    (splitSectors.mapM fun splitSector =>
      (decompose sec splitSector).bind fun decomposed =>
        (decomposed.mapM fun d =>
          (splitSingular rng d indices).bind fun parts =>
            if parts.length = 1 then some [d] else splitAgain sec rng indices fuel parts).map List.flatten).map List.flatten

/-- `make_package.py:1873-1884` `secondary_decomposition_with_splitting(sector, indices)`. -/
def splitDecomposition (sec : Squash.Sector n K E → Option (List (Squash.Sector n K E))) (rng : Nat → Nat) (indices : List (Fin n)) (fuel : Nat)
    (g : GSector n K E) : Option (List (GSector n K E)) :=
  (splitSingular rng g indices).bind (splitAgain sec rng indices fuel)

/-- A sector whose Jacobian is a monomial. -/
def ofSector (s : Squash.Sector n K E) : GSector n K E := { jac := ⟨[s.jac]⟩, cast := s.cast, other := s.other }

/-- The sectors with the option `split` for the strategies without a primary decomposition (`make_package.py:1839`, `:2099-2102`).  `none` also for
`geometric_infinity_no_primary`, which is rejected (`make_package.py:1849-1852`).  The secondary sectors are not symmetrized (`:2108`). -/
noncomputable def splitSectors (o : Package.Options) (rng : Nat → Nat) (fuel : Nat) (polys : List (SPoly (n + 1) ℝ (Poly 1 ℚ))) :
    Option (List (GSector (n + 1) ℝ (Poly 1 ℚ))) :=
  match o.method with
  | .geometric => none
  | _ => (Decomp.mkSector polys []).bind fun s => splitDecomposition (Package.secondary o) rng (List.finRange (n + 1)) fuel (ofSector s)

end SecDec.SplitDecomp
