import Verif.Model.Squash
/-
Model of the primary decomposition, pySecDec/decomposition/iterative.py:14-118, and of `Cheng_Wu`,
pySecDec/decomposition/geometric.py:15-41.
-/
namespace SecDec.Decomp
open SecDec SecDec.Squash

variable {n : Nat} {R E : Type}

/-- `np.delete(expolist, i, axis=1)` for one row. -/
def deleteCol (i : Fin (n+1)) (e : Expo (n+1)) : Expo n := fun k => e (i.succAbove k)

/-- `expolist[:,i] = 0` for one row. -/
def zeroCol (i : Fin n) (e : Expo n) : Expo n := Function.update e i 0

/-- Apply `f` to the exponent vectors of all terms of all polynomials of a sector and rebuild the
sector (`Sector.__init__`, `decomposition/common.py:39-81`, does not refactorize `cast` entries that
are given as products). -/
def Sector.mapExpo {m : Nat} (f : Expo n → Expo m) (s : Sector n R E) : Sector m R E :=
  { jac := (f s.jac.1, s.jac.2)
    cast := s.cast.map (fun p => { mono := (f p.mono.1, p.mono.2)
                                   poly := { terms := p.poly.terms.map (fun t => (f t.1, t.2))
                                             exponent := p.poly.exponent } })
    other := s.other.map (fun p => { terms := p.terms.map (fun t => (f t.1, t.2))
                                     exponent := p.exponent }) }

/-- `iterative.py:14-64` `primary_decomposition_polynomial` for more than one index, applied to all
polynomials of a sector by `primary_decomposition` (`iterative.py:66-118`): the column of the
variable is deleted. -/
def primaryDecomposition (s : Sector (n+1) R E) (indices : List (Fin (n+1))) : List (Sector n R E) :=
  indices.map (fun i => Sector.mapExpo (deleteCol i) s)

/-- The same for a single index (`iterative.py:43-48`): the number of variables is kept and the
exponents of the variable are set to zero. -/
def primaryDecompositionSingle (s : Sector n R E) (index : Fin n) : List (Sector n R E) :=
  [Sector.mapExpo (zeroCol index) s]

/-- `geometric.py:15-41` `Cheng_Wu`: `replace(index, 1, remove)` of all polynomials
(`algebra.py:701-755`; the branch for the value `1` keeps the coefficients).  For more than one
variable the variable is removed. -/
def chengWu (s : Sector (n+1) R E) (index : Fin (n+1)) : Sector n R E :=
  Sector.mapExpo (deleteCol index) s

/-- `Cheng_Wu` for a sector with one variable only (`geometric.py:34`): `remove = False`. -/
def chengWuSingle (s : Sector 1 R E) (index : Fin 1) : Sector 1 R E := Sector.mapExpo (zeroCol index) s

end SecDec.Decomp
