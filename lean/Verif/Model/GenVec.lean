import Verif.Model.GenVecTables
import Mathlib.Data.Nat.Notation
import Mathlib.Data.Int.Notation
/-
Model of `pySecDec/generating_vectors.py:generating_vector` and `max_lattice_size`.

`minsize` is the integer `np.int64(minsize)`: a floating point argument is truncated by that
conversion before anything else happens.
-/
namespace SecDec
namespace GenVec

/-- `a.searchsorted(v)` of a sorted array: numpy's documented result is the index `i` with
`a[i-1] < v <= a[i]`, that is the position of the first element that is `>= v`. -/
def searchsorted (a : List ℕ) (v : ℤ) : ℕ := a.findIdx fun x : ℕ => decide (v ≤ (x : ℤ))

/-- `generating_vector`, generating_vectors.py:206-215; `none` = `ValueError`. -/
def generatingVector (nvariables : ℕ) (minsize : ℤ) : Option (ℕ × List ℕ) :=
  if nvariables ≤ 100 ∧ searchsorted dn1Lattice minsize < dn1Gv.length then
    some (dn1Lattice.getD (searchsorted dn1Lattice minsize) 0,
      (dn1Gv.getD (searchsorted dn1Lattice minsize) []).take nvariables)
  else if nvariables ≤ 10 ∧ searchsorted cfftw2Lattice minsize < cfftw2Gv.length then
    some (cfftw2Lattice.getD (searchsorted cfftw2Lattice minsize) 0,
      (cfftw2Gv.getD (searchsorted cfftw2Lattice minsize) []).take nvariables)
  else none

/-- `max_lattice_size`, generating_vectors.py:217-222; `none` = `ValueError`. -/
def maxLatticeSize (nvariables : ℕ) : Option ℕ :=
  if nvariables ≤ 10 then cfftw2Lattice.getLast?
  else if nvariables ≤ 100 then dn1Lattice.getLast?
  else none

end GenVec
end SecDec
