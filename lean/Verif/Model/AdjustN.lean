import Mathlib.Analysis.SpecialFunctions.Pow.Real
import Mathlib.Data.Fintype.Powerset
import Mathlib.Algebra.Order.Floor.Ring
/-
Model of `adjust_1d_n` and `adjust_n` of `pySecDec/disteval.py:286-344`, which choose the numbers of
samples of all the kernels.

Simplification: floating point numbers are modelled as real numbers, so the `isinf`/`isnan`
assertions are not modelled; numpy arrays are functions on a finite index type `ι`; boolean masks are
finite sets of indices; the log messages are dropped.
-/
namespace SecDec
namespace AdjustN
open Finset
noncomputable section
variable {ι : Type*} [Fintype ι] [DecidableEq ι]

/-- `W2[S] @ (w[S]/n[S]**a)`: the predicted variance contributed by the kernels in `S`. -/
def variance (W2 w : ι → ℝ) (a : ℝ) (S : Finset ι) (n : ι → ℝ) : ℝ := ∑ i ∈ S, W2 i * (w i / n i ^ a)

/-- `n[S] *= (1/VV * (W2[S] @ (w[S]/n[S]**a)))**(1/a)`. -/
def rescale (W2 w : ι → ℝ) (a VV : ℝ) (S : Finset ι) (n : ι → ℝ) : ι → ℝ :=
  fun i => if i ∈ S then n i * (1 / VV * variance W2 w a S n) ^ (1 / a) else n i

/-- `n[mask] = bound[mask]` -/
def setMask (mask : Finset ι) (bound n : ι → ℝ) : ι → ℝ := fun i => if i ∈ mask then bound i else n i

/-- How a loop is left: `ret n` is a `return n` (an array of floats), `next n` a `break` with the
array `n`, `fail` an `AssertionError`. -/
inductive Res (ι : Type*)
  | ret (n : ι → ℝ)
  | next (n : ι → ℝ)
  | fail

theorem not_mem_of_gt {mask : Finset ι} {bound n : ι → ℝ} {W2 w : ι → ℝ} {a VV : ℝ} {i : ι}
    (h : bound i < rescale W2 w a VV maskᶜ (setMask mask bound n) i) : i ∉ mask := by
  intro hi; simp [rescale, setMask, hi] at h

theorem not_mem_of_lt {mask : Finset ι} {bound n : ι → ℝ} {W2 w : ι → ℝ} {a VV : ℝ} {i : ι}
    (h : rescale W2 w a VV maskᶜ (setMask mask bound n) i < bound i) : i ∉ mask := by
  intro hi; simp [rescale, setMask, hi] at h

theorem card_compl_lt {mask add : Finset ι} (h : add ≠ ∅) (hd : ∀ i ∈ add, i ∉ mask) :
    #((mask ∪ add)ᶜ) < #(maskᶜ) := by
  apply Finset.card_lt_card
  rw [Finset.ssubset_iff_of_subset (by rw [Finset.compl_subset_compl]; exact Finset.subset_union_left)]
  obtain ⟨i, hi⟩ := Finset.nonempty_iff_ne_empty.2 h
  exact ⟨i, by simp [hd i hi], by simp [hi]⟩

open Classical in
/-- The loop "Enforce nmax, raising the rest", disteval.py:300-318. -/
def nmaxLoop (W2 w : ι → ℝ) (V a : ℝ) (nmax : ι → ℝ) (mask : Finset ι) (n : ι → ℝ) : Res ι :=
  if mask = ∅ then .next (setMask mask nmax n)
  else if mask = univ then .ret (setMask mask nmax n)
  else if V - variance W2 w a mask (setMask mask nmax n) < 0 then .ret (setMask mask nmax n)
  else if V - variance W2 w a mask (setMask mask nmax n) = 0 then .fail
  else
    if h : univ.filter (fun i => nmax i < rescale W2 w a (V - variance W2 w a mask (setMask mask nmax n))
        maskᶜ (setMask mask nmax n) i) = ∅ then
      .next (rescale W2 w a (V - variance W2 w a mask (setMask mask nmax n)) maskᶜ (setMask mask nmax n))
    else
      nmaxLoop W2 w V a nmax
        (mask ∪ univ.filter (fun i => nmax i < rescale W2 w a (V - variance W2 w a mask (setMask mask nmax n))
          maskᶜ (setMask mask nmax n) i))
        (rescale W2 w a (V - variance W2 w a mask (setMask mask nmax n)) maskᶜ (setMask mask nmax n))
termination_by #maskᶜ
decreasing_by
  exact card_compl_lt h fun i hi => not_mem_of_gt (Finset.mem_filter.1 hi).2

open Classical in
/-- The loop "Enforce nmin, lowering the rest where possible", disteval.py:320-331; `np.clip(x, 0, inf)`
is `max x 0`. -/
def nminLoop (W2 w : ι → ℝ) (V a : ℝ) (nmin : ι → ℝ) (mask : Finset ι) (n : ι → ℝ) : Res ι :=
  if mask = ∅ then .next (setMask mask nmin n)
  else if mask = univ then .ret (setMask mask nmin n)
  else
    if h : univ.filter (fun i => rescale W2 w a (max (V - variance W2 w a mask (setMask mask nmin n)) 0)
        maskᶜ (setMask mask nmin n) i < nmin i) = ∅ then
      .next (rescale W2 w a (max (V - variance W2 w a mask (setMask mask nmin n)) 0) maskᶜ (setMask mask nmin n))
    else
      nminLoop W2 w V a nmin
        (mask ∪ univ.filter (fun i => rescale W2 w a (max (V - variance W2 w a mask (setMask mask nmin n)) 0)
          maskᶜ (setMask mask nmin n) i < nmin i))
        (rescale W2 w a (max (V - variance W2 w a mask (setMask mask nmin n)) 0) maskᶜ (setMask mask nmin n))
termination_by #maskᶜ
decreasing_by
  exact card_compl_lt h fun i hi => not_mem_of_lt (Finset.mem_filter.1 hi).2

/-- The unconstrained start value, disteval.py:293-295. -/
def start (W2 w : ι → ℝ) (V a : ℝ) (tau : ι → ℝ) : ι → ℝ :=
  rescale W2 w a V univ fun i => (w i / tau i * W2 i) ^ (1 / (a + 1))

open Classical in
/-- `mask = (n > nmax)` and the first loop, skipped with median lattices, disteval.py:298-318. -/
def stageMax (W2 w : ι → ℝ) (V a : ℝ) (nmax : ι → ℝ) (allowMedian : Bool) (n : ι → ℝ) : Res ι :=
  if allowMedian then .next n
  else nmaxLoop W2 w V a nmax (univ.filter fun i => nmax i < n i) n

open Classical in
/-- `mask = (n < nmin)`, the second loop and the assertion `n >= nmin`, disteval.py:319-333. -/
def stageMin (W2 w : ι → ℝ) (V a : ℝ) (nmin : ι → ℝ) (n : ι → ℝ) : Res ι :=
  match nminLoop W2 w V a nmin (univ.filter fun i => n i < nmin i) n with
  | .next n => if ∀ i, nmin i ≤ n i then .next n else .fail
  | r => r

open Classical in
/-- `adjust_1d_n` up to the final conversion `n.astype(int)`, disteval.py:286-333. The asserted
positivity of the arguments is checked first, lines 287-290. -/
def adjust1dReal (W2 : ι → ℝ) (V : ℝ) (w : ι → ℝ) (a : ℝ) (tau nmin nmax : ι → ℝ) (allowMedian : Bool) : Res ι :=
  if ¬ ((∀ i, 0 < W2 i) ∧ (∀ i, 0 < w i) ∧ (∀ i, 0 < tau i) ∧ (∀ i, 0 < nmin i)) then .fail
  else if variance W2 w a univ nmin ≤ V then .ret nmin
  else
    match stageMax W2 w V a nmax allowMedian (start W2 w V a tau) with
    | .next n => stageMin W2 w V a nmin n
    | r => r

/-- `adjust_1d_n`, disteval.py:286-334: `n.astype(int)` truncates the (positive) numbers; the
early `return`s do not convert. `none` = `AssertionError`. -/
def adjust1d (W2 : ι → ℝ) (V : ℝ) (w : ι → ℝ) (a : ℝ) (tau nmin nmax : ι → ℝ) (allowMedian : Bool) :
    Option (ι → ℝ) :=
  match adjust1dReal W2 V w a tau nmin nmax allowMedian with
  | .ret n => some n
  | .next n => some fun i => (⌊n i⌋ : ℝ)
  | .fail => none

/-- The kernels selected by `mask = (w != 0) & (W2[i,:] != 0)`, disteval.py:341. -/
def Active (w W2 : ι → ℝ) : Type _ := {i // w i ≠ 0 ∧ W2 i ≠ 0}

instance (w W2 : ι → ℝ) : Fintype (Active w W2) := by
  classical exact inferInstanceAs (Fintype {i // w i ≠ 0 ∧ W2 i ≠ 0})
instance (w W2 : ι → ℝ) : DecidableEq (Active w W2) := Classical.decEq _

open Classical in
/-- the loop body of `adjust_n`, disteval.py:341-343. -/
def adjustRow (w : ι → ℝ) (a : ℝ) (tau nmax : ι → ℝ) (allowMedian : Bool) (n : ι → ℝ) (row : (ι → ℝ) × ℝ) :
    Option (ι → ℝ) :=
  if ∃ i, w i ≠ 0 ∧ row.1 i ≠ 0 then
    (adjust1d (ι := Active w row.1) (fun i => row.1 i.1) row.2 (fun i => w i.1) a (fun i => tau i.1)
      (fun i => n i.1) (fun i => nmax i.1) allowMedian).map fun m =>
        fun i => if h : w i ≠ 0 ∧ row.1 i ≠ 0 then m ⟨i, h⟩ else n i
  else some n

/-- `adjust_n`, disteval.py:336-344; `rows` are the pairs `(W2[i,:], V[i])` in the order of the loop
(from the last to the first). -/
def adjustN (rows : List ((ι → ℝ) × ℝ)) (w : ι → ℝ) (a : ℝ) (tau nmin nmax : ι → ℝ) (allowMedian : Bool) :
    Option (ι → ℝ) :=
  rows.foldlM (adjustRow w a tau nmax allowMedian) nmin

end
end AdjustN
end SecDec
