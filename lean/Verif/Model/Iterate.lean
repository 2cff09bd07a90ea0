import Verif.Model.GenVec
import Verif.Model.Qmc

/-!
# Model of the loop over lattice sizes, `iterate_integration` in `pySecDec/disteval.py:do_eval`

Floating point numbers are idealised as real numbers, `nan` and `inf` are `none`. What comes from outside — random numbers, the answers of the
workers, the clock, the proposed lattice sizes — is an argument (`Round`). The logging is left out.
-/

namespace SecDec
namespace Iterate
open GenVec Qmc

/-- The arguments of `do_eval` that the loop uses, for `k` kernels and `m` random shifts. -/
structure Config (k m : ℕ) where
  /-- `dims`, disteval.py:577 -/
  dims : Fin k → ℕ
  /-- `lattice_candidates` -/
  candidates : ℕ
  /-- `standard_lattices` -/
  standard : Bool

/-- disteval.py:434-435. -/
def Config.normalize {k m : ℕ} (c : Config k m) : Config k m :=
  let c := if c.candidates = 0 then { c with standard := true } else c
  if 0 < c.candidates ∧ c.candidates % 2 = 0 then { c with candidates := c.candidates + 1 } else c

/-- The arrays `lattices`, `oldlattices`, `genvecs`, `kern_val`, `kern_var` (disteval.py:578-590). -/
structure State (k : ℕ) where
  lattices : Fin k → ℝ
  old : Fin k → Option ℝ
  genvecs : Fin k → Option (List ℕ)
  val : Fin k → ℂ
  var : Fin k → Option ℂ

/-- What happens outside of the loop in one iteration. -/
structure Round (k m : ℕ) where
  /-- the random integers drawn for the component `j` of the candidate `s` of the kernel `i` -/
  randints : Fin k → ℕ → ℕ → List ℕ
  /-- the value of the integral with a candidate; `none` if it has not arrived (`nan`) -/
  candidateVal : Fin k → ℕ → Option ℂ
  /-- the values for all the shifts; `none` if they have not all arrived -/
  shiftVal : Fin k → Option (Fin m → ℂ)
  /-- `early_exit` at the end of the iteration -/
  early : Bool
  /-- the result of `propose_lattices` -/
  proposal : Option (Fin k → ℝ)

variable {k m : ℕ}

/-- disteval.py:576-590: the state at the beginning; `none` stands for `ValueError` (too many points or dimensions). -/
def init (c : Config k m) (npoints0 : ℤ) : Option (State k) :=
  if h : ∀ i, (generatingVector (c.dims i) npoints0).isSome ∧ (maxLatticeSize (c.dims i)).isSome then
    some { lattices := fun i => (((generatingVector (c.dims i) npoints0).get (h i).1).1 : ℝ)
           old := fun _ => none
           genvecs := fun i => some ((generatingVector (c.dims i) npoints0).get (h i).1).2
           val := fun _ => 0
           var := fun _ => none }
  else none

/-- `maxlattices`, disteval.py:580 (`init` has checked that there is one). -/
def maxLattice (c : Config k m) (i : Fin k) : ℝ := (((maxLatticeSize (c.dims i)).getD 0 : ℕ) : ℝ)

/-- `mask_todo`, disteval.py:703. -/
noncomputable def todo (st : State k) (i : Fin k) : Bool := open Classical in decide (st.old i ≠ some (st.lattices i))

/-- disteval.py:638-642, the inner function `rand`: the first of the random integers that is coprime to the lattice size `n` (the
variable starts with zero). `none`: the loop has not ended. -/
def rand (n : ℕ) (rs : List ℕ) : Option ℕ :=
  if Nat.gcd n 0 = 1 then some 0 else rs.find? (fun r => decide (Nat.gcd n r = 1))

/-- `genvec_candidates[(i, s)]`, disteval.py:643. -/
def candidate (c : Config k m) (e : Round k m) (n : ℕ) (i : Fin k) (s : ℕ) : Option (List ℕ) :=
  (List.range (c.dims i)).mapM (fun j => rand n (e.randints i s j))

/-- `signedMax`, disteval.py:723-726. -/
noncomputable def signedMax (x : ℂ) : ℝ := open Classical in if |x.im| < |x.re| then x.re else x.im

open Classical in
/-- `np.median` of a list of numbers: the middle one of the sorted numbers, or the mean of the two in the middle. -/
noncomputable def median (l : List ℝ) : ℝ :=
  let s := l.mergeSort (fun a b => decide (a ≤ b))
  if s.length % 2 = 1 then s.getD (s.length / 2) 0
  else (s.getD (s.length / 2 - 1) 0 + s.getD (s.length / 2) 0) / 2

open Classical in
/-- disteval.py:729-732: the last candidate whose value is the median; `genvecs[i]` is kept if there is none (if there is a `nan`). -/
noncomputable def select (cands : ℕ → Option (List ℕ)) (vals : ℕ → Option ℂ) (count : ℕ) (prev : Option (List ℕ)) : Option (List ℕ) :=
  match (List.range count).mapM vals with
  | none => prev
  | some vs =>
    let med := median (vs.map signedMax)
    (List.range count).foldl (fun g s => if (vals s).map signedMax = some med then cands s else g) prev

/-- The condition of disteval.py:708 and :728. -/
noncomputable def needsMedian (c : Config k m) (st : State k) (i : Fin k) : Bool :=
  open Classical in !c.standard || decide (maxLattice c i < st.lattices i)

/-- disteval.py:706-733: `genvecs` after the construction of lattices. A candidate whose random numbers are not complete has no value. -/
noncomputable def construct (c : Config k m) (e : Round k m) (st : State k) : State k :=
  if 0 < c.candidates then
    { st with genvecs := fun i =>
        if todo st i && needsMedian c st i then
          let n := intLattice (st.lattices i)
          select (candidate c e n i) (fun s => (candidate c e n i s).bind (fun _ => e.candidateVal i s)) c.candidates (st.genvecs i)
        else st.genvecs i }
  else st

/-- An integration job for the worker (disteval.py:612-616): kernel, number of points, generating vector. -/
structure Job (k : ℕ) where
  kernel : Fin k
  lattice : ℕ
  genvec : Option (List ℕ)

/-- disteval.py:737-740: the integration jobs of one iteration (once for every shift). -/
noncomputable def jobs (c : Config k m) (e : Round k m) (st : State k) : List (Job k) :=
  ((List.finRange k).filter (fun i => todo st i)).map
    (fun i => { kernel := i, lattice := intLattice (st.lattices i), genvec := (construct c e st).genvecs i })

/-- disteval.py:754-780: the values of the kernels that are done. -/
noncomputable def record (e : Round k m) (st : State k) : State k :=
  let upd := fun i => match e.shiftVal i with
    | some v => if todo st i then luckyUpdate (st.val i, st.var i) (kernVal (st.lattices i) v, kernVar (st.lattices i) v) else (st.val i, st.var i)
    | none => (st.val i, st.var i)
  { st with val := fun i => (upd i).1, var := fun i => (upd i).2 }

/-- The new size and generating vector of a kernel, disteval.py:810-815; a `ValueError` leaves both as they are. `np.int64(n)`
truncates. -/
noncomputable def lookup (c : Config k m) (n : Fin k → ℝ) (i : Fin k) : ℝ × Option (List ℕ) :=
  if c.standard then
    match generatingVector (c.dims i) ⌊n i⌋ with
    | some (N, v) => ((N : ℝ), some v)
    | none => (n i, none)
  else (n i, none)

/-- How an iteration ends. -/
inductive Outcome (k : ℕ) where
  | ret (st : State k)
  | next (st : State k)

open Classical in
/-- disteval.py:700-826: one iteration of `iterate_integration`. -/
noncomputable def step (c : Config k m) (e : Round k m) (st : State k) : Outcome k :=
  let st := record e (construct c e st)
  if e.early then .ret st
  else match e.proposal with
    | none => .ret { st with old := fun i => some (st.lattices i) }
    | some n =>
      let n' := fun i => (lookup c n i).1
      if ∀ i, n' i = st.lattices i then .ret st
      else .next { st with old := fun i => some (st.lattices i), lattices := n', genvecs := fun i => (lookup c n i).2 }

/-- `iterate_integration`, disteval.py:700-826: the jobs sent and the final state; `e t st` is what happens outside in the iteration `t` if the
state is `st`. `none` if it has not ended after `fuel` iterations. -/
noncomputable def iterate (c : Config k m) (e : ℕ → State k → Round k m) : ℕ → State k → Option (List (Job k) × State k)
  | 0, _ => none
  | fuel + 1, st =>
    match step c (e 0 st) st with
    | .ret st' => some (jobs c (e 0 st) st, st')
    | .next st' => (iterate c (fun t => e (t + 1)) fuel st').map (fun r => (jobs c (e 0 st) st ++ r.1, r.2))

/-- The sizes proposed in the second phase for one kernel after `adjust_n` (disteval.py:689-694): `n` is the result of `adjust_n`, `any` says
whether some kernel is too big. -/
noncomputable def finish2 (anyTooBig : Bool) (lattice n : ℝ) : ℝ :=
  open Classical in
  let n := min (max n lattice) (lattice * 20)
  if anyTooBig then
    let n := if lattice * 20 ≤ n then lattice * 20 else n
    if n < lattice * 2 then lattice else n
  else n

end Iterate
end SecDec
