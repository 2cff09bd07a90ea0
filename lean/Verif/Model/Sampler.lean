import Mathlib.Analysis.SpecialFunctions.Pow.Real
import Mathlib.Data.Complex.BigOperators
import Mathlib.Data.Finset.Max
/-
Model of the sampling of the quasi-Monte Carlo integrator (pySecDecContrib/qmc.hpp): the work packages, the worker threads, the reduction of
their results, and the loop which increases the numbers of lattice points and shifts.  Real numbers are exact; `U` is not bounded (the checks
for large `n` are modelled as an exception).
-/
namespace SecDec
namespace Sampler

/-! ### The work packages -/

/-- `for( U offset = i; offset < n; offset += total_work_packages )` (`qmc.hpp:2152`). -/
def offsets (packages n : ℕ) (offset : ℕ) : List ℕ :=
  if h : offset < n ∧ 0 < packages then offset :: offsets packages n (offset + packages) else []
termination_by n - offset

/-- `batchsize` of the package `i` (`qmc.hpp:2145`). -/
def batchSize (packages n i : ℕ) : ℕ := n / packages + if i < n % packages then 1 else 0

/-- The rows of the array `x` after the loop over the offsets, with `batching` (`qmc.hpp:2148-2163`): which lattice point is in which row.
`none` is a write behind the end of the array; a row `none` is not written. -/
def batchRows (packages n i : ℕ) : Option (List (Option ℕ)) :=
  (offsets packages n i).foldlM (fun x o => if o / packages < x.length then some (x.set (o / packages) (some o)) else none)
    (List.replicate (batchSize packages n i) none)

/-- The point of the lattice (`qmc.hpp:2156-2163`): `modf(mul_mod(offset, z, n)/n + d)`.  (`mul_mod` is the exact remainder here.) -/
noncomputable def point {d : ℕ} (z : Fin d → ℕ) (n : ℕ) (shift : Fin d → ℝ) (offset : ℕ) : Fin d → ℝ :=
  fun s => Int.fract (((offset * z s % n : ℕ) : ℝ) / n + shift s)

/-- `points_per_package` and `total_work_packages` (`qmc.hpp:2760-2762`). -/
def totalPackages (maxnperpackage n : ℕ) : ℕ :=
  let pointsPerPackage := min maxnperpackage n
  n / pointsPerPackage + if n % pointsPerPackage ≠ 0 then 1 else 0

/-! ### The worker threads -/

/-- What the threads of one call share (`qmc.hpp:2667`): the number of threads (`r_size_over_m`), of shifts, of points, of packages, and the
values of the integrand, for the shift `k` and the lattice point `offset`. -/
structure Job where
  threads : ℕ
  m : ℕ
  n : ℕ
  packages : ℕ
  val : ℕ → ℕ → ℂ

/-- The additions which `compute` makes for the package `i`, in their order: the shift and the lattice point (`qmc.hpp:2150-2169`). -/
def Job.package (J : Job) (i : ℕ) : List (ℕ × ℕ) :=
  (List.range J.m).flatMap fun k => (offsets J.packages J.n i).map fun o => (k, o)

/-- The additions for the packages `i, ..., i + w - 1`: for a CPU thread `w = 1` (`qmc.hpp:2685`), for a GPU these are done by its kernel
(`qmc.hpp:1729-1753`).  (The threads of a GPU add into separate places, which are summed at the end, `qmc.hpp:2071`; here in one place, one after
another.) -/
def Job.chunk (J : Job) (i w : ℕ) : List (ℕ × ℕ) := (List.range w).flatMap fun a => J.package (i + a)

/-- The state of a worker (`qmc.hpp:2667-2747`); `w` is `work_this_iteration`. -/
inductive Thread where
  | idle (w : ℕ)
  | busy (w : ℕ) (todo : List (ℕ × ℕ))
  | loaded (w : ℕ) (reg : ℂ) (k o : ℕ) (todo : List (ℕ × ℕ))
  | done

/-- The shared state: the work queue, the results, the threads. -/
structure State (T : ℕ) where
  queue : ℕ
  r : ℕ → ℂ
  thread : Fin T → Thread

/-- The place `r_element[k*r_size_over_m]` with `r_element = &r[thread_id]` (`qmc.hpp:2168`, `2724`). -/
def Job.place (J : Job) (j k : ℕ) : ℕ := j + k * J.threads

/-- One step of one thread.  The access to the queue is guarded by a mutex (`qmc.hpp:2699-2716`) and is one step; the addition `r += point` is a
read and a write. -/
inductive Step (J : Job) : State J.threads → State J.threads → Prop where
  /-- `work_queue == 0` (`qmc.hpp:2700-2704`). -/
  | finish (s : State J.threads) (j : Fin J.threads) (w : ℕ) (h : s.thread j = .idle w) (h0 : s.queue = 0) :
      Step J s { s with thread := Function.update s.thread j .done }
  /-- `work_queue >= work_this_iteration` (`qmc.hpp:2705-2709`). -/
  | take (s : State J.threads) (j : Fin J.threads) (w : ℕ) (h : s.thread j = .idle w) (h0 : s.queue ≠ 0) (hw : w ≤ s.queue) :
      Step J s { s with queue := s.queue - w, thread := Function.update s.thread j (.busy w (J.chunk (s.queue - w) w)) }
  /-- The last, smaller chunk (`qmc.hpp:2710-2715`). -/
  | takeRest (s : State J.threads) (j : Fin J.threads) (w : ℕ) (h : s.thread j = .idle w) (h0 : s.queue ≠ 0) (hw : s.queue < w) :
      Step J s { s with queue := 0, thread := Function.update s.thread j (.busy s.queue (J.chunk 0 s.queue)) }
  /-- The read of `r_element[k*r_size_over_m] += wgt*point` (`qmc.hpp:2168`). -/
  | load (s : State J.threads) (j : Fin J.threads) (w k o : ℕ) (todo : List (ℕ × ℕ)) (h : s.thread j = .busy w ((k, o) :: todo)) :
      Step J s { s with thread := Function.update s.thread j (.loaded w (s.r (J.place j k)) k o todo) }
  /-- The write. -/
  | store (s : State J.threads) (j : Fin J.threads) (w k o : ℕ) (reg : ℂ) (todo : List (ℕ × ℕ)) (h : s.thread j = .loaded w reg k o todo) :
      Step J s { s with r := Function.update s.r (J.place j k) (reg + J.val k o), thread := Function.update s.thread j (.busy w todo) }
  /-- The end of the body of the loop (`qmc.hpp:2733-2735`). -/
  | next (s : State J.threads) (j : Fin J.threads) (w : ℕ) (h : s.thread j = .busy w []) :
      Step J s { s with thread := Function.update s.thread j (.idle w) }

/-- The state before the threads are started (`qmc.hpp:2660-2664`, `2684-2693`); `work j` is the initial `work_this_iteration`. -/
def Job.init (J : Job) (work : Fin J.threads → ℕ) : State J.threads where
  queue := J.packages
  r := fun _ => 0
  thread := fun j => .idle (work j)

/-- The computation without threads (`qmc.hpp:2833-2836`). -/
noncomputable def Job.serial (J : Job) : ℕ → ℂ :=
  ((List.range J.packages).flatMap J.package).foldl (fun r t => Function.update r (J.place 0 t.1) (r (J.place 0 t.1) + J.val t.1 t.2)) fun _ => 0

/-! ### The reduction -/

/-- `result<T>`. -/
structure Result where
  integral : ℂ
  error : ℂ
  n : ℕ
  m : ℕ
  iterations : ℕ
  evaluations : ℕ

/-- `compute_variance_complex` (`qmc.hpp:1302-1305`). -/
def computeVariance (mean variance sum delta : ℂ) : ℂ := variance + ⟨delta.re * (sum.re - mean.re), delta.im * (sum.im - mean.im)⟩

/-- `compute_error_complex` (`qmc.hpp:1308-1313`). -/
noncomputable def computeError (v : ℂ) : ℂ := ⟨√|v.re|, √|v.im|⟩

/-- `compute_variance_from_error_complex` (`qmc.hpp:1316-1319`). -/
def varianceFromError (e : ℂ) : ℂ := ⟨e.re * e.re, e.im * e.im⟩

/-- The loop over the shifts (`qmc.hpp:2589-2602`). -/
noncomputable def reduceLoop (sums : List ℂ) (previous : ℕ) (mean variance : ℂ) : ℂ × ℂ :=
  match sums with
  | [] => (mean, variance)
  | sum :: l =>
    let delta := sum - mean
    let mean := mean + delta / ((previous + 1 : ℕ) : ℂ)
    reduceLoop l (previous + 1) mean (computeVariance mean variance sum delta)

/-- The sums of the shifts (`qmc.hpp:2588-2596`): `r.at(k*r_size/m+i)` for `i < r_size/m`. -/
noncomputable def shiftSums (r : ℕ → ℂ) (rsize m : ℕ) : List ℂ :=
  (List.range m).map fun k => ((List.range (rsize / m)).map fun i => r (k * rsize / m + i)).sum

/-- `reduce` (`qmc.hpp:2557-2610`); the list of the previous iterations has the last one first. -/
noncomputable def reduce (r : ℕ → ℂ) (rsize n m : ℕ) (previous : List Result) : Result × List Result :=
  let (mean, variance, previousM, iterations, evaluations, rest) : ℂ × ℂ × ℕ × ℕ × ℕ × List Result :=
    match previous with
    | [] => (0, 0, 0, 0, 0, [])
    | p :: l =>
      if p.n = n then
        (p.integral * n, varianceFromError p.error * (((p.m : ℂ) - 1) * p.m * p.n * p.n), p.m, p.iterations, p.evaluations, l)
      else (0, 0, 0, p.iterations, p.evaluations, p :: l)
  let (mean, variance) := reduceLoop (shiftSums r rsize m) previousM mean variance
  let M := m + previousM
  let res : Result :=
    { integral := mean / n, error := computeError (variance / (((M : ℂ) - 1) * M * n * n)), n := n, m := M, iterations := 1 + iterations,
      evaluations := n * m + evaluations }
  (res, res :: rest)

/-- `shifts` in the iteration (`qmc.hpp:2773-2782`). -/
def shiftsOf (m maxmperpackage iteration : ℕ) : ℕ :=
  if iteration = (m + maxmperpackage - 1) / maxmperpackage - 1 then
    (if m % maxmperpackage = 0 then min m maxmperpackage else m % maxmperpackage)
  else min m maxmperpackage

/-- The loop of `sample` over the iterations (`qmc.hpp:2775-2923`), from the iteration `it` on; `rs` are the arrays `r` after the threads of an
iteration have ended. -/
noncomputable def sampleLoop (threads : ℕ) (rs : ℕ → ℕ → ℂ) (n m maxm : ℕ) : List ℕ → Option Result → List Result → Option Result × List Result
  | [], res, previous => (res, previous)
  | it :: l, _, previous =>
    let out := reduce (rs it) (shiftsOf m maxm it * threads) n (shiftsOf m maxm it) previous
    sampleLoop threads rs n m maxm l (some out.1) out.2

/-- `sample` (`qmc.hpp:2752-2925`). -/
noncomputable def sample (threads : ℕ) (rs : ℕ → ℕ → ℂ) (n m maxm : ℕ) (previous : List Result) : Option Result × List Result :=
  sampleLoop threads rs n m maxm (List.range ((m + maxm - 1) / maxm)) none previous

/-! ### The loop of the integrator -/

/-- The options of the integrator. -/
structure Options where
  minn : ℕ
  minm : ℕ
  maxmperpackage : ℕ
  maxeval : ℕ
  epsrel : ℝ
  epsabs : ℝ
  /-- `errormode`: `all` or `largest`. -/
  largest : Bool
  /-- The sizes of the generating vectors (fixed: `keeplattices` is not modelled). -/
  sizes : Finset ℕ
  latticecandidates : ℕ
  /-- The bound of the checks at `qmc.hpp:3297-3301`. -/
  limit : ℕ

/-- `std::min(error/epsabs, error/scale)` (`qmc.hpp:1328-1329`, `1334-1337`): a division by zero gives infinity or (`0/0`) a NaN, for which `std::min`
returns its first argument. -/
noncomputable def minRatio (error epsabs scale : ℝ) : ℝ := if scale = 0 then error / epsabs else min (error / epsabs) (error / scale)

/-- `compute_error_ratio_complex` (`qmc.hpp:1322-1343`). -/
noncomputable def errorRatio (O : Options) (res : Result) : ℝ :=
  if O.largest then minRatio (max res.error.re res.error.im) O.epsabs (max |res.integral.re| |res.integral.im| * O.epsrel)
  else max (minRatio res.error.re O.epsabs |res.integral.re * O.epsrel|) (minRatio res.error.im O.epsabs |res.integral.im * O.epsrel|)

/-- `get_next_n` (`qmc.hpp:3281-3304`); `none` is an exception.  (`rbegin()` of an empty table is undefined, here an exception.) -/
def getNextN (O : Options) (preferred : ℕ) : Option ℕ :=
  let above := O.sizes.filter (preferred ≤ ·)
  let n : Option ℕ :=
    if h : above.Nonempty then some (above.min' h)
    else if O.latticecandidates > 0 then some preferred
    else if h : O.sizes.Nonempty then some (O.sizes.max' h) else none
  n.bind fun n => if n ≥ O.limit then none else some n

/-- `update` (`qmc.hpp:3225-3278`). -/
noncomputable def update (O : Options) (res : Result) (n m : ℕ) : Option (ℕ × ℕ) :=
  let ratio := min (errorRatio O res) 20
  if ratio < 1 then some (n, m)
  else if res.evaluations > O.maxeval then some (n, m)
  else
    (getNextN O ⌊(n : ℝ) * ratio ^ (1 / (0.8 : ℝ))⌋₊).bind fun newN =>
      let (newN, newM) : ℕ × ℕ :=
        if newN ≤ n ∨ ratio * ratio - 1 < (newN : ℝ) / n then (n, ⌊(m : ℝ) * ratio * ratio⌋₊ + 1 - m) else (newN, O.minm)
      (if O.maxeval < res.evaluations + newN * newM then
          (getNextN O ((O.maxeval - res.evaluations) / newM)).map (max n)
        else some newN).bind fun newN =>
          let newM :=
            if n = newN ∧ O.maxeval < res.evaluations + newN * newM then max 1 ((O.maxeval - res.evaluations) / newN) else newM
          some (newN, newM)

/-- The loop `do ... while` (`qmc.hpp:3334-3342`); `rs call n m it` is the array `r` after the threads of iteration `it` of the call of `sample` for the
lattice size `n` and `m` shifts (it depends on the random numbers).  The outer `none` is that the fuel is used up, the inner one an exception. -/
noncomputable def integrateLoop (O : Options) (threads : ℕ) (rs : ℕ → ℕ → ℕ → ℕ → ℕ → ℂ) :
    ℕ → ℕ → ℕ → ℕ → List Result → Option (Option Result)
  | 0, _, _, _, _ => none
  | fuel + 1, call, n, m, previous =>
    match sample threads (rs call n m) n m O.maxmperpackage previous with
    | (none, _) => some none
    | (some res, previous) =>
      match update O res n m with
      | none => some none
      | some (n', m') =>
        if errorRatio O res > 1 ∧ res.evaluations < O.maxeval then integrateLoop O threads rs fuel (call + 1) n' m' previous
        else some (some res)

/-- `integrate_no_fit_no_transform` (`qmc.hpp:3306-3354`); the checks of the options are hypotheses of the theorems. -/
noncomputable def integrate (O : Options) (threads : ℕ) (rs : ℕ → ℕ → ℕ → ℕ → ℕ → ℂ) (fuel : ℕ) : Option (Option Result) :=
  match getNextN O O.minn with
  | none => some none
  | some n => integrateLoop O threads rs fuel 0 n O.minm []

/-! ### The median lattice rule -/

/-- The candidates of `get_median_z` (`qmc.hpp:3371-3417`) after their values `results` are known: `latticecandidates` is odd; the index of the first
candidate whose value is the median; `none` is the exception "unexpected median". -/
noncomputable def medianIndex (results : List ℝ) : Option ℕ :=
  let sorted := results.mergeSort (fun a b => decide (a ≤ b))
  (sorted[results.length / 2]?).bind fun median => results.findIdx? fun v => decide (v = median)

end Sampler
end SecDec
