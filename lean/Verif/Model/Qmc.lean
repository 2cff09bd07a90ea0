import Mathlib.Data.Complex.Basic
import Mathlib.Algebra.BigOperators.Fin
import Mathlib.Data.Int.Log
import Mathlib.Algebra.Order.Round
import Mathlib.Data.Real.Archimedean

/-!
# Quasi-Monte-Carlo integration kernels of the distributed evaluator

`pySecDecContrib/disteval/common_cpu.h`, `common_cuda.h`, `builtin.cu`, `cudaworker.cpp` and the
kernel templates of `pySecDecContrib/bin/export_sector`.

Simplifications: real numbers are exact (`ℝ`, `ℂ`) in the integrand, the transforms and the
lattice points; floating-point rounding is modelled in `mulmod`, where the code relies on it.
The lattice walk uses unbounded naturals for `int64_t`/`uint64_t` values which never exceed
twice the lattice size; `mulmod` models wrap-around explicitly.  The generated integrand body is
a function of the integration variables that may fail (a sign check sets the result to NaN and
returns); parameters are constants of that function.
-/

namespace SecDec
namespace Qmc

open scoped BigOperators

/-! ## The integral transforms -/

/-- `SecDecInternalSqr` (common_cpu.h:60-61, :224). -/
def sqr {R : Type*} [Mul R] (a : R) : R := a * a

/-- The value of `qmcTransform`: the names of the functions `*_f`, `*_w` in
common_cpu.h:237-340 and common_cuda.h:64-110. -/
inductive Transform
  | none | baker
  | korobov1 | korobov2 | korobov3 | korobov4 | korobov5
  | korobov6 | korobov7 | korobov8 | korobov9 | korobov10
  deriving DecidableEq, Repr

/-- The polynomial `h` of the variable `y` in `korobovKxK_f` (common_cpu.h:245-340);
unused for `none` and `baker`. -/
def hpoly : Transform → ℝ → ℝ
  | .none, y => y
  | .baker, y => y
  | .korobov1, y =>
    let y2 := sqr y
    y2*(3 - 2*y)
  | .korobov2, y =>
    let y3 := y*sqr y
    y3*(10 + y*(-15 + 6*y))
  | .korobov3, y =>
    let y4 := sqr (sqr y)
    y4*(35 + y*(-84 + (70 - 20*y)*y))
  | .korobov4, y =>
    let y5 := y*sqr (sqr y)
    y5*(126 + y*(-420 + y*(540 + y*(-315 + 70*y))))
  | .korobov5, y =>
    let y6 := sqr (y*sqr y)
    y6*(462 + y*(-1980 + y*(3465 + y*(-3080 + (1386 - 252*y)*y))))
  | .korobov6, y =>
    let y7 := y*sqr (y*sqr y)
    y7*(1716 + y*(-9009 + y*(20020 + y*(-24024 + y*(16380 + y*(-6006 + 924*y))))))
  | .korobov7, y =>
    let y8 := sqr (sqr (sqr y))
    y8*(6435 + y*(-40040 + y*(108108 + y*(-163800 + y*(150150 + y*(-83160 + (25740 - 3432*y)*y))))))
  | .korobov8, y =>
    let y9 := y*sqr (sqr (sqr y))
    y9*(24310 + y*(-175032 + y*(556920 + y*(-1021020 + y*(1178100 + y*(-875160
      + y*(408408 + y*(-109395 + 12870*y))))))))
  | .korobov9, y =>
    let y10 := sqr (y*sqr (sqr y))
    y10*(92378 + y*(-755820 + y*(2771340 + y*(-5969040 + y*(8314020 + y*(-7759752
      + y*(4849845 + y*(-1956240 + (461890 - 48620*y)*y))))))))
  | .korobov10, y =>
    let y11 := y*sqr (y*sqr (sqr y))
    y11*(352716 + y*(-3233230 + y*(13430340 + y*(-33256080 + y*(54318264 + y*(-61108047
      + y*(47927880 + y*(-25865840 + y*(9189180 + y*(-1939938 + 184756*y))))))))))

/-- The functions `none_f`, `baker_f`, `korobovKxK_f` (common_cpu.h:237, :239, :245-340);
`vec_le_choose(x, 0.5, a, b)` (common_cpu.h:158-159, :179-183) is `x ≤ 1/2 ? a : b` per lane. -/
noncomputable def Transform.f (T : Transform) (x : ℝ) : ℝ :=
  match T with
  | .none => x
  | .baker => if 2*x < 2 - 2*x then 2*x else 2 - 2*x
  | T =>
    let y := if x ≤ 1/2 then x else 1 - x
    let h := hpoly T y
    if x ≤ 1/2 then h else 1 - h

/-- The functions `none_w`, `baker_w`, `korobovKxK_w` (common_cpu.h:238, :240, :242-335). -/
def Transform.w (T : Transform) (x : ℝ) : ℝ :=
  let u := (1 - x)*x
  match T with
  | .none => 1
  | .baker => 1
  | .korobov1 => 6*u
  | .korobov2 => 30*sqr u
  | .korobov3 => 140*u*sqr u
  | .korobov4 => 630*sqr (sqr u)
  | .korobov5 => 2772*u*sqr (sqr u)
  | .korobov6 => 12012*sqr (u*sqr u)
  | .korobov7 => 51480*u*sqr (u*sqr u)
  | .korobov8 => 218790*sqr (sqr (sqr u))
  | .korobov9 => 923780*u*sqr (sqr (sqr u))
  | .korobov10 => 3879876*sqr (u*sqr (sqr u))

/-! ## Integer powers -/

/-- `SecDecInternalNPowTemplate<n>` (common_cpu.h:69-80, common_cuda.h:47-58): recursion on
`n/2`, specialised at `n = 1`.  For `n = 0` the template recursion never ends (a compilation
error); the model returns `none`. -/
def npow {R : Type*} [Mul R] (n : ℕ) (x : R) : Option R :=
  if h0 : n = 0 then none
  else if n = 1 then some x
  else if n % 2 = 0 then (npow (n/2) x).map sqr
  else (npow (n/2) x).map fun y => sqr y * x
termination_by n
decreasing_by all_goals omega

/-! ## `mulmod` -/

/-- Rounding of a real number to a floating-point number with a 53-bit significand (IEEE-754
`double`, round to nearest; ties are rounded up, and the exponent range is not bounded: the
numbers in `mulmod` are at most `2^106`). -/
noncomputable def rnd (x : ℝ) : ℝ :=
  if x = 0 then 0
  else (round (x / (2:ℝ)^(Int.log 2 |x| - 52)) : ℝ) * (2:ℝ)^(Int.log 2 |x| - 52)

/-- The value of a 64-bit pattern as `int64_t`. -/
def toInt64 (u : ℕ) : ℤ := if u % 2^64 < 2^63 then (u % 2^64 : ℕ) else (u % 2^64 : ℕ) - 2^64

/-- `static_cast<uint64_t>` of a signed value. -/
def toUInt64 (i : ℤ) : ℕ := (i % 2^64).toNat

/-- `mulmod` (common_cpu.h:82-92, common_cuda.h:111-121).  `%` on `int64_t` truncates towards
zero (`Int.tmod`); `r+k` is computed in `uint64_t`. -/
noncomputable def mulmod (a b k : ℕ) : ℕ :=
  if k ≤ 3037000499 then ((a * b) % 2^64) % k
  else
    let x := rnd a
    let c : ℕ := ⌊rnd (rnd (x * rnd b) / rnd k)⌋₊ % 2^64
    -- `(a*b) - (c*k)` modulo `2^64`
    let diff : ℕ := ((a * b) % 2^64 + (2^64 - (c * k) % 2^64)) % 2^64
    let r : ℤ := (toInt64 diff).tmod (toInt64 k)
    if r < 0 then (toUInt64 r + k) % 2^64 else r.toNat

/-! ## Walking along the lattice -/

/-- `warponce_i` (common_cpu.h:51-52, common_cuda.h:124). -/
def warponceI (a b : ℕ) : ℕ := if b ≤ a then a - b else a

/-- `warponce` (common_cpu.h:161-163, :185-190, common_cuda.h:123). -/
noncomputable def warponce (a b : ℝ) : ℝ := if 0 ≤ a - b then a - b else a

/-- The arguments of a kernel (export_sector:463-471): the lattice size, the generating vector,
the shift, the transform, and the integrand body, which may fail a sign check. -/
structure Kernel (d : ℕ) where
  lattice : ℕ
  genvec : Fin d → ℕ
  shift : Fin d → ℝ
  transform : Transform
  body : (Fin d → ℝ) → Option ℂ

namespace Kernel
variable {d : ℕ} (K : Kernel d)

/-- `li_v = warponce_i(li_v + genvec[j], lattice)` for every integration variable
(export_sector:491, :644). -/
def next (li : Fin d → ℕ) : Fin d → ℕ := fun j => warponceI (li j + K.genvec j) K.lattice

/-- `li_v = mulmod(genvec[j], index, lattice)` (export_sector:486). -/
noncomputable def start (index : ℕ) : Fin d → ℕ := fun j => mulmod (K.genvec j) index K.lattice

/-- `v = warponce(li_v*invlattice + shift[j], 1)` (export_sector:481, :492-494, :643). -/
noncomputable def coords (li : Fin d → ℕ) : Fin d → ℝ :=
  fun j => warponce ((li j : ℝ) * (1 / (K.lattice : ℝ)) + K.shift j) 1

/-- The product of the weights of one lane (export_sector:496-499). -/
noncomputable def weight (x : Fin d → ℝ) : ℝ := ∏ j, K.transform.w (x j)

/-- The body evaluated at the transformed variables (export_sector:502-505). -/
noncomputable def value (x : Fin d → ℝ) : Option ℂ := K.body fun j => K.transform.f (x j)

/-- The loop of the CPU kernel (export_sector:488-507): four lanes per iteration, the weights of
the lanes 1 to 3 beyond `index2` are set to zero, a sign check that fails in any lane ends the
kernel with NaN (`none`). `acc` is the vector accumulator. -/
noncomputable def cpuLoop (index2 : ℕ) (index : ℕ) (li : Fin d → ℕ) (acc : Fin 4 → ℂ) :
    Option (Fin 4 → ℂ) :=
  if h : index < index2 then
    let l0 := li
    let l1 := K.next l0
    let l2 := K.next l1
    let l3 := K.next l2
    let x0 := K.coords l0
    let x1 := K.coords l1
    let x2 := K.coords l2
    let x3 := K.coords l3
    let w0 := K.weight x0
    let w1 := if index + 1 ≥ index2 then 0 else K.weight x1
    let w2 := if index + 2 ≥ index2 then 0 else K.weight x2
    let w3 := if index + 3 ≥ index2 then 0 else K.weight x3
    match K.value x0, K.value x1, K.value x2, K.value x3 with
    | some v0, some v1, some v2, some v3 =>
      cpuLoop index2 (index + 4) (K.next l3)
        ![acc 0 + w0 * v0, acc 1 + w1 * v1, acc 2 + w2 * v2, acc 3 + w3 * v3]
    | _, _, _, _ => none
  else some acc
termination_by index2 - index
decreasing_by omega

/-- The CPU kernel (export_sector:461-510): `none` is the result NaN. -/
noncomputable def cpu (index1 index2 : ℕ) : Option ℂ :=
  (K.cpuLoop index2 index1 (K.start index1) (fun _ => 0)).map
    fun acc => acc 0 + acc 1 + acc 2 + acc 3   -- `componentsum` (common_cpu.h:229-230)

/-! ### The CUDA kernel -/

/-- Addition of floating-point numbers one of which may be NaN. -/
def nanAdd : Option ℂ → Option ℂ → Option ℂ
  | some a, some b => some (a + b)
  | _, _ => none

/-- The loop of one CUDA thread (export_sector:641-655), `left` iterations left. -/
noncomputable def threadLoop (index2 : ℕ) : (left index : ℕ) → (li : Fin d → ℕ) → (val : ℂ) →
    Option ℂ
  | 0, _, _, val => some val
  | left+1, index, li, val =>
    if index < index2 then
      let x := K.coords li
      match K.value x with
      | some v => threadLoop index2 left (index + 1) (K.next li) (val + K.weight x * v)
      | none => none
    else some val

/-- One CUDA thread (export_sector:636-655); `mulmod` has its first two arguments swapped with
respect to the CPU kernel. -/
noncomputable def thread (index1 index2 bid tid : ℕ) : Option ℂ :=
  let index := index1 + (bid*128 + tid)*8
  K.threadLoop index2 8 index (fun j => mulmod index (K.genvec j) K.lattice) 0

/-- The sum of `n` values that may be NaN (`cub::BlockReduce::Sum`; the order of the summation
does not matter here). -/
def nanSum (n : ℕ) (v : ℕ → Option ℂ) : Option ℂ :=
  (List.range n).foldl (fun s i => nanAdd s (v i)) (some 0)

/-- The result of one block of 128 threads, `result[bid]` (export_sector:656-659). -/
noncomputable def block (index1 index2 bid : ℕ) : Option ℂ :=
  nanSum 128 fun tid => K.thread index1 index2 bid tid

/-- `result[bid] = sum` for the launched blocks (export_sector:659): the other elements of the
buffer of `cap` elements keep their contents, elements outside of it are not stored. -/
noncomputable def launch (index1 index2 blocks cap : ℕ) (buffer : ℕ → Option ℂ) : ℕ → Option ℂ :=
  fun bid => if bid < blocks ∧ bid < cap then K.block index1 index2 bid else buffer bid

end Kernel

open Kernel in
/-- One block of the summation kernel `sum_kernel` (builtin.cu:11-31): thread `tid` adds the
eight elements from `(bid*128 + tid)*8` on, those beyond `n` count as zero. -/
def sumBlock (src : ℕ → Option ℂ) (n bid : ℕ) : Option ℂ :=
  nanSum 128 fun tid =>
    let idx := (bid*128 + tid)*8
    let v := fun k => if idx + k < n then src (idx + k) else some 0
    nanAdd (nanAdd (nanAdd (v 0) (v 1)) (nanAdd (v 2) (v 3)))
      (nanAdd (nanAdd (v 4) (v 5)) (nanAdd (v 6) (v 7)))

/-- The launch of `sum_kernel` with `reduced` blocks: `dst[bid] = sum` (builtin.cu:30), where
`dst` has `cap` elements. -/
def sumLaunch (cap : ℕ) (dst src : ℕ → Option ℂ) (n reduced : ℕ) : ℕ → Option ℂ :=
  fun bid => if bid < reduced ∧ bid < cap then sumBlock src n bid else dst bid

/-- The two device buffers (cudaworker.cpp:493-494) and the flag `swapped`. -/
structure Buffers where
  buffer : ℕ → Option ℂ
  sumBuffer : ℕ → Option ℂ
  swapped : Bool

/-- The reduction loop (cudaworker.cpp:420-429): `sum_args` are (`sum_buffer_d`, `buffer_d`) if
`swapped` is false, and the reverse otherwise.  `cap` is the number of elements of `buffer_d`,
`sum_buffer_d` has `cap/1024` (cudaworker.cpp:44-45, :493-494). -/
def reduceLoop (cap blocks : ℕ) (b : Buffers) : Buffers :=
  if 1 < blocks then
    let reduced := (blocks + 1024 - 1)/1024
    reduceLoop cap reduced
      (if b.swapped then
        { b with buffer := sumLaunch cap b.buffer b.sumBuffer blocks reduced, swapped := false }
      else
        { b with sumBuffer := sumLaunch (cap/1024) b.sumBuffer b.buffer blocks reduced,
                 swapped := true })
  else b
termination_by blocks
decreasing_by omega

namespace Kernel
variable {d : ℕ} (K : Kernel d)

/-- The batch loop of the CUDA worker (cudaworker.cpp:416-442). `bpb` is `blocksperbatch`, the
number of elements of the buffer (cudaworker.cpp:399); `ptperbatch = bpb*128*8`. -/
noncomputable def cudaLoop (bpb index2 : ℕ) (hb : 0 < bpb) (i1 : ℕ)
    (buffer sumBuffer : ℕ → Option ℂ) (result : Option ℂ) : Option ℂ :=
  if h : i1 < index2 then
    let i2 := if i1 + bpb*(128*8) < index2 then i1 + bpb*(128*8) else index2
    let blocks := (i2 - i1 + 128*8 - 1)/(128*8)
    let r := reduceLoop bpb blocks ⟨K.launch i1 i2 blocks bpb buffer, sumBuffer, false⟩
    cudaLoop bpb index2 hb (i1 + bpb*(128*8)) r.buffer r.sumBuffer
      (nanAdd result ((if r.swapped then r.sumBuffer else r.buffer) 0))
  else result
termination_by index2 - i1
decreasing_by omega

/-- The integration command of the CUDA worker (cudaworker.cpp:397-451); the buffers are zeroed
first (cudaworker.cpp:408-409). -/
noncomputable def cuda (bpb : ℕ) (hb : 0 < bpb) (index1 index2 : ℕ) : Option ℂ :=
  K.cudaLoop bpb index2 hb index1 (fun _ => some 0) (fun _ => some 0) (some 0)

end Kernel

/-! ## The estimates of the evaluator -/

/-- `np.mean` over the shifts (disteval.py:759). -/
noncomputable def npMean {m : ℕ} (v : Fin m → ℂ) : ℂ := (∑ k, v k) / m

/-- `np.var` of the real or imaginary parts (disteval.py:761): the mean of the squared distances from the mean. -/
noncomputable def npVar {m : ℕ} (x : Fin m → ℝ) : ℝ := (∑ k, (x k - (∑ l, x l) / m)^2) / m

/-- `new_kern_val` (disteval.py:759-760) from the results of the kernel for each shift; `lattice` is an element of the array of
floating-point numbers `lattices`. -/
noncomputable def kernVal {m : ℕ} (lattice : ℝ) (v : Fin m → ℂ) : ℂ := npMean v / lattice

/-- `new_kern_var` (disteval.py:761-762): the variances of the real and of the imaginary part. -/
noncomputable def kernVar {m : ℕ} (lattice : ℝ) (v : Fin m → ℂ) : ℂ :=
  ((npVar (fun k => (v k).re) : ℂ) + Complex.I * (npVar (fun k => (v k).im) : ℂ)) / ((lattice : ℂ)^2 * m)

/-- The lattice size sent to the worker, `int(lattices[idx])` (disteval.py:614). -/
noncomputable def intLattice (lattice : ℝ) : ℕ := ⌊lattice⌋₊

/-- `<=` of numpy for complex numbers: lexicographic. -/
noncomputable def complexLe (a b : ℂ) : Bool := open Classical in decide (a.re < b.re ∨ a.re = b.re ∧ a.im ≤ b.im)

/-- The update of `kern_val`, `kern_var` (disteval.py:778-780) for a kernel that has been integrated; `none` is the initial
variance, infinity (disteval.py:590). -/
noncomputable def luckyUpdate (old : ℂ × Option ℂ) (new : ℂ × ℂ) : ℂ × Option ℂ :=
  match old.2 with
  | none => (new.1, some new.2)
  | some ov => if complexLe new.2 ov then (new.1, some new.2) else old

/-- The proposal of a lattice size for one kernel in the first phase (disteval.py:653-666), where `ratio` is the factor
`(kern_absvar/kern_maxvar)**(1/scaling)`. -/
noncomputable def propose1 (lattice ratio : ℝ) : ℝ :=
  let n := min (max (lattice * ratio) lattice) (lattice * 20)
  if lattice < n ∧ n < lattice * 2 then lattice * 2 else n

end Qmc
end SecDec
