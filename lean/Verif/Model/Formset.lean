import Mathlib.Data.Rat.Floor
import Mathlib.Data.Nat.Log
import Mathlib.Data.Nat.Digits.Defs

/-!
# Model of `pySecDec/formset.py`: memory settings for FORM

`make_package(..., form_memory_use=...)` and the command line tool `formset` choose the sizes of FORM's buffers.
All quantities are Python integers. Python's `//` with a positive divisor is `Int.ediv` (`/` below). The scale factors
`x` of `Setup.scale` are binary floating point numbers; the factors that can occur (at most fifty doublings,
halvings and bisections in total, starting at one) have at most fifty-one significant binary digits, so
they are exact in double precision and are modelled by rational numbers. The rounded product `int(n * x)` is left open:
it is the parameter `mul`.
-/

namespace SecDec.Formset

/-- formset.py 121-124, `round_down`. -/
def roundDown (x n : ℤ) : ℤ := x / n * n

/-- formset.py 127-130, `round_up`. -/
def roundUp (x n : ℤ) : ℤ := (x + (n - 1)) / n * n

/-- formset.py 281-337, the numeric fields of `Setup` that enter `Setup.calc`
(`_ptrsize = 8`, `_possize = 8`, `_wordsize = 4`, set in 324-327, are constants below; the fields 308-322 that `calc` does not
read are left out). -/
structure Setup where
  compresssize : ℤ
  filepatches : ℤ
  hidesize : ℤ
  largepatches : ℤ
  largesize : ℤ
  maxtermsize : ℤ
  numstorecaches : ℤ
  scratchsize : ℤ
  sizestorecache : ℤ
  smallextension : ℤ
  smallsize : ℤ
  sortiosize : ℤ
  termsinsmall : ℤ
  threadbucketsize : ℤ
  threads : ℤ
  threadscratchoutsize : ℤ
  threadscratchsize : ℤ
  workspace : ℤ
deriving DecidableEq

/-- formset.py 284-306, `Setup((4, 2, 0))`. -/
def Setup.v420 : Setup where
  compresssize := 90000
  filepatches := 256
  hidesize := 0
  largepatches := 256
  largesize := 50000000
  maxtermsize := 40000
  numstorecaches := 4
  scratchsize := 50000000
  sizestorecache := 32768
  smallextension := 20000000
  smallsize := 10000000
  sortiosize := 100000
  termsinsmall := 100000
  threadbucketsize := 500
  threads := -1
  threadscratchoutsize := 2500000
  threadscratchsize := 100000
  workspace := 40000000

/-- formset.py 329-337, `Setup((4, 2, 1))`. -/
def Setup.v421 : Setup :=
  { Setup.v420 with largesize := 1500000000, scratchsize := 500000000, smallextension := 600000000, smallsize := 300000000,
                    sortiosize := 200000, termsinsmall := 3000000 }

/-- formset.py 361-388: the constraints on the sizes that depend on `maxtermsize` only, the number of file patches and the rounding of
`termsinsmall`. -/
def Setup.adjustBasic (s : Setup) : Setup :=
  let s := { s with maxtermsize := max s.maxtermsize 200 }
  let s := { s with compresssize := max s.compresssize (2 * s.maxtermsize * 4) }
  let s := { s with sortiosize := max s.sortiosize (s.maxtermsize * 4) }
  let s := { s with scratchsize := max s.scratchsize (4 * s.maxtermsize * 4 ^ 2) }
  let s := if 0 < s.hidesize then { s with hidesize := max s.hidesize (4 * s.maxtermsize * 4 ^ 2) } else s
  let s := { s with threadscratchsize := max s.threadscratchsize (4 * s.maxtermsize * 4 ^ 2) }
  let s := { s with threadscratchoutsize := max s.threadscratchoutsize (4 * s.maxtermsize * 4 ^ 2) }
  let s := { s with filepatches := max s.filepatches s.threads }
  { s with termsinsmall := roundUp s.termsinsmall 16 }

/-- formset.py 390-396: the sort buffers must hold a block for every thread. -/
def Setup.adjustThreads (s : Setup) : Setup :=
  let n := 10 * 10
  if 0 ≤ s.threads then
    let minbufsize := s.threads * (1 + n) * s.maxtermsize * 4
    if s.largesize + s.smallextension < minbufsize then { s with largesize := minbufsize - s.smallextension } else s
  else s

/-- formset.py 398-408: file patches and the small buffer. -/
def Setup.adjustSmall (s : Setup) : Setup :=
  let s := { s with filepatches := max s.filepatches 4 }
  let s := { s with smallsize := max s.smallsize (16 * s.maxtermsize * 4) }
  let s := { s with smallextension := max s.smallextension (s.smallsize * 3 / 2) }
  if 0 < s.largesize then { s with largesize := max s.largesize (2 * s.smallsize) } else s

/-- formset.py 409-417: the buffers must hold a block for every file patch. -/
def Setup.adjustPatches (s : Setup) : Setup :=
  let compinc := 2
  let minbufsize := s.filepatches * (s.sortiosize + (compinc + 2 * s.maxtermsize) * 4)
  if s.largesize + s.smallextension < minbufsize then
    if s.largesize = 0 then { s with smallextension := minbufsize }
    else { s with largesize := minbufsize - s.smallextension }
  else s

/-- formset.py 419-428: the size of the blocks. -/
def Setup.adjustIO (s : Setup) : Setup :=
  let compinc := 2
  let iotry := (s.largesize + s.smallextension) / s.filepatches / 4 - 2 * s.maxtermsize - compinc
  { s with sortiosize := max s.sortiosize iotry }

/-- formset.py 358-428: what `Setup.calc` does to the settings. -/
def Setup.adjust (s : Setup) : Setup :=
  s.adjustBasic.adjustThreads.adjustSmall.adjustPatches.adjustIO

/-- formset.py 498-538, `Setup._thread_alloc_sort`. -/
def Setup.threadAllocSort (s : Setup) (largesize smallsize smallextension termsinsmall filepatches sortiosize : ℤ) : ℤ :=
  let filepatches := max filepatches 4
  let smallsize := max smallsize (16 * s.maxtermsize * 4)
  let smallextension := max smallextension (smallsize * 3 / 2)
  let largesize := if 0 < largesize then max largesize (2 * smallsize) else largesize
  let compinc := 2
  let minbufsize := filepatches * (sortiosize + (compinc + 2 * s.maxtermsize) * 4)
  let small := largesize + smallextension < minbufsize
  let smallextension' := if small then (if largesize = 0 then minbufsize else smallextension) else smallextension
  let largesize' := if small then (if largesize = 0 then largesize else minbufsize - smallextension) else largesize
  let iotry := (largesize' + smallextension') / filepatches / 4 - 2 * s.maxtermsize - compinc
  let sortiosize := max sortiosize iotry
  largesize' + smallextension' + 3 * termsinsmall * 8 + sortiosize

/-- formset.py 430-448: the memory of the master process. -/
def Setup.masterMemory (s : Setup) : ℤ :=
  let mem := s.scratchsize * 2 + (if 0 < s.hidesize then s.hidesize else s.scratchsize)
  let mem := mem + s.workspace * 4
  let mem := mem + (s.compresssize + 10) * 4
  let mem := mem + (s.largesize + s.smallextension + 3 * s.termsinsmall * 8 + s.sortiosize)
  let storecachesize := 8 * 2 * 8 + 4 + s.sizestorecache
  mem + storecachesize * s.numstorecaches

/-- formset.py 450-494: the memory of the threads. -/
def Setup.threadMemory (s : Setup) : ℤ :=
  if 1 ≤ s.threads then
    let mem := (s.threadscratchoutsize + s.threadscratchsize * 2) * s.threads
    let mem := mem + s.workspace * 4 * s.threads
    let mem := mem + (s.compresssize + 10) * 4 * s.threads
    let mem := mem + s.threadAllocSort (s.largesize / s.threads) (s.smallsize / s.threads) (s.smallextension / s.threads)
      s.termsinsmall (s.filepatches / s.threads) s.sortiosize * s.threads
    let storecachesize := 8 * 2 * 8 + 4 + s.sizestorecache
    let mem := mem + storecachesize * s.numstorecaches * s.threads
    let sizethreadbuckets := ((s.threadbucketsize + 1) * s.maxtermsize + 2) * 4
    let sizethreadbuckets :=
      if 250 ≤ s.threadbucketsize then sizethreadbuckets / 4
      else if 90 ≤ s.threadbucketsize then sizethreadbuckets / 3
      else if 40 ≤ s.threadbucketsize then sizethreadbuckets / 2
      else sizethreadbuckets
    let sizethreadbuckets := sizethreadbuckets / 4
    let mem := mem + (2 * sizethreadbuckets * 4 + (s.threadbucketsize + 1) * 8) * 2 * s.threads
    if 3 ≤ s.threads then mem + (s.workspace * 4 / 8 + 2 * s.maxtermsize * 4) * (s.threads - 2) else mem
  else 0

/-- formset.py 358-496, `Setup.calc`: adjusts the settings in place and returns the estimated memory usage. -/
def Setup.calc (s : Setup) : ℤ × Setup :=
  let s := s.adjust
  (s.masterMemory + s.threadMemory, s)

/-- formset.py 175-181, the rounded number `x` of `round_human_readable`. `int(math.floor(math.log10(x)))` is the exact
logarithm here. Only `100 ≤ x` is meant: for smaller `x`, Python's `10 ** (... - 2)` is a floating point number. -/
def roundDigits (x : ℕ) (up : Bool) : ℤ :=
  let n : ℤ := 10 ^ (Nat.log 10 x - 2)
  if up then roundUp x n else roundDown x n

/-- formset.py 133-148, `metric_prefix` for the capital letters that `round_human_readable` writes. -/
def metricPrefix : Option Char → ℤ
  | none => 1
  | some 'K' => 1000
  | some 'M' => 1000 ^ 2
  | some 'G' => 1000 ^ 3
  | some 'T' => 1000 ^ 4
  | some _ => 0

/-- formset.py 182-195: the suffix and the number before it, for the rounded number `x`. -/
def humanReadable (up : Bool) (x : ℤ) : ℤ × Option Char :=
  let roundOff := if up then roundUp else roundDown
  if roundOff x (1000 ^ 4) = x then (roundOff x (1000 ^ 4) / 1000 ^ 4, some 'T')
  else if roundOff x (1000 ^ 3) = x then (roundOff x (1000 ^ 3) / 1000 ^ 3, some 'G')
  else if roundOff x (1000 ^ 2) = x then (roundOff x (1000 ^ 2) / 1000 ^ 2, some 'M')
  else if roundOff x 1000 = x then (roundOff x 1000 / 1000, some 'K')
  else (x, none)

/-- formset.py 175-195, `round_human_readable(x, up, False)`. -/
def roundHumanReadable (x : ℕ) (up : Bool) : ℤ :=
  let v := roundDigits x up
  let roundOff := if up then roundUp else roundDown
  if roundOff v (1000 ^ 4) = v then roundOff v (1000 ^ 4)
  else if roundOff v (1000 ^ 3) = v then roundOff v (1000 ^ 3)
  else if roundOff v (1000 ^ 2) = v then roundOff v (1000 ^ 2)
  else if roundOff v 1000 = v then roundOff v 1000
  else v

/-- formset.py 175-195, `round_human_readable(x, up, True)`: the number and the suffix that are written one after the other. -/
def roundHumanText (x : ℕ) (up : Bool) : ℤ × Option Char := humanReadable up (roundDigits x up)

/-- formset.py 558-562, the scaled settings (before `calc`) of the function `f` in `Setup.scale`; `mul n x` is `int(n * x)`. -/
def Setup.scaled (mul : ℤ → ℚ → ℤ) (sp0 : Setup) (x : ℚ) : Setup :=
  { sp0 with smallsize := mul sp0.smallsize x, largesize := mul sp0.largesize x,
             termsinsmall := mul sp0.termsinsmall x, scratchsize := mul sp0.scratchsize x }

/-- formset.py 555-566, `f(x)` of `Setup.scale`. -/
def Setup.scaleF (mul : ℤ → ℚ → ℤ) (human : Bool) (total : ℤ) (sp0 : Setup) (x : ℚ) : ℤ × Setup :=
  let r := (sp0.scaled mul x).calc
  let m := if human then roundHumanReadable r.1.toNat true else r.1
  (-(total - m), r.2)

/-- The local variables `x1, x2, y1, y2` of formset.py 573-576. -/
structure Bracket where
  x1 : ℚ
  x2 : Option ℚ
  y1 : ℤ
  y2 : Option ℤ

/-- formset.py 578-607: one iteration of the search, before the assertions. -/
def scaleStep (f : ℚ → ℤ) (b : Bracket) : Bracket :=
  match b.x2 with
  | none =>
    if b.y1 < 0 then
      let x := b.x1 * 2
      let y := f x
      if 0 < y then { b with x2 := some x, y2 := some y } else { b with x1 := x, y1 := y }
    else
      let x := b.x1 * (1 / 2)
      let y := f x
      if y < 0 then { x1 := x, x2 := some b.x1, y1 := y, y2 := some b.y1 } else { b with x1 := x, y1 := y }
  | some x2 =>
    let x := (b.x1 + x2) * (1 / 2)
    let y := f x
    if y < 0 then { b with x1 := x, y1 := y } else { b with x2 := some x, y2 := some y }

/-- formset.py 608-614: the assertions after an iteration. -/
def assertions (b : Bracket) : Bool :=
  match b.x2 with
  | none => true
  | some x2 =>
    match b.y2 with
    | none => false
    | some y2 => decide (b.x1 < x2) && decide (b.y1 < y2)

/-- formset.py 577-614: `n` iterations; `none` stands for `AssertionError`. -/
def scaleLoop (f : ℚ → ℤ) : ℕ → Bracket → Option Bracket
  | 0, b => some b
  | n + 1, b =>
    let b := scaleStep f b
    if assertions b then scaleLoop f n b else none

/-- formset.py 540-615, `Setup.scale`. -/
def Setup.scale (mul : ℤ → ℚ → ℤ) (s : Setup) (total : ℤ) (lowest : ℚ) (human : Bool) : Option Setup :=
  let sp0 := { s with workspace := max s.workspace (s.maxtermsize * 250) }
  let f := sp0.scaleF mul human total
  let r := f lowest
  if 0 ≤ r.1 then some r.2
  else (scaleLoop (fun x => (f x).1) 50 { x1 := 1, x2 := none, y1 := (f 1).1, y2 := none }).map (fun b => (f b.x1).2)

/-- make_package.py 243-249: the settings written to `form.set` with `form_memory_use`, and their estimated memory usage. -/
def packageSetup (mul : ℤ → ℚ → ℤ) (workspace threads : ℤ) (memoryUse : Option ℤ) : Option (Setup × Option ℤ) :=
  let s := { Setup.v420 with workspace := workspace, threads := threads }
  match memoryUse with
  | none => some (s, none)
  | some m => (s.scale mul m 1 false).map (fun sp => (sp.calc.2, some sp.calc.1))

/-- formset.py 759-769: the number of CPUs of a job; `nodes` is the number of nodes of the machine. -/
def jobCpus (ncpus : Option ℤ) (totalCpus nodes : ℤ) : ℤ :=
  let ncpus := ncpus.getD (-1)
  let ncpus := if ncpus < 0 then -ncpus * (totalCpus / nodes) else ncpus
  min (max ncpus 1) totalCpus

/-- formset.py 819-821: `int(total_memory * percentage / 100.0 * cpus / total_cpus)`, with exact arithmetic. -/
def jobMemory (totalMemory : ℤ) (percentage : ℚ) (cpus totalCpus : ℤ) : ℤ :=
  let v : ℚ := totalMemory * percentage / 100 * cpus / totalCpus
  if 0 ≤ v then ⌊v⌋ else ⌈v⌉

/-- formset.py 833-847: the settings `main` writes, `none` if it fails (assertion, or the message "failed to find parameters"). -/
def mainSetup (mul : ℤ → ℚ → ℤ) (s : Setup) (memory : ℤ) (human : Bool) : Option Setup :=
  match s.scale mul memory 0 human with
  | none => none
  | some sp => if memory < sp.calc.1 then none else some sp.calc.2

end SecDec.Formset
