import Mathlib.Algebra.Field.Basic
import Mathlib.Data.List.Basic
/-
Model of `secdecutil::Series` (`pySecDecContrib/util/secdecutil/series.hpp`).

An exception is `none`. The coefficient type is abstract: class `Cpp` lists the C++ operations the
template uses on the coefficients; the instance for `Series` itself makes nested series available.
Simplifications: `int` and `size_t` are unbounded; the output operator is not modelled.
-/
namespace SecDec
namespace Cxx

/-- `class Series`, series.hpp:27 and the members at 62-65, 365. -/
structure Series (T : Type*) where
  orderMin : ℤ
  orderMax : ℤ
  content : List T
  truncated : Bool
  param : String

/-- The C++ operations on a coefficient type `T` with (innermost) scalar type `S`. `zeroLike x` and
`ofScalar x c` are `CreateContent::create`, where `x` provides the nested expansion parameters. -/
class Cpp (S : outParam Type*) (T : Type*) where
  add : T → T → Option T
  sub : T → T → Option T
  mul : T → T → Option T
  div : T → T → Option T
  neg : T → Option T
  zeroLike : T → Option T
  ofScalar : T → S → Option T
  /-- `scalar * x` -/
  smul : S → T → Option T
  /-- `x * scalar` -/
  muls : T → S → Option T
  /-- `x / scalar` -/
  divs : T → S → Option T

/-- Coefficients that are numbers (series.hpp:40-47: `create` returns `V()` or the scalar). -/
@[reducible] def Cpp.ofField (K : Type*) [Field K] : Cpp K K where
  add x y := some (x + y)
  sub x y := some (x - y)
  mul x y := some (x * y)
  div x y := some (x / y)
  neg x := some (-x)
  zeroLike _ := some 0
  ofScalar _ c := some c
  smul c x := some (c * x)
  muls x c := some (x * c)
  divs x c := some (x / c)

namespace Series
variable {S T : Type*}

/-- `for (int i = a; i < b + 1; i++)` -/
def ints (a b : ℤ) : List ℤ := (List.range (b + 1 - a).toNat).map fun k : ℕ => a + (k : ℤ)

/-- The constructor, series.hpp:583-600. -/
def make (orderMin orderMax : ℤ) (content : List T) (truncated : Bool) (param : String) : Option (Series T) :=
  if orderMax < orderMin then none
  else if (content.length : ℤ) ≠ orderMax - orderMin + 1 then none
  else some ⟨orderMin, orderMax, content, truncated, param⟩

/-- `at`, series.hpp:386-387: `content.at(i - order_min)` throws if out of range (a negative
difference becomes a huge `size_t`). -/
def at' (s : Series T) (i : ℤ) : Option T :=
  if i < s.orderMin then none else s.content[(i - s.orderMin).toNat]?

/-- `has_term`, series.hpp:402-408. -/
def hasTerm (s : Series T) (i : ℤ) : Bool := decide (s.orderMin ≤ i) && decide (i ≤ s.orderMax)

/-- The upper limit of a sum or difference, series.hpp:84-104 and 138-158. -/
def sumMax (s1 s2 : Series T) : ℤ :=
  let m := max s1.orderMax s2.orderMax
  let m := if s1.truncated then (if s1.orderMax < m then s1.orderMax else m) else m
  if s2.truncated then (if s2.orderMax < m then s2.orderMax else m) else m

variable [Cpp S T]

/-- `subtract`, series.hpp:76-123. -/
def subtract (s1 s2 : Series T) : Option (Series T) :=
  if s1.param ≠ s2.param then none
  else do
    let content ← (ints (min s1.orderMin s2.orderMin) (sumMax s1 s2)).mapM fun i =>
      if s1.hasTerm i && s2.hasTerm i then do Cpp.sub (← s1.at' i) (← s2.at' i)
      else if s1.hasTerm i then s1.at' i
      else if s2.hasTerm i then do Cpp.neg (← s2.at' i)
      else do Cpp.zeroLike (← s1.content[0]?)
    make (min s1.orderMin s2.orderMin) (sumMax s1 s2) content (s1.truncated || s2.truncated) s1.param

/-- `add`, series.hpp:130-177. -/
def add (s1 s2 : Series T) : Option (Series T) :=
  if s1.param ≠ s2.param then none
  else do
    let content ← (ints (min s1.orderMin s2.orderMin) (sumMax s1 s2)).mapM fun i =>
      if s1.hasTerm i && s2.hasTerm i then do Cpp.add (← s1.at' i) (← s2.at' i)
      else if s1.hasTerm i then s1.at' i
      else if s2.hasTerm i then s2.at' i
      else do Cpp.zeroLike (← s1.content[0]?)
    make (min s1.orderMin s2.orderMin) (sumMax s1 s2) content (s1.truncated || s2.truncated) s1.param

/-- The upper limit of a product, series.hpp:189-204. -/
def mulMax (s1 s2 : Series T) : ℤ :=
  let m := s1.orderMax + s2.orderMax
  let m := if s1.truncated then min m (s1.orderMax + s2.orderMin) else m
  if s2.truncated then min m (s1.orderMin + s2.orderMax) else m

/-- The body of the double loop of `multiply_series`, series.hpp:212-219. -/
def mulBody (s1 s2 : Series T) (content : List T) (ij : ℤ × ℤ) : Option (List T) :=
  if (decide (s1.orderMin + s2.orderMin ≤ ij.1 + ij.2) && decide (ij.1 + ij.2 ≤ mulMax s1 s2)
      && s1.hasTerm ij.1 && s2.hasTerm ij.2) then
    match content[(ij.1 + ij.2 - (s1.orderMin + s2.orderMin)).toNat]? with
    | some c => do
      let t ← Cpp.mul (← s1.at' ij.1) (← s2.at' ij.2)
      let u ← Cpp.add c t
      some (content.set (ij.1 + ij.2 - (s1.orderMin + s2.orderMin)).toNat u)
    | none => do
      let t ← Cpp.mul (← s1.at' ij.1) (← s2.at' ij.2)
      some (content ++ [t])
  else some content

/-- `multiply_series`, series.hpp:181-225. -/
def multiply (s1 s2 : Series T) : Option (Series T) :=
  if s1.param ≠ s2.param then none
  else do
    let content ← ((ints s1.orderMin s1.orderMax).flatMap fun i =>
      (ints s2.orderMin s2.orderMax).map fun j => (i, j)).foldlM (mulBody s1 s2) []
    make (s1.orderMin + s2.orderMin) (mulMax s1 s2) content (s1.truncated || s2.truncated) s1.param

/-- `multiply_scalar`, series.hpp:228-239. -/
def multiplyScalar (fromLeft : Bool) (s : Series T) (c : S) : Option (Series T) := do
  let content ← (ints s.orderMin s.orderMax).mapM fun i => do
    if fromLeft then Cpp.smul c (← s.at' i) else Cpp.muls (← s.at' i) c
  make s.orderMin s.orderMax content s.truncated s.param

/-- The upper limit of a quotient, series.hpp:273-278. -/
def divMax (s1 s2 : Series T) : ℤ :=
  let omin := s1.orderMin - s2.orderMin
  let m := omin + ((max s1.content.length s2.content.length : ℕ) : ℤ) - 1
  let m := if s1.truncated then min m (omin + (s1.content.length : ℤ) - 1) else m
  if s2.truncated then min m (omin + (s2.content.length : ℤ) - 1) else m

/-- The inner loop body of the back substitution, series.hpp:311-325. The state is `(tmp,
tmp_initialized)`. -/
def divInner (content c2 : List T) (i : ℕ) (st : T × Bool) (j : ℕ) : Option (T × Bool) :=
  if i - j < c2.length then do
    if st.2 then
      let p ← Cpp.mul (← content[j]?) (← c2[i - j]?)
      some (← Cpp.sub st.1 p, true)
    else
      let n ← Cpp.neg (← content[j]?)
      some (← Cpp.mul n (← c2[i - j]?), true)
  else some st

/-- The outer loop body of the back substitution, series.hpp:291-332. The state is `(content, tmp)`. -/
def divOuter (c1 c2 : List T) (st : List T × T) (i : ℕ) : Option (List T × T) :=
  if i = 0 then some (st.1 ++ [st.2], st.2)
  else do
    let init ← if i < c1.length then do some ((← c1[i]?), true) else some (st.2, false)
    let r ← (List.range i).foldlM (divInner st.1 c2 i) init
    let t ← Cpp.div r.1 (← c2[0]?)
    some (st.1 ++ [t], t)

/-- `division_series_by_series`, series.hpp:259-337. -/
def divide (s1 s2 : Series T) : Option (Series T) :=
  if s1.param ≠ s2.param then none
  else do
    let tmp ← Cpp.div (← s1.content[0]?) (← s2.content[0]?)
    let r ← (List.range (divMax s1 s2 - (s1.orderMin - s2.orderMin) + 1).toNat).foldlM
      (divOuter s1.content s2.content) ([], tmp)
    make (s1.orderMin - s2.orderMin) (divMax s1 s2) r.1
      (if s2.orderMin = s2.orderMax then s1.truncated || s2.truncated else true) s1.param

/-- `division_series_by_scalar`, series.hpp:340-352. -/
def divideScalar (s : Series T) (c : S) : Option (Series T) := do
  let content ← s.content.mapM fun x => Cpp.divs x c
  make s.orderMin s.orderMax content s.truncated s.param

/-- unary minus, series.hpp:439-447. -/
def negate (s : Series T) : Option (Series T) := do
  let content ← (ints s.orderMin s.orderMax).mapM fun i => do Cpp.neg (← s.at' i)
  make s.orderMin s.orderMax content s.truncated s.param

/-- The series `{0,0,{content},false,series.expansion_parameter}` made from a scalar, series.hpp:496-503,
514-521, 553-554, and 53-57 for the nested case. -/
def ofScalar (s : Series T) (c : S) : Option (Series T) := do
  make 0 0 [← Cpp.ofScalar (← s.content[0]?) c] false s.param

/-- `CreateContent<Series<U>>::create`, series.hpp:49-52. -/
def zeroLike (s : Series T) : Option (Series T) := do
  make 0 0 [← Cpp.zeroLike (← s.content[0]?)] false s.param

/-- Nested series. -/
instance : Cpp S (Series T) where
  add := add
  sub := subtract
  mul := multiply
  div := divide
  neg := negate
  zeroLike := zeroLike
  ofScalar := ofScalar
  smul c s := multiplyScalar true s c
  muls s c := multiplyScalar false s c
  divs := divideScalar

/-- `series + scalar`, series.hpp:493-498; `scalar + series` (499-504) has the operands swapped. -/
def addScalar (s : Series T) (c : S) : Option (Series T) := do add s (← ofScalar s c)
def scalarAdd (c : S) (s : Series T) : Option (Series T) := do add (← ofScalar s c) s
/-- `series - scalar` and `scalar - series`, series.hpp:511-522. -/
def subScalar (s : Series T) (c : S) : Option (Series T) := do subtract s (← ofScalar s c)
def scalarSub (c : S) (s : Series T) : Option (Series T) := do subtract (← ofScalar s c) s
/-- `scalar / series`, series.hpp:550-555. -/
def scalarDiv (c : S) (s : Series T) : Option (Series T) := do divide (← ofScalar s c) s

end Series
end Cxx
end SecDec
