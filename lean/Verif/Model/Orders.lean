import Mathlib.Data.Fintype.Pi
import Mathlib.Data.Fin.VecNotation
import Mathlib.Algebra.BigOperators.Group.Finset.Basic
import Mathlib.Algebra.Ring.Defs
import Mathlib.Data.Int.Order.Basic
import Mathlib.Algebra.Group.Pi.Basic
/-
Model of the order bookkeeping of `pySecDec/disteval.py` (`bracket_mul`,
`split_integral_into_orders`, the order arithmetic of `do_eval`) and of
`pySecDec/code_writer/sum_package.py:_generate_one_term`.

A python dictionary is modelled as the list of its items in insertion order.
An order vector (a tuple with one integer per regulator) is modelled as `Fin r → ℤ`; the code's tuples
all have the length `len(regulators)`.
-/
namespace SecDec
namespace Orders

/-- python `d.get(k)`: the value stored under `k`. -/
def dget {K V : Type*} [DecidableEq K] : List (K × V) → K → Option V
  | [], _ => none
  | (k', v) :: d, k => if k' = k then some v else dget d k

/-- python `d[k] = v`: overwrite in place, or append a new item at the end. -/
def dset {K V : Type*} [DecidableEq K] : List (K × V) → K → V → List (K × V)
  | [], k, v => [(k, v)]
  | (k', v') :: d, k, v => if k' = k then (k', v) :: d else (k', v') :: dset d k v

/-- An order vector: one integer power per regulator. -/
abbrev Ord (r : ℕ) := Fin r → ℤ

variable {r : ℕ}

/-- `np.all(x <= y)` / `all(x <= y for x, y in zip(..))`, disteval.py:275 and :941. -/
def allLe (x y : Ord r) : Prop := ∀ i, x i ≤ y i
instance (x y : Ord r) : Decidable (allLe x y) := by unfold allLe; infer_instance

section
variable {A B C : Type*} [AddZeroClass C]

/-- the loop body of `bracket_mul`, disteval.py:274-276. -/
def bracketStep (mul : A → B → C) (maxorders k1 : Ord r) (v1 : A) (br : List (Ord r × C)) (t2 : Ord r × B) :
    List (Ord r × C) :=
  if allLe (k1 + t2.1) maxorders then
    dset br (k1 + t2.1) ((dget br (k1 + t2.1)).getD 0 + mul v1 t2.2)
  else br

/-- `bracket_mul`, disteval.py:265-277. -/
def bracketMul (mul : A → B → C) (br1 : List (Ord r × A)) (br2 : List (Ord r × B)) (maxorders : Ord r) :
    List (Ord r × C) :=
  br1.foldl (fun br t1 => br2.foldl (bracketStep mul maxorders t1.1 t1.2) br) []
end

/-- `np.min(list_of_vectors, axis=0)`; `none` = the `ValueError` numpy raises for an empty list. -/
def minAxis0 : List (Ord r) → Option (Ord r)
  | [] => none
  | x :: l => some (l.foldl (fun m y i => min (m i) (y i)) x)

/-- `np.max(list_of_vectors, axis=0)`. -/
def maxAxis0 : List (Ord r) → Option (Ord r)
  | [] => none
  | x :: l => some (l.foldl (fun m y i => max (m i) (y i)) x)

/-- The entries of an integral's json description used here: `expanded_prefactor_value` (the evaluated
`expanded_prefactor`) and `orders` (a list of records with `regulator_powers` and `kernels`);
make_package.py:2246-2264. `κ` is the set of the pairs (integral name, kernel name); `kernel2idx`
(disteval.py:357-374) numbers these pairs injectively, so indexing by `κ` is the same as by number. -/
structure Info (r : ℕ) (κ F : Type*) where
  pref : List (Ord r × F)
  orders : List (Ord r × List κ)

section
variable {κ F : Type*} [DecidableEq κ] [Semiring F]

/-- The dictionary `orders`/`ap2coeffs`: (amplitude, powers) -> vector of kernel coefficients. -/
abbrev Table (r : ℕ) (κ F : Type*) := List ((ℕ × Ord r) × (κ → F))

/-- disteval.py:943-945: `orders.setdefault(key, zeros)`, then `orders[key][k] += coef` for the
kernels `k` of the order. -/
def addKernels (tab : Table r κ F) (key : ℕ × Ord r) (coef : F) (ks : List κ) : Table r κ F :=
  dset tab key (ks.foldl (fun row k => Function.update row k (row k + coef)) ((dget tab key).getD 0))

/-- the loop body disteval.py:940-945. -/
def splitStep (ampid : ℕ) (requested maxHighest : Ord r) (o : Ord r × List κ) (tab : Table r κ F)
    (t : Ord r × F) : Table r κ F :=
  if allLe (o.1 + t.1) requested ∧ allLe (o.1 + t.1) maxHighest then
    addKernels tab (ampid, o.1 + t.1) t.2 o.2
  else tab

/-- `split_integral_into_orders`, disteval.py:930-945. `none` = the `ValueError` of `np.min` of an
empty list. -/
def splitIntegral (tab : Table r κ F) (ampid : ℕ) (info : Info r κ F) (brCoef : List (Ord r × F))
    (requested : Ord r) : Option (Table r κ F) :=
  match minAxis0 (info.pref.map (·.1)), minAxis0 (brCoef.map (·.1)),
      minAxis0 (info.orders.map (·.1)), maxAxis0 (info.orders.map (·.1)) with
  | some pl, some cl, some kl, some kh =>
    some (info.orders.foldl (fun tab o =>
      (bracketMul (· * ·) info.pref brCoef (-kl + requested)).foldl
        (splitStep ampid requested (pl + cl + kh) o) tab) tab)
  | _, _, _, _ => none

/-- `coef_ord`, the orders up to which a coefficient is expanded by the workers, disteval.py:493-495. -/
def coefOrd (info : Info r κ F) (requested : Ord r) : Option (Ord r) :=
  match minAxis0 (info.pref.map (·.1)), minAxis0 (info.orders.map (·.1)) with
  | some pl, some kl => some (-kl - pl + requested)
  | _, _ => none

/-- The callbacks `evalf_cb` of one evaluation, disteval.py:480-505: `split_integral_into_orders` is
called for every term (amplitude number, integral, expanded coefficient), in the order in which
the answers of the workers arrive, on one dictionary. -/
def splitAll (requested : Ord r) (terms : List (ℕ × Info r κ F × List (Ord r × F))) : Option (Table r κ F) :=
  terms.foldlM (fun tab t => splitIntegral tab t.1 t.2.1 t.2.2 requested) []

/-- `amp_val = W @ kern_val` for one row, disteval.py:782; an absent row is not reported. -/
def ampVal [Fintype κ] (tab : Table r κ F) (key : ℕ × Ord r) (val : κ → F) : Option F :=
  (dget tab key).map fun row => ∑ k, row k * val k

/-- the value of one order of an integral, disteval.py:857-860. -/
def kernVal (val : κ → F) (o : Ord r × List κ) : Ord r × F := (o.1, (o.2.map val).sum)

/-- the report of an individual integral, disteval.py:855-866 (`br_val`); `lowest` and `prefHighest`
are `lowest_orders` and `prefactor_highest_orders` of its description. -/
def intVal (info : Info r κ F) (lowest prefHighest : Ord r) (val : κ → F) : List (Ord r × F) :=
  bracketMul (· * ·) info.pref (info.orders.map (kernVal val)) (lowest + prefHighest)

end

/-- python's comparison of two lists of integers of equal length: lexicographic. -/
def lexLt : {r : ℕ} → Ord r → Ord r → Bool
  | 0, _, _ => false
  | _ + 1, x, y => x 0 < y 0 || (x 0 == y 0 && lexLt (fun i => x i.succ) (fun i => y i.succ))

/-- python's `min` of lists: the first one that is not larger than any other. -/
def pyMin : List (Ord r) → Option (Ord r)
  | [] => none
  | x :: l => some (l.foldl (fun m y => if lexLt y m then y else m) x)

/-- The orders up to which an integral's package is generated, sum_package.py:159-161:
`requested_orders - min(lowest_coefficient_orders.values())`. The `default=999999` for an integral
whose coefficients all vanish is modelled as `none`. -/
def packageOrders (requested : Ord r) (coefLeads : List (Ord r)) : Option (Ord r) :=
  (pyMin coefLeads).map fun m => requested - m

/-- The orders up to which the kernels of a package are generated (every order between minus the
highest pole and this, make_package.py:1362): `required_orders`, the requested orders minus the
leading orders of the prefactor (make_package.py:1799-1802). -/
def requiredOrders (packageRequested prefLead : Ord r) : Ord r := packageRequested - prefLead

/-- `required_prefactor_orders`, make_package.py:2152. -/
def requiredPrefactorOrders (packageRequested lowest : Ord r) : Ord r := packageRequested - lowest

end Orders
end SecDec
