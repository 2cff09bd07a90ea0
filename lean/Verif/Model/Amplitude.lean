import Verif.Model.Package
import Verif.Model.Orders
/-
Model of the way from the sectors of the packages to the report of `disteval` for sums of integrals with one regulator:
pySecDec/code_writer/make_package.py (the orders written into the description of an integral), pySecDec/code_writer/sum_package.py
(the orders requested of each integral), the answers of pySecDecContrib/disteval/cpuworker.cpp for the coefficients, and `do_eval` of
pySecDec/disteval.py.

Simplifications: one regulator; the expansions of the prefactor and of the coefficients by GiNaC are inputs; the numbers are complex
numbers, without rounding.
-/
namespace SecDec
namespace Amplitude
open Orders Sector Package

/-- A generated package: the sectors (expanded integrand and highest pole), the orders requested of the package, the lowest order of
the prefactor and the expanded prefactor (powers and coefficients). -/
structure Generated where
  n : ℕ
  results : List (List (Summand (n + 1) ℝ) × ℤ)
  requested : ℤ
  prefLead : ℤ
  pref : List (ℤ × ℂ)

/-- `required_orders` (`make_package.py:1798-1802`). -/
def requiredOrder (requested prefLead : ℤ) : ℤ := requested - prefLead

/-- `make_package`, with an arbitrary expansion of the prefactor. -/
noncomputable def generate {n : ℕ} (o : Options) (polys : List (Squash.SPoly (n + 1) ℝ (Poly 1 ℚ))) (requested prefLead : ℤ) (pref : List (ℤ × ℂ)) :
    Option Generated :=
  (package { o with order := requiredOrder requested prefLead } polys).map fun r => ⟨n, r, requested, prefLead, pref⟩

/-- `lowest_orders` (`make_package.py:1893`, `:1188`, `:2136`). -/
def Generated.lowest (g : Generated) : ℤ := g.results.foldl (fun m r => min m (-r.2)) g.requested

/-- `required_prefactor_orders` (`make_package.py:2152`). -/
def Generated.prefOrder (g : Generated) : ℤ := g.requested - g.lowest

variable {κ : Type} [DecidableEq κ]

/-- `sector_orders.setdefault(powers, [])`, `sector_orders[powers].append(order_name)` (`make_package.py:2143-2144`). -/
def addOrder (kernel : ℤ → κ) (d : List (Ord 1 × List κ)) (k : ℤ) : List (Ord 1 × List κ) :=
  dset d (fun _ => k) ((dget d (fun _ => k)).getD [] ++ [kernel k])

/-- `sector_orders`, the entry `orders` of the description (`make_package.py:2139-2144`, `:2259-2265`): the sectors are numbered from one (`:824`), the
orders of a sector are those of `_make_sector_order_names` (`:1362-1366`). `kernel s k` is the kernel `sector_{s}_order_{k}`. -/
def kernelsFrom (kernel : ℕ → ℤ → κ) {S : Type} (required : ℤ) : ℕ → List (S × ℤ) → List (Ord 1 × List κ) → List (Ord 1 × List κ)
  | _, [], d => d
  | s, r :: rest, d => kernelsFrom kernel required (s + 1) rest ((sectorOrders required r.2).foldl (addOrder (kernel s)) d)

/-- A power of the only regulator as a tuple. -/
def tuple (t : ℤ × ℂ) : Ord 1 × ℂ := (fun _ => t.1, t.2)

/-- The description of an integral (`make_package.py:2228-2267`). -/
def Generated.info (kernel : ℕ → ℤ → κ) (g : Generated) : Info 1 κ ℂ :=
  ⟨g.pref.map tuple, kernelsFrom kernel (requiredOrder g.requested g.prefLead) 1 g.results []⟩

/-- A term of an amplitude: the number of the amplitude, the number of the integral, the expansion of the coefficient, and the leading order of the
coefficient (`coefficient.leading_orders`, `sum_package.py:147`). -/
structure AmpTerm where
  amp : ℕ
  int : ℕ
  coef : List (ℤ × ℂ)
  lead : ℤ

/-- The orders requested of the package number `i` (`sum_package.py:140-160`; the terms which vanish have no entry). -/
def requestedOf (rq : ℤ) (terms : List AmpTerm) (i : ℕ) : Option (Ord 1) :=
  packageOrders (fun _ => rq) ((terms.filter fun t => t.int = i).map fun t => fun _ => t.lead)

/-- What the worker answers for an expanded coefficient (`cpuworker.cpp:463-489`): the terms; the expression zero is one term, of order zero. -/
def answer (l : List (ℤ × ℂ)) : List (ℤ × ℂ) := if l = [] then [(0, 0)] else l

/-- `do_eval` for a sum (`disteval.py:480-504`). -/
noncomputable def evaluate (kernel : ℕ → ℕ → ℤ → κ) (gens : ℕ → Generated) (rq : ℤ) (terms : List AmpTerm) : Option (Table 1 κ ℂ) :=
  splitAll (fun _ => rq) (terms.map fun t => (t.amp, (gens t.int).info (kernel t.int), (answer t.coef).map tuple))

/-- `do_eval` for a single integral (`disteval.py:471-474`). -/
noncomputable def evaluateIntegral (kernel : ℕ → ℤ → κ) (g : Generated) : Option (Table 1 κ ℂ) :=
  splitIntegral [] 0 (g.info kernel) [(fun _ => 0, 1)] (fun _ => g.requested)

/-- The report for the amplitude number `a` (`disteval.py:506-509`, `:782`): orders and values, sorted. -/
noncomputable def report [Fintype κ] (tab : Table 1 κ ℂ) (val : κ → ℂ) (a : ℕ) : List (ℤ × ℂ) :=
  ((tab.filter fun e => e.1.1 = a).map fun e => (e.1.2 0, ∑ k, e.2 k * val k)).mergeSort fun s t => s.1 ≤ t.1

end Amplitude
end SecDec
