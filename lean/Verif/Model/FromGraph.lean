import Mathlib.Data.Matrix.Basis
import Mathlib.Data.Int.Basic
import Mathlib.Data.Fintype.Sum
import Mathlib.Data.Fintype.Prod
import Mathlib.Data.Matrix.Mul
import Verif.Model.Poly
import Verif.Model.Misc
/-
Model of `pySecDec/loop_integral/from_graph.py`: the polynomials U and F of a graph.
-/
namespace SecDec
namespace FromGraph

variable {V P E : Nat} {F : Type}

/-- The graph after `from_graph.py:85-104`, `:112-125` (`intverts` numbers the vertices): the two vertices of every
internal line (`internal_lines[i][1]`) and the vertex of every external line (`external_lines[i][1]`).
There are `V + 1` vertices: without an internal line the constructor raises (line 43). -/
structure Graph (V P E : Nat) where
  edges : Fin P → Fin (V+1) × Fin (V+1)
  ext : Fin E → Fin (V+1)

/-- `from_graph.py:101-102`: `L = P - (V - 1)`. -/
def loops (_ : Graph V P E) : Int := (P : Int) - V

/-- `M[start,end] += k; M[end,start] += k`.  The rows and columns are the internal vertices followed by
the external ones, here as a sum type.  Simplification: integers of any size (`dtype=int` has 64 bits). -/
def addEdge (M : Matrix (Fin (V+1) ⊕ Fin E) (Fin (V+1) ⊕ Fin E) Int) (a b : Fin (V+1) ⊕ Fin E) (k : Int) :
    Matrix (Fin (V+1) ⊕ Fin E) (Fin (V+1) ⊕ Fin E) Int :=
  (M + Matrix.single a b k) + Matrix.single b a k

/-- `from_graph.py:127-148` `vertmatrix` -/
def vertMatrix (g : Graph V P E) : Matrix (Fin (V+1) ⊕ Fin E) (Fin (V+1) ⊕ Fin E) Int :=
  (List.finRange E).foldl (fun M i => addEdge M (Sum.inr i) (Sum.inl (g.ext i)) 1)
    ((List.finRange P).foldl (fun M i => addEdge M (Sum.inl (g.edges i).1) (Sum.inl (g.edges i).2) 1) 1)

/-- `from_graph.py:161-167`, `:195-201`: the cut propagators are removed. -/
def cutMatrix (g : Graph V P E) (cut : List (Fin P)) : Matrix (Fin (V+1) ⊕ Fin E) (Fin (V+1) ⊕ Fin E) Int :=
  cut.foldl (fun M i => addEdge M (Sum.inl (g.edges i).1) (Sum.inl (g.edges i).2) (-1)) (vertMatrix g)

/-- `np.linalg.matrix_power(newmatrix,numvert)` (`from_graph.py:171`, `:204`). -/
def powMatrix (g : Graph V P E) (cut : List (Fin P)) : Matrix (Fin (V+1) ⊕ Fin E) (Fin (V+1) ⊕ Fin E) Int :=
  cutMatrix g cut ^ (V + 1 + E)

/-- The monomial of the cut propagators (`from_graph.py:176-178`, `:241-243`). -/
def cutExpo (cut : List (Fin P)) : Fin P → Int := fun i => if i ∈ cut then 1 else 0

section field
variable [Field F] [DecidableEq F]

/-- `from_graph.py:150-182` `preliminary_U`: the sum over all `L`-fold cuts; `0 in matrix` means that the
cut graph is not connected. -/
def preliminaryU (g : Graph V P E) : Poly P F :=
  ⟨((Misc.combinations (List.finRange P) (loops g).toNat).filter
      (fun cut => decide (∀ q : (Fin (V+1) ⊕ Fin E) × (Fin (V+1) ⊕ Fin E), powMatrix g cut q.1 q.2 ≠ 0))).map (fun cut => (cutExpo cut, 1))⟩

/-- `from_graph.py:206-216`: the vertices that are not connected to the vertex 0; first the internal ones, then
the external ones. -/
def notConnectedTo0 (g : Graph V P E) (cut : List (Fin P)) : List (Fin (V+1)) × List (Fin E) :=
  ((List.finRange (V+1)).filter (fun i => decide (powMatrix g cut (Sum.inl 0) (Sum.inl i) = 0)),
   (List.finRange E).filter (fun i => decide (powMatrix g cut (Sum.inl 0) (Sum.inr i) = 0)))

/-- `from_graph.py:221-226`: the test of one pair of vertices. -/
def pairOk (g : Graph V P E) (cut : List (Fin P)) : List (Fin (V+1) ⊕ Fin E) → Bool
  | [i, j] => decide (powMatrix g cut i j ≠ 0)
  | _ => true

/-- `from_graph.py:218-228`: all vertices not connected to the vertex 0 are connected to each other. -/
def valid2tree (g : Graph V P E) (cut : List (Fin P)) : Bool :=
  let n := notConnectedTo0 g cut
  (Misc.combinations (n.1.map Sum.inl ++ n.2.map Sum.inr) 2).all (pairOk g cut)

/-- `from_graph.py:230-236`: the external lines on one side of the cut, those not connected to the vertex 0 or the
others, whatever is less. -/
def cutMomenta (g : Graph V P E) (cut : List (Fin P)) : List (Fin E) :=
  let e := (notConnectedTo0 g cut).2
  if e.length ≤ E - e.length then e else ((Misc.missing (List.finRange E) e).getD [])

/-- `from_graph.py:184-253`: the part `F0` without masses; `none` stands for the number `0`.
Simplification: `p` are the external momenta, and `sq v` is the value of the square of the momentum
`v` under the replacement rules. -/
def massless {M : Type} [AddCommGroup M] (sq : M → F) (p : Fin E → M) (g : Graph V P E) : Option (Poly P F) :=
  let rows := ((Misc.combinations (List.finRange P) ((loops g) + 1).toNat).filter (fun cut =>
      valid2tree g cut && !(cutMomenta g cut).isEmpty)).map
    (fun cut => (cutExpo cut, - sq ((cutMomenta g cut).map p).sum))
  if rows.isEmpty then none else some ⟨rows⟩

/-- `from_graph.py:255-270`: the sum of the squared masses times the Feynman parameters.  `none` as a mass is
the number `0`; otherwise the value of the square under the replacement rules. -/
def massTerms (msq : Fin P → Option F) : Option (Poly P F) :=
  let rows := (List.finRange P).filterMap (fun i => (msq i).map (fun m => (fun k => if k = i then (1 : Int) else 0, m)))
  if rows.isEmpty then none else some ⟨rows⟩

/-- `from_graph.py:272`: `U*Fm`; without masses `Fm` is the number `0`. -/
def massPart (U : Poly P F) : Option (Poly P F) → Poly P F
  | none => U.mulScalar 0
  | some q => U.mul q

/-- `from_graph.py:184-272` `preliminary_F`: `F0 + U*Fm`. -/
def preliminaryF {M : Type} [AddCommGroup M] (sq : M → F) (p : Fin E → M) (msq : Fin P → Option F) (g : Graph V P E) :
    Poly P F :=
  let UF : Poly P F := massPart (preliminaryU g) (massTerms msq)
  match massless sq p g with
  | none => UF.addScalar 0
  | some F0 => F0.add UF

end field

end FromGraph
end SecDec
