import Verif.Model.FromGraph
/-
Model of `pySecDec/loop_integral/from_graph.py:81-125`: the lines with the power zero are removed from the graph.
-/
namespace SecDec
namespace FromGraph

variable {N A K D S : Type} [DecidableEq N] [DecidableEq K] [Zero K]

/-- The attributes of a `LoopIntegralFromGraph` that `from_graph.py:81-98` changes: `internal_lines` (the mass and the
names of the two vertices), `P`, `powerlist`, `derivativelist`, `Feynman_parameters`, and the vertices of `external_lines`
(the momenta are not changed). -/
structure Lines (N A K D S : Type) where
  internal : List (A × N × N)
  P : Nat
  powers : List K
  derivs : List D
  params : List S
  ext : List N

/-- `from_graph.py:93-95`: `if line[1][j] == vertex1: line[1][j] = vertex2`; `from_graph.py:96-98` for the external lines -/
def rename (vertex1 vertex2 x : N) : N := if x = vertex1 then vertex2 else x

/-- `l[:i] + l[i+1:]` in `from_graph.py:85-89` -/
def dropAt {α : Type} (i : Nat) (l : List α) : List α := l.take i ++ l.drop (i + 1)

/-- The body of the loop `from_graph.py:82-98` for the line `i`; the outer `match` is `self.powerlist[i] == 0`, the inner one
`vertex1, vertex2 = self.internal_lines[i][1]` (the indices exist: `powerlist` is as long as `internal_lines`). -/
def pinchStep (s : Lines N A K D S) (i : Nat) : Lines N A K D S :=
  if s.powers[i]? = some 0 then
    match s.internal[i]? with
    | none => s
    | some (_, vertex1, vertex2) =>
      { internal := (dropAt i s.internal).map (fun l => (l.1, rename vertex1 vertex2 l.2.1, rename vertex1 vertex2 l.2.2))
        P := s.P - 1
        powers := dropAt i s.powers
        derivs := dropAt i s.derivs
        params := dropAt i s.params
        ext := s.ext.map (rename vertex1 vertex2) }
  else s

/-- `from_graph.py:81-98`: `for i in range(self.P-1,-1,-1)`; the range is made before the first line is removed. -/
def pinch (s : Lines N A K D S) : Lines N A K D S := (List.range s.P).reverse.foldl pinchStep s

/-- `from_graph.py:111-125` `intverts`: the vertices of the internal lines, each one once.  The order of the iteration over a
`set` is not specified, hence this is a predicate on the list `vertices`. -/
def IntVerts (s : Lines N A K D S) (vertices : List N) : Prop :=
  vertices.Nodup ∧ ∀ v, v ∈ vertices ↔ ∃ l ∈ s.internal, v = l.2.1 ∨ v = l.2.2

/-- The polynomials of the graph are computed from `self.intverts[...]` of the vertices of the lines (`from_graph.py:136-137`,
`:144`): `g` is the graph `s` with its vertices numbered as in the list `vertices`, and `mass` are the masses of its lines.
If the vertex of an external line is no vertex of an internal line, then there is no such graph (a `KeyError`). -/
def NumberedBy (vertices : List N) (s : Lines N A K D S) {V P E : Nat} (mass : Fin P → A) (g : Graph V P E) : Prop :=
  vertices.length = V + 1 ∧ s.P = P ∧ s.internal.length = P ∧ s.ext.length = E ∧
  (∀ i : Fin P, ∃ a b, s.internal[i.val]? = some (mass i, a, b) ∧
    vertices.idxOf? a = some (g.edges i).1.val ∧ vertices.idxOf? b = some (g.edges i).2.val) ∧
  ∀ e : Fin E, ∃ a, s.ext[e.val]? = some a ∧ vertices.idxOf? a = some (g.ext e).val

/-- `g` is the graph that the constructor makes of `s`, for some order of the vertices (`from_graph.py:111-148`). -/
def Numbered (s : Lines N A K D S) {V P E : Nat} (mass : Fin P → A) (g : Graph V P E) : Prop :=
  ∃ vertices, IntVerts s vertices ∧ NumberedBy vertices s mass g

end FromGraph
end SecDec
