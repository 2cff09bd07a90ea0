import Verif.Model.Dreadnaut
import Mathlib.Logic.Equiv.Basic
/-
The contract of the program `dreadnaut`.
-/
namespace SecDec
namespace Dreadnaut

/-- Two vertices are adjacent: `dreadnaut` reads undirected graphs. -/
def Card.Adj (G : Card) (u v : ℕ) : Prop := ∃ l ∈ G.lines, (l.1 = u ∧ v ∈ l.2) ∨ (l.1 = v ∧ u ∈ l.2)

/-- Two vertices have the same colour. -/
def Card.SameColour (G : Card) (u v : ℕ) : Prop := ∀ c ∈ G.cells, u ∈ c ↔ v ∈ c

/-- `lab` is a labelling: a permutation of the vertices (extended by the identity) such that the vertices come in the order of the colours: the `i`-th vertex has the colour of the
`i`-th vertex in the list of cells. -/
structure Card.Labelling (G : Card) (lab : Equiv.Perm ℕ) : Prop where
  fixes : ∀ i, G.n ≤ i → lab i = i
  colour : ∀ (i v : ℕ), G.cells.flatten[i]? = some v → G.SameColour (lab i) v

/-- The cells of the colouring list every vertex once, in their order. -/
def Card.WellFormed (G : Card) : Prop := G.cells.flatten = List.range G.n

/-- The canonical graph of a well-formed input is the graph relabelled: the `i`-th line contains `j` if the `i`-th and the `j`-th vertex of some labelling are adjacent. -/
def Relabels (canon : Card → List (List ℕ)) : Prop :=
  ∀ G : Card, G.WellFormed → ∃ lab, G.Labelling lab ∧ (canon G).length = G.n ∧
    ∀ (i j : ℕ) (l : List ℕ), (canon G)[i]? = some l → j < G.n → (j ∈ l ↔ G.Adj (lab i) (lab j))

/-- Isomorphic coloured graphs. -/
def Isomorphic (G H : Card) : Prop :=
  G.n = H.n ∧ G.cells = H.cells ∧ ∃ σ : Equiv.Perm ℕ, (∀ i, G.n ≤ i → σ i = i) ∧ (∀ i < G.n, G.SameColour (σ i) i) ∧
    ∀ i < G.n, ∀ j < G.n, (G.Adj i j ↔ H.Adj (σ i) (σ j))

/-- Isomorphic graphs have the same canonical graph. -/
def Complete (canon : Card → List (List ℕ)) : Prop := ∀ G H : Card, G.WellFormed → H.WellFormed → Isomorphic G H → canon G = canon H

end Dreadnaut
end SecDec
