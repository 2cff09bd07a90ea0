import Mathlib.Combinatorics.SimpleGraph.Acyclic
import Verif.Model.FromGraph
/-
Spanning trees and forests of a graph, independent of the code.
-/
namespace SecDec
namespace FromGraph
variable {V P E : Nat}

/-- The vertices of the graph with the internal lines in `T`. -/
def sub (g : Graph V P E) (T : Finset (Fin P)) : SimpleGraph (Fin (V+1)) where
  Adj a b := a ≠ b ∧ ∃ i ∈ T, g.edges i = (a, b) ∨ g.edges i = (b, a)
  symm := ⟨by rintro a b ⟨h, i, hi, h'⟩; exact ⟨h.symm, i, hi, h'.symm⟩⟩
  loopless := ⟨by rintro a ⟨h, -⟩; exact h rfl⟩

/-- No line begins and ends at the same vertex, no two lines join the same vertices. -/
def NoMultiple (g : Graph V P E) (T : Finset (Fin P)) : Prop :=
  ∀ i ∈ T, (g.edges i).1 ≠ (g.edges i).2 ∧ ∀ j ∈ T, i ≠ j → g.edges j ≠ g.edges i ∧ g.edges j ≠ (g.edges i).swap

/-- `T` is a tree that contains all vertices. -/
def SpanningTree (g : Graph V P E) (T : Finset (Fin P)) : Prop := (sub g T).IsTree ∧ NoMultiple g T

/-- `T` consists of two trees that together contain all vertices. -/
def TwoForest (g : Graph V P E) (T : Finset (Fin P)) : Prop :=
  (sub g T).IsAcyclic ∧ NoMultiple g T ∧
    ∃ a b, ¬ (sub g T).Reachable a b ∧ ∀ c, (sub g T).Reachable a c ∨ (sub g T).Reachable b c

/-- The momentum that flows into the component of the vertex `v`. -/
noncomputable def inflow {M : Type} [AddCommMonoid M] (p : Fin E → M) (g : Graph V P E) (T : Finset (Fin P)) (v : Fin (V+1)) : M :=
  letI := Classical.decPred (fun e : Fin E => (sub g T).Reachable v (g.ext e))
  ∑ e with (sub g T).Reachable v (g.ext e), p e

end FromGraph
end SecDec
