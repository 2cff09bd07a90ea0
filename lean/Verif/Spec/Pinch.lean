import Verif.Spec.FromGraph
import Verif.Model.Pinch
/-
What is meant by "the lines with the power zero are contracted".
-/
namespace SecDec
namespace FromGraph
variable {V P E : Nat}

/-- The entries of a list that belong to lines whose power is not zero. -/
def keep {α K : Type} [DecidableEq K] [Zero K] (powers : List K) (l : List α) : List α :=
  ((powers.zip l).filter (fun q => decide (q.1 ≠ 0))).map Prod.snd

/-- The numbers of the lines with the power zero. -/
def zeroLines {K : Type} [DecidableEq K] [Zero K] (P : Nat) (powers : List K) : Finset (Fin P) :=
  Finset.univ.filter (fun i => powers[i.val]? = some 0)

/-- The lines in `T` contain no closed loop. -/
def Forest (g : Graph V P E) (T : Finset (Fin P)) : Prop := (sub g T).IsAcyclic ∧ NoMultiple g T

/-- Every line has a power, a derivative and a Feynman parameter. -/
def Lines.WellFormed {N A K D S : Type} (s : Lines N A K D S) : Prop :=
  s.P = s.internal.length ∧ s.powers.length = s.P ∧ s.derivs.length = s.P ∧ s.params.length = s.P

end FromGraph
end SecDec
