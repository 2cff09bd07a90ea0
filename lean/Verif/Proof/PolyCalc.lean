import Mathlib.Analysis.Calculus.Deriv.ZPow
import Mathlib.Analysis.Calculus.Deriv.Mul
import Mathlib.Analysis.Calculus.Deriv.Add
import Verif.Proof.PolyArith
set_option linter.unusedSectionVars false
namespace SecDec
namespace Poly
variable {n : Nat} {𝕜 : Type} [NontriviallyNormedField 𝕜] [DecidableEq 𝕜]

theorem hasDerivAt_term (t : Expo n × 𝕜) (i : Fin n) (x : Fin n → 𝕜) (h : x i ≠ 0 ∨ 0 ≤ t.1 i) :
    HasDerivAt (fun s => t.2 * mono (Function.update x i s) t.1)
      (if t.1 i ≠ 0 then t.2 * ((t.1 i : Int) : 𝕜) * mono x (Function.update t.1 i (t.1 i - 1)) else 0)
      (x i) := by
  have h1 : (fun s => t.2 * mono (Function.update x i s) t.1)
      = fun s => t.2 * (∏ k ∈ Finset.univ.erase i, x k ^ (t.1 k)) * s ^ (t.1 i) := by
    funext s; rw [mono_update]; ring
  rw [h1]
  have := (hasDerivAt_zpow (t.1 i) (x i) h).const_mul (t.2 * (∏ k ∈ Finset.univ.erase i, x k ^ (t.1 k)))
  refine this.congr_deriv ?_
  symm
  split
  · rw [mono_update_expo]; ring
  · rename_i h0
    have : t.1 i = 0 := by simpa using h0
    simp [this]

theorem hasDerivAt_derive (p : Poly n 𝕜) (i : Fin n) (x : Fin n → 𝕜) (h : p.Defined x) :
    HasDerivAt (fun s => p.eval (Function.update x i s)) ((p.derive i).eval x) (x i) := by
  have key : HasDerivAt (fun s => p.eval (Function.update x i s))
      ((p.terms.map (fun t => if t.1 i ≠ 0 then
        t.2 * ((t.1 i : Int) : 𝕜) * mono x (Function.update t.1 i (t.1 i - 1)) else 0)).sum) (x i) := by
    unfold eval
    unfold Defined at h
    generalize p.terms = l at h ⊢
    induction l with
    | nil => simpa using hasDerivAt_const (x i) (0:𝕜)
    | cons t l ih =>
      simp only [List.map_cons, List.sum_cons]
      refine HasDerivAt.fun_add (hasDerivAt_term t i x ?_) (ih ?_)
      · by_cases hx : x i = 0
        · exact Or.inr (h t List.mem_cons_self i hx)
        · exact Or.inl hx
      · intro u hu; exact h u (List.mem_cons_of_mem _ hu)
  refine key.congr_deriv ?_
  symm
  have e : ∀ l : List (Expo n × 𝕜), ((l.filter (fun t => decide (t.1 i ≠ 0))).map
      (fun t => t.2 * ((t.1 i : Int) : 𝕜) * mono x (Function.update t.1 i (t.1 i - 1)))).sum
      = (l.map (fun t => if t.1 i ≠ 0 then
        t.2 * ((t.1 i : Int) : 𝕜) * mono x (Function.update t.1 i (t.1 i - 1)) else 0)).sum := by
    intro l
    induction l with
    | nil => rfl
    | cons t l ih =>
      by_cases h0 : t.1 i = 0
      · rw [List.filter_cons_of_neg (by simp [h0]), List.map_cons, List.sum_cons, ih]
        simp [h0]
      · rw [List.filter_cons_of_pos (by simp [h0]), List.map_cons, List.map_cons, List.sum_cons, List.sum_cons, ih]
        simp [h0]
  rw [← e]
  unfold derive
  simp only
  split
  · rename_i hz
    rw [List.length_map] at hz
    rw [List.eq_nil_of_length_eq_zero hz, eval_zero]
    rfl
  · rw [eval_mk, List.map_map]; rfl

end Poly
end SecDec
