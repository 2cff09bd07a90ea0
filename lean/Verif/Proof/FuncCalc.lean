import Mathlib.Analysis.Calculus.FDeriv.Symmetric
import Mathlib.Analysis.Calculus.FDeriv.Analytic
import Mathlib.Analysis.Calculus.Deriv.Prod
import Mathlib.Analysis.Analytic.Linear
import Verif.Spec.LoopCommon
/-
Partial derivatives of analytic functions commute.
-/
namespace SecDec
namespace Func
open LoopCommon
variable {n : ℕ} {U : Set (Fin n → ℂ)} {f g : (Fin n → ℂ) → ℂ}

theorem hasDerivAt_update (x : Fin n → ℂ) (i : Fin n) (s : ℂ) :
    HasDerivAt (fun t => Function.update x i t) (Pi.single i (1 : ℂ)) s := by
  rw [hasDerivAt_pi]
  intro j
  rcases eq_or_ne j i with rfl | h
  · simpa using hasDerivAt_id' s
  · simpa [Function.update_of_ne h, Pi.single_eq_of_ne h] using hasDerivAt_const s (x j)

theorem partial_hasDerivAt {x : Fin n → ℂ} (i : Fin n) (h : DifferentiableAt ℂ f x) :
    HasDerivAt (fun s => f (Function.update x i s)) (fderiv ℂ f x (Pi.single i 1)) (x i) := by
  have h1 : HasFDerivAt f (fderiv ℂ f x) (Function.update x i (x i)) := by
    rw [Function.update_eq_self]; exact h.hasFDerivAt
  exact h1.comp_hasDerivAt (x i) (hasDerivAt_update x i (x i))

theorem partialDeriv_eq {x : Fin n → ℂ} (i : Fin n) (h : DifferentiableAt ℂ f x) :
    partialDeriv i f x = fderiv ℂ f x (Pi.single i 1) := (partial_hasDerivAt i h).deriv

theorem partialDeriv_congr (hU : IsOpen U) (i : Fin n) (h : Set.EqOn f g U) : Set.EqOn (partialDeriv i f) (partialDeriv i g) U := by
  intro x hx
  refine Filter.EventuallyEq.deriv_eq ?_
  have hc : ContinuousAt (fun s => Function.update x i s) (x i) := (continuous_const.update i continuous_id).continuousAt
  have : ∀ᶠ s in nhds (x i), Function.update x i s ∈ U :=
    hc.eventually_mem (by simpa using hU.mem_nhds hx)
  filter_upwards [this] with s hs using h hs

theorem partialDeriv_analytic (hU : IsOpen U) (h : AnalyticOnNhd ℂ f U) (i : Fin n) : AnalyticOnNhd ℂ (partialDeriv i f) U := by
  have h1 : AnalyticOnNhd ℂ (fun x => fderiv ℂ f x (Pi.single i 1)) U :=
    fun x hx => AnalyticAt.comp (g := fun L : (Fin n → ℂ) →L[ℂ] ℂ => L (Pi.single i 1)) (ContinuousLinearMap.analyticAt (ContinuousLinearMap.apply ℂ ℂ (Pi.single i (1 : ℂ))) (fderiv ℂ f x)) (h.fderiv x hx)
  exact h1.congr hU (fun x hx => (partialDeriv_eq i (h x hx).differentiableAt).symm)

theorem partialDeriv_comm (hU : IsOpen U) (h : AnalyticOnNhd ℂ f U) (i j : Fin n) :
    Set.EqOn (partialDeriv i (partialDeriv j f)) (partialDeriv j (partialDeriv i f)) U := by
  have key : ∀ i j : Fin n, ∀ x ∈ U, partialDeriv i (partialDeriv j f) x =
      fderiv ℂ (fderiv ℂ f) x (Pi.single i 1) (Pi.single j 1) := by
    intro i j x hx
    have h1 : Set.EqOn (partialDeriv j f) (fun x => fderiv ℂ f x (Pi.single j 1)) U :=
      fun y hy => partialDeriv_eq j (h y hy).differentiableAt
    rw [partialDeriv_congr hU i h1 hx]
    have h2 : DifferentiableAt ℂ (fderiv ℂ f) x := (h.fderiv x hx).differentiableAt
    rw [partialDeriv_eq i (h2.clm_apply (differentiableAt_const _))]
    rw [fderiv_clm_apply h2 (differentiableAt_const _)]
    simp
  intro x hx
  rw [key i j x hx, key j i x hx]
  have : IsSymmSndFDerivAt ℂ f x := ((h x hx).contDiffAt (n := 2)).isSymmSndFDerivAt (by simp)
  exact this _ _

theorem iterate_analytic (hU : IsOpen U) (h : AnalyticOnNhd ℂ f U) (i : Fin n) (k : ℕ) :
    AnalyticOnNhd ℂ ((partialDeriv i)^[k] f) U := by
  induction k with
  | zero => exact h
  | succ k ih => rw [Function.iterate_succ_apply']; exact partialDeriv_analytic hU ih i

theorem iterate_congr (hU : IsOpen U) (h : Set.EqOn f g U) (i : Fin n) (k : ℕ) :
    Set.EqOn ((partialDeriv i)^[k] f) ((partialDeriv i)^[k] g) U := by
  induction k with
  | zero => exact h
  | succ k ih => rw [Function.iterate_succ_apply', Function.iterate_succ_apply']; exact partialDeriv_congr hU i ih

theorem iterate_comm (hU : IsOpen U) (h : AnalyticOnNhd ℂ f U) (i j : Fin n) (k : ℕ) :
    Set.EqOn (partialDeriv j ((partialDeriv i)^[k] f)) ((partialDeriv i)^[k] (partialDeriv j f)) U := by
  induction k with
  | zero => exact fun _ _ => rfl
  | succ k ih =>
    rw [Function.iterate_succ_apply', Function.iterate_succ_apply']
    exact (partialDeriv_comm hU (iterate_analytic hU h i k) j i).trans (partialDeriv_congr hU i ih)

/-- the derivatives with respect to the variables of a list -/
noncomputable def along (l : List (Fin n)) (α : Fin n → ℕ) (f : (Fin n → ℂ) → ℂ) : (Fin n → ℂ) → ℂ :=
  l.foldr (fun i g => (partialDeriv i)^[α i] g) f

theorem mixed_eq_along (α : Fin n → ℕ) (f : (Fin n → ℂ) → ℂ) : mixed α f = along (List.finRange n) α f := rfl

theorem along_analytic (hU : IsOpen U) (h : AnalyticOnNhd ℂ f U) (l : List (Fin n)) (α : Fin n → ℕ) :
    AnalyticOnNhd ℂ (along l α f) U := by
  induction l with
  | nil => exact h
  | cons i l ih => exact iterate_analytic hU ih i (α i)

theorem along_congr (hU : IsOpen U) (h : Set.EqOn f g U) (l : List (Fin n)) (α : Fin n → ℕ) :
    Set.EqOn (along l α f) (along l α g) U := by
  induction l with
  | nil => exact h
  | cons i l ih => exact iterate_congr hU ih i (α i)

theorem along_comm (hU : IsOpen U) (h : AnalyticOnNhd ℂ f U) (l : List (Fin n)) (α : Fin n → ℕ) (j : Fin n) :
    Set.EqOn (partialDeriv j (along l α f)) (along l α (partialDeriv j f)) U := by
  induction l with
  | nil => exact fun _ _ => rfl
  | cons i l ih =>
    exact (iterate_comm hU (along_analytic hU h l α) i j (α i)).trans (iterate_congr hU ih i (α i))

theorem along_not_mem (l : List (Fin n)) (α : Fin n → ℕ) (j : Fin n) (k : ℕ) (hj : j ∉ l) :
    along l (Function.update α j k) f = along l α f := by
  induction l with
  | nil => rfl
  | cons i l ih =>
    simp only [List.mem_cons, not_or] at hj
    show (partialDeriv i)^[Function.update α j k i] (along l (Function.update α j k) f) = (partialDeriv i)^[α i] (along l α f)
    rw [ih hj.2, Function.update_of_ne (Ne.symm hj.1)]

theorem along_update (hU : IsOpen U) (h : AnalyticOnNhd ℂ f U) (l : List (Fin n)) (hl : l.Nodup) (α : Fin n → ℕ) (j : Fin n) (hj : j ∈ l) :
    Set.EqOn (along l (Function.update α j (α j + 1)) f) (partialDeriv j (along l α f)) U := by
  induction l with
  | nil => simp at hj
  | cons i l ih =>
    rw [List.nodup_cons] at hl
    rcases eq_or_ne i j with rfl | hij
    · show Set.EqOn ((partialDeriv i)^[Function.update α i (α i + 1) i] (along l (Function.update α i (α i + 1)) f)) _ U
      rw [Function.update_self, along_not_mem l α i _ hl.1, Function.iterate_succ_apply']
      exact fun _ _ => rfl
    · have hj' : j ∈ l := by
        rcases List.mem_cons.1 hj with h' | h'
        · exact absurd h'.symm hij
        · exact h'
      show Set.EqOn ((partialDeriv i)^[Function.update α j (α j + 1) i] (along l (Function.update α j (α j + 1)) f)) _ U
      rw [Function.update_of_ne hij]
      exact (iterate_congr hU (ih hl.2 hj') i (α i)).trans (iterate_comm hU (along_analytic hU h l α) i j (α i)).symm

/-- one more derivative -/
theorem mixed_update (hU : IsOpen U) (h : AnalyticOnNhd ℂ f U) (α : Fin n → ℕ) (j : Fin n) :
    Set.EqOn (mixed (Function.update α j (α j + 1)) f) (partialDeriv j (mixed α f)) U :=
  along_update hU h _ (List.nodup_finRange n) α j (List.mem_finRange j)

theorem mixed_analytic (hU : IsOpen U) (h : AnalyticOnNhd ℂ f U) (α : Fin n → ℕ) : AnalyticOnNhd ℂ (mixed α f) U :=
  along_analytic hU h _ α

theorem mixed_congr (hU : IsOpen U) (h : Set.EqOn f g U) (α : Fin n → ℕ) : Set.EqOn (mixed α f) (mixed α g) U :=
  along_congr hU h _ α

theorem mixed_zero (f : (Fin n → ℂ) → ℂ) : mixed (fun _ => 0) f = f := by
  unfold mixed
  induction List.finRange n with
  | nil => rfl
  | cons i l ih => simp

end Func
end SecDec
