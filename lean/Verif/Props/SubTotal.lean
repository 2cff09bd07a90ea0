import Verif.Proof.SubTotal
import Verif.Props.Subtraction
import Verif.Props.Parts
import Verif.Props.ExprTotal
/-
C37 (continued): the subtraction of poles, the integration by parts and the Taylor expansion end.
-/
namespace SecDec
open Expr

namespace Subtraction
variable {N R : Nat} {F : Type} [Field F] [DecidableEq F] {φ : F →+* ℂ}

/-- `cal_I` is a nonempty product of complete expressions (the regulator poles have a complete exponent). -/
def CompleteIntegrand {n : ℕ} (P : PolyProd n F) : Prop := P.calI ≠ [] ∧ (∀ e ∈ P.calI, Complete e) ∧ Complete P.regExp

theorem CompleteIntegrand.cp {n : ℕ} {P : PolyProd n F} (h : CompleteIntegrand P) : CP P := ⟨h.1, h.2.1, h.2.2⟩

/-- C37: `integrate_pole_part` ends for every product of complete expressions, with a list of terms or with one of its two
documented exceptions; the terms are again complete. -/
theorem C37_pole_part_terminates {n : ℕ} (val : F → Option ℚ) (P : PolyProd n F) (hc : CompleteIntegrand P) (js : List (Fin n)) :
    ∃ r, Stops Err.outOfFuel (fun fuel => integratePolePart fuel val P js) r ∧
      ∀ outs, r = .ok outs → ∀ Q ∈ outs, CompleteIntegrand Q := by
  obtain ⟨r, h1, h2⟩ := (poleLoopIdx_ev val js [P] (by simpa using hc.cp)).stops
  exact ⟨r, h1, fun outs ho Q hQ => ⟨(h2 outs ho Q hQ).ne, (h2 outs ho Q hQ).calI, (h2 outs ho Q hQ).regExp⟩⟩

/-- C37: it returns the list of terms whenever the powers of the treated parameters have numeric constant terms and no
parameter with a negative one is unregulated. -/
theorem C37_pole_part_succeeds (val : F → Option ℚ) (hv0 : val 0 = some 0) (P : PolyProd (N + R) F) (hW : WellFormed φ P)
    (hc : CompleteIntegrand P) (js : List (Fin N))
    (hj : ∀ j ∈ js, ∃ q, val (powerCoeff P j (fun _ => 0)) = some q ∧ ¬ (q < 0 ∧ Unregulated P j)) :
    ∃ outs, Stops Err.outOfFuel (fun fuel => integratePolePart fuel val P (js.map (Fin.castAdd R))) (.ok outs) := by
  obtain ⟨r, ⟨h1, K, h2⟩, _⟩ := C37_pole_part_terminates val P hc (js.map (Fin.castAdd R))
  cases r with
  | ok outs => exact ⟨outs, h1, K, h2⟩
  | error e =>
    exfalso
    have h0 : Form φ P ∅ (fun _ => 0) P := ⟨hW.wm, hW.base, rfl, fun i => Or.inr ⟨by simp, rfl⟩, by simp, by simp⟩
    rcases poleLoopIdx_error (P := P) (φ := φ) hv0 js [P] e (by
      intro Q hQ; simp at hQ; subst hQ; exact ⟨∅, _, h0⟩) (h2 K (le_refl _)) with ⟨_, j, hj', h3⟩ | ⟨_, j, hj', q, hq, h3, h4⟩ | rfl
    · obtain ⟨q, h5, _⟩ := hj j hj'
      rw [← ect_eq_powerCoeff, h3] at h5; simp at h5
    · obtain ⟨q', h5, h6⟩ := hj j hj'
      rw [← ect_eq_powerCoeff, h3] at h5; simp at h5; subst h5
      exact h6 ⟨hq, h4⟩
    · exact h1 rfl

/-- C37: `integrate_by_parts` ends, for all goals: with a list of terms or with one of its two documented exceptions. -/
theorem C37_parts_terminates (val : F → Option ℚ) (hv : ∀ c q, val c = some q → val (c + 1) = some (q + 1))
    (P : PolyProd (N + R) F) (hW : WellFormed φ P) (hC : CleanExponents P) (hc : CompleteIntegrand P) (goals : List ℚ) (js : List (Fin N)) :
    ∃ r, Stops Err.outOfFuel (fun fuel => integrateByParts fuel val P goals (js.map (Fin.castAdd R))) r ∧
      ∀ outs, r = .ok outs → ∀ Q ∈ outs, CompleteIntegrand Q := by
  simp only [integrateByParts_eq]
  obtain ⟨r, h1, h2⟩ := (ibpLoopIdx_ev (φ := φ) hv (goals.zip js) [P] (by simpa using ⟨hc.cp, mw_start hW hC⟩)).stops
  exact ⟨r, h1, fun outs ho Q hQ => ⟨(h2 outs ho Q hQ).1.ne, (h2 outs ho Q hQ).1.calI, (h2 outs ho Q hQ).1.regExp⟩⟩

/-- C37: it returns the list of terms whenever no exception is justified. -/
theorem C37_parts_succeeds (val : F → Option ℚ) (hv : ∀ c q, val c = some q → val (c + 1) = some (q + 1))
    (P : PolyProd (N + R) F) (hW : WellFormed φ P) (hC : CleanExponents P) (hc : CompleteIntegrand P) (goals : List ℚ) (js : List (Fin N))
    (hlen : goals.length = js.length) (hnd : js.Nodup)
    (hj : ∀ j ∈ js, ∃ q, val (powerCoeff P j (fun _ => 0)) = some q ∧ ¬ (q < 0 ∧ Unregulated P j)) :
    ∃ outs, Stops Err.outOfFuel (fun fuel => integrateByParts fuel val P goals (js.map (Fin.castAdd R))) (.ok outs) := by
  obtain ⟨r, ⟨h1, K, h2⟩, _⟩ := C37_parts_terminates val hv P hW hC hc goals js
  cases r with
  | ok outs => exact ⟨outs, h1, K, h2⟩
  | error e =>
    exfalso
    have h3 := h2 K (le_refl _)
    beta_reduce at h3
    rw [integrateByParts_eq] at h3
    rcases ibpLoopIdx_error (P := P) (φ := φ) hv (goals.zip js) [] [P] _ (by
      intro Q hQ; simp at hQ; subst hQ; exact ⟨mw_start hW hC, fun _ _ _ => rfl⟩) (by simp)
      (goals_nodup hlen hnd) h3 with ⟨_, g, hg, h4⟩ | ⟨_, g, hg, q, hq, h4, h5⟩ | rfl
    · obtain ⟨q, h6, _⟩ := hj g.2 (List.of_mem_zip (a := g.1) (b := g.2) hg).2
      rw [h4] at h6; simp at h6
    · obtain ⟨q', h6, h7⟩ := hj g.2 (List.of_mem_zip (a := g.1) (b := g.2) hg).2
      rw [h4] at h6; simp at h6; subst h6
      exact h7 ⟨hq, h5⟩
    · exact h1 rfl

/-- The sample `x ** (-1 + eps) * exp(x)` meets the hypotheses ... -/
example : CompleteIntegrand sample := by
  refine ⟨by simp [sample], ?_, .poly _ (by simpa using .num _)⟩
  intro e he; simp [sample] at he; subst he
  exact .exp _ (.poly _ (by simpa using .num _))

/-- ... and both functions succeed on it. -/
example : ∀ j ∈ [(0 : Fin 1)], ∃ q, some (powerCoeff (N := 1) (R := 1) sample j (fun _ => 0)) = some q ∧
    ¬ (q < 0 ∧ Unregulated (N := 1) (R := 1) sample j) := by
  intro j hj; simp at hj; subst hj
  exact ⟨_, rfl, fun h => sample_regulated h.2⟩

end Subtraction

namespace Expansion
variable {n : Nat} {F : Type} [Field F] [DecidableEq F]

/-- C37: `expand_Taylor` ends for every complete expression. -/
theorem C37_taylor_terminates (e : Expr n F) (h : Complete e) (l : List (Fin n × Int)) :
    ∃ r, Stops Err.outOfFuel (fun fuel => expandTaylor fuel e l) r := by
  obtain ⟨r, h1, _⟩ := (expandTaylor_ev e h l).stops
  exact ⟨r, h1⟩

/-- C37: it returns an expansion unless one of the orders is negative (or there is no variable at all). -/
theorem C37_taylor_succeeds (e : Expr n F) (h : Complete e) (l : List (Fin n × Int)) (hl : l ≠ []) (ho : ∀ a ∈ l, 0 ≤ a.2) :
    ∃ p, Stops Err.outOfFuel (fun fuel => expandTaylor fuel e l) (.ok p) := by
  obtain ⟨r, h1, K, h2⟩ := C37_taylor_terminates e h l
  cases r with
  | ok p => exact ⟨p, h1, K, h2⟩
  | error err =>
    exfalso
    have := expandTaylor_err hl ho (h2 K (le_refl _))
    subst this; exact h1 rfl

/-- A case: `log(1 + x) ** 2`, first order in `x`. -/
example : ∃ p, Stops Err.outOfFuel (fun fuel => expandTaylor fuel
    (.pow (.log (.poly [((fun _ => 0), .num 1), ((fun _ => 1), .num 1)])) (.num 2) : Expr 1 ℚ) [(0, 1)]) (.ok p) :=
  C37_taylor_succeeds _ (.pow _ _ (.log _ (.poly _ (by
    intro t ht; simp at ht; rcases ht with rfl | rfl <;> exact .num _))) (.num _)) _ (by simp) (by simp)

end Expansion
end SecDec
