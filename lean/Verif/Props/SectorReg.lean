import Verif.Proof.RegParts
import Verif.Props.Sector
/-
C20, C21 and C46 where the integral diverges: the value is that of the analytically regulated integral.
-/
set_option linter.unusedSectionVars false
namespace SecDec.Subtraction
open Expr Set Decomp MeasureTheory

variable {N R : Nat} {F : Type} [Field F] [DecidableEq F] {φ : F →+* ℂ} {ε : Fin R → ℂ}

/-- The returned terms are regulated integrals. -/
theorem outs_regulated {fuel : ℕ} {val : F → Option ℚ} (hval : ∀ c q, val c = some q → φ c = (q : ℂ))
    {P : PolyProd (N + R) F} {js : List (Fin N)} {outs : List (PolyProd (N + R) F)}
    (hW : WellFormed φ P) (hS : Smooth φ ε P) (a : Fin N → ℚ)
    (ha : ∀ i ∈ js, power φ (fun _ => 0) P i = (a i : ℂ))
    (hden : ∀ i ∈ js, ∀ p : ℕ, power φ ε P i + p + 1 ≠ 0)
    (hA : ∀ i, -1 < (power φ ε P i).re + (if i ∈ js ∧ a i < 0 then ⌊-(a i)⌋.toNat else 0 : ℕ))
    (h : integratePolePart fuel val P (js.map (Fin.castAdd R)) = .ok outs) :
    ∀ Q ∈ outs, Regulated (value φ ε Q) (cubeIntegral (value φ ε Q)) := by
  have hgood := poleLoopIdx_good (P := P) js [P] outs ⟨P, by simp, rfl⟩ h
  have hvala : ∀ i ∈ js, val (ect (Fin.castAdd R i) P.monos) = some (a i) := by
    intro i hi
    obtain ⟨q, hq, _⟩ := hgood i hi
    have h1 := hval _ _ hq
    have h2 := ha i hi
    rw [power_eq, pw_zero_point hW.wm, h1] at h2
    have : q = a i := by exact_mod_cast h2
    rw [hq, this]
  have h0 : Inv φ ε val P [] P := ⟨hW, on_of_smooth hS, fun i => Or.inr ⟨rfl, rfl, fun hi => by simp at hi⟩⟩
  intro Q hQ
  obtain ⟨S', hS', hI⟩ := poleLoopIdx_inv hval js [] [P] outs (by simpa using h0) (by
    intro j hj p _
    rw [← power_eq]
    exact hden j hj p) h Q hQ
  obtain ⟨U, hU⟩ := hI.sm
  have hint : ∀ i : Fin N, ∃ m : ℕ, Van ε (fI φ Q) i m ∧ -1 < (pw φ ε Q.monos i).re + m := by
    intro i
    rcases hI.col i with hz | ⟨e1, e2, e3⟩
    · exact ⟨0, van_zero _ _, by rw [pw_zero hz]; simp⟩
    · have hAi := hA i
      rw [power_eq] at hAi
      by_cases hi : i ∈ js ∧ a i < 0
      · rw [if_pos hi] at hAi
        exact ⟨_, e3 (hS' i (Or.inr hi.1)) (a i) (hvala i hi.1) hi.2, by rw [e2]; exact hAi⟩
      · rw [if_neg hi] at hAi
        exact ⟨0, van_zero _ _, by rw [e2]; exact hAi⟩
  choose m hm1 hm2 using hint
  exact regulated_of_van hI.wf hU m hm1 hm2

/-- C20: the subtraction gives the value of the integral also for regulators where the integral diverges.  If the powers at these
values of the regulators are not negative integers, and the subtractions suffice, then every returned term is integrable and the
sum of the integrals of the returned terms is the analytically regulated integral of the original product. -/
theorem C20_regulated_value {fuel : ℕ} {val : F → Option ℚ} (hval : ∀ c q, val c = some q → φ c = (q : ℂ))
    {P : PolyProd (N + R) F} {js : List (Fin N)} {outs : List (PolyProd (N + R) F)}
    (hW : WellFormed φ P) (hS : Smooth φ ε P) (a : Fin N → ℚ)
    (ha : ∀ i ∈ js, power φ (fun _ => 0) P i = (a i : ℂ))
    (hden : ∀ i ∈ js, ∀ p : ℕ, power φ ε P i + p + 1 ≠ 0)
    (hA : ∀ i, -1 < (power φ ε P i).re + (if i ∈ js ∧ a i < 0 then ⌊-(a i)⌋.toNat else 0 : ℕ))
    (h : integratePolePart fuel val P (js.map (Fin.castAdd R)) = .ok outs) :
    (∀ Q ∈ outs, CubeIntegrable (value φ ε Q)) ∧ Regulated (value φ ε P) (outs.map fun Q => cubeIntegral (value φ ε Q)).sum := by
  refine ⟨fun Q hQ => (C20_terms_integrable hval hW hS a ha (fun i hi p _ => hden i hi p) hA h Q hQ).2.2, ?_⟩
  have h1 : RegSum φ ε outs (outs.map fun Q => cubeIntegral (value φ ε Q)).sum :=
    RegSum.of (J := fun Q => cubeIntegral (value φ ε Q)) (outs_regulated hval hW hS a ha hden hA h)
  exact (poleLoopIdx_regulated (φ := φ) (ε := ε) (ks := js) js [P] outs (fun _ h => h) (by
    intro Q hQ; simp only [List.mem_singleton] at hQ; subst hQ
    exact ⟨hW, on_of_smooth hS, fun j hj p => by rw [← power_eq]; exact hden j hj p⟩) h _ h1).single

theorem regSum_of_forall₂ {outs : List (PolyProd (N + R) F)} {vs : List ℂ}
    (h : List.Forall₂ (fun Q v => Regulated (value φ ε Q) v) outs vs) : RegSum φ ε outs vs.sum := by
  induction h with
  | nil => rfl
  | cons h _ ih => exact ⟨_, _, h, ih, by simp⟩

/-- C21: integration by parts preserves the value also where the integrals diverge: if the powers at these values of the
regulators are not negative integers, the analytically regulated integrals of the returned terms add up to that of the
original product.
(Partial: exponents inside `cal_I` must not be positive integers, see `C21_boundary_term_wrong`.) -/
theorem C21_regulated_value_partial {fuel : ℕ} {val : F → Option ℚ} {P : PolyProd (N + R) F} {goals : List ℚ}
    {js : List (Fin N)} {outs : List (PolyProd (N + R) F)} (hW : WellFormed φ P) (hC : CleanExponents P)
    (hS : SmoothNonint φ ε P) (hden : ∀ i ∈ js, ∀ p : ℕ, power φ ε P i + p + 1 ≠ 0)
    (h : integrateByParts fuel val P goals (js.map (Fin.castAdd R)) = .ok outs)
    {vs : List ℂ} (hv : List.Forall₂ (fun Q v => Regulated (value φ ε Q) v) outs vs) : Regulated (value φ ε P) vs.sum := by
  rw [integrateByParts_eq] at h
  refine ((ibpLoopIdx_regulated (js := js) (goals.zip js) [P] outs (fun g hg => (List.of_mem_zip hg).2) (by
    intro Q hQ; simp only [List.mem_singleton] at hQ; subst hQ
    exact ⟨hW, (cleanExponents_iff Q).1 hC, onP_of_smooth hS, fun j hj p => by rw [← power_eq]; exact hden j hj p⟩) h).2 _
    (regSum_of_forall₂ hv)).single

/-! ### The powers after integration by parts -/

/-- The unfolding of one step, without conditions. -/
theorem ibpSingle_shape {fuel steps : ℕ} {val : F → Option ℚ} {goal : ℚ} {j : Fin N} {P : PolyProd (N + R) F}
    {outs : List (PolyProd (N + R) F)} (h : ibpSingle fuel val goal (Fin.castAdd R j) (steps + 1) P = .ok outs) :
    outs = [P] ∨ ∃ (Q T : PolyProd (N + R) F) (rest : List (PolyProd (N + R) F)) (c1 c1s d ds : Expr (N + R) F), outs = Q :: rest ∧
      (Q.monos = P.monos.map (Monomial.setOne (Fin.castAdd R j)) ∧ Q.regExp = P.regExp ∧ Q.calI = [c1s] ∧
        Q.regBase = P.regBase.mul ((fullExponent (Fin.castAdd R j) P.monos).addScalar 1)) ∧
      (T.monos = increasePower (Fin.castAdd R j) P.monos ∧ T.regExp = P.regExp ∧ T.calI = [ds] ∧
        T.regBase = P.regBase.mul ((fullExponent (Fin.castAdd R j) P.monos).addScalar 1)) ∧
      Expr.replace 1 (fun _ => 1) (Fin.castAdd R j) fuel (.prod P.calI) = some c1 ∧ Expr.simplify fuel c1 = some c1s ∧
      Expr.derive fuel (.prod P.calI) (Fin.castAdd R j) = some d ∧ Expr.simplify fuel (.prod [const (-1), d]) = some ds ∧
      ibpSingle fuel val goal (Fin.castAdd R j) steps T = .ok rest := by
  simp only [ibpSingle] at h
  split at h
  · simp at h
  split at h
  · simp at h
  split at h
  · simp at h
    exact Or.inl h.symm
  right
  obtain ⟨c1, hc1, h⟩ := bind_ok h
  obtain ⟨c1s, hc1s, h⟩ := bind_ok h
  obtain ⟨d, hd, h⟩ := bind_ok h
  obtain ⟨ds, hds, h⟩ := bind_ok h
  obtain ⟨rest, hrest, h⟩ := bind_ok h
  simp at h
  exact ⟨_, { monos := increasePower (Fin.castAdd R j) P.monos, regBase := P.regBase.mul ((fullExponent (Fin.castAdd R j) P.monos).addScalar 1), regExp := P.regExp, calI := [ds] },
    rest, c1, c1s, d, ds, h.symm, ⟨rfl, rfl, rfl, rfl⟩, ⟨rfl, rfl, rfl, rfl⟩, lift_ok hc1, lift_ok hc1s, lift_ok hd, lift_ok hds, hrest⟩

theorem increasePower_ne (j : Fin (N + R)) (ms : List (Monomial (N + R) F)) : increasePower j ms ≠ [] := by
  unfold increasePower
  split
  · rename_i ms' h
    cases ms with
    | nil => simp [increaseFirst] at h
    | cons m ms =>
      simp only [increaseFirst] at h
      split at h
      · simp at h; rw [← h]; simp
      · obtain ⟨a, _, rfl⟩ := Option.map_eq_some_iff.1 h
        simp
  · simp

/-- The relation of the terms after the integration by parts to the original product. -/
structure IForm (φ : F →+* ℂ) (js : List (Fin N)) (P Q : PolyProd (N + R) F) : Prop where
  wf : WellFormed φ Q
  cm : ∀ m ∈ Q.monos, CM m
  pw : ∀ i, (∃ k : ℕ, ∀ ε : Fin R → ℂ, Subtraction.pw φ ε Q.monos i = k) ∨
    ∃ k : ℕ, (∀ ε : Fin R → ℂ, Subtraction.pw φ ε Q.monos i = Subtraction.pw φ ε P.monos i + k) ∧ (i ∉ js → k = 0)
  pc : ∀ i, (∃ k : ℕ, ∀ e, powerCoeff Q i e = if e = (fun _ => 0) then (k : F) else 0) ∨
    ∃ k : ℕ, ∀ e, powerCoeff Q i e = powerCoeff P i e + if e = (fun _ => 0) then (k : F) else 0
  den : ∀ ε : Fin R → ℂ, (∀ j ∈ js, ∀ p : ℕ, Subtraction.pw φ ε P.monos j + p + 1 ≠ 0) → pev φ (rpt N ε) P.regBase ≠ 0 →
    pev φ (rpt N ε) Q.regBase ≠ 0

theorem IForm.step {js : List (Fin N)} {P Q T : PolyProd (N + R) F} (h : IForm φ js P Q) {j : Fin N} (hj : j ∈ js)
    (hT : T.regBase = Q.regBase.mul ((fullExponent (Fin.castAdd R j) Q.monos).addScalar 1)) (ε : Fin R → ℂ)
    (h1 : ∀ j ∈ js, ∀ p : ℕ, Subtraction.pw φ ε P.monos j + p + 1 ≠ 0) (h2 : pev φ (rpt N ε) P.regBase ≠ 0) :
    pev φ (rpt N ε) T.regBase ≠ 0 := by
  rw [hT, pev_mul _ h.wf.base.nonneg (den_one h.wf.wm j).1.nonneg, (den_one h.wf.wm j).2]
  refine mul_ne_zero (h.den ε h1 h2) ?_
  rcases h.pw j with ⟨k, h0⟩ | ⟨k, h0, _⟩
  · rw [h0]; exact_mod_cast Nat.succ_ne_zero k
  · rw [h0]; exact h1 j hj k

theorem powerCoeff_setOne_self {P Q : PolyProd (N + R) F} (h : MW φ P) {j : Fin N}
    (hQ : Q.monos = P.monos.map (Monomial.setOne (Fin.castAdd R j))) (e : Expo (N + R)) : powerCoeff Q j e = 0 := by
  unfold powerCoeff
  rw [hQ, List.map_map]
  refine List.sum_eq_zero fun x hx => ?_
  obtain ⟨m, hm, rfl⟩ := List.mem_map.1 hx
  simp only [Function.comp]
  rw [setOne_eq (h.wm m hm)]
  simp

theorem ibpSingle_iform {js : List (Fin N)} {P : PolyProd (N + R) F} {fuel : ℕ} {val : F → Option ℚ} {goal : ℚ} {j : Fin N} (hj : j ∈ js)
    (steps : ℕ) : ∀ (Q : PolyProd (N + R) F) (outs : List (PolyProd (N + R) F)), IForm φ js P Q →
      ibpSingle fuel val goal (Fin.castAdd R j) steps Q = .ok outs → ∀ T ∈ outs, IForm φ js P T := by
  induction steps with
  | zero => intro Q outs _ h; simp [ibpSingle] at h
  | succ steps ih =>
    intro Q outs hQ h
    obtain rfl | ⟨B, T, rest, c1, c1s, d, ds, rfl, ⟨B1, B2, -, B4⟩, ⟨T1, T2, -, T4⟩, -, -, -, -, hr⟩ := ibpSingle_shape h
    · simpa using hQ
    · have hmw : MW φ Q := ⟨hQ.wf.wm, hQ.cm⟩
      have hI := hmw.incr T1
      have hTc : IForm φ js P T := by
        refine ⟨wf_of hQ.wf hI.wm T4 T2, hI.cm, fun i => ?_, fun i => ?_, hQ.step hj T4⟩
        · rcases hQ.pw i with ⟨k, h0⟩ | ⟨k, h0, h0'⟩
          · by_cases hij : i = j
            · exact Or.inl ⟨k + 1, fun ε => by rw [hI.pw ε i, if_pos hij, h0]; push_cast; ring⟩
            · exact Or.inl ⟨k, fun ε => by rw [hI.pw ε i, if_neg hij, h0, add_zero]⟩
          · by_cases hij : i = j
            · exact Or.inr ⟨k + 1, fun ε => by rw [hI.pw ε i, if_pos hij, h0]; push_cast; ring, fun hi => absurd (hij ▸ hj) hi⟩
            · exact Or.inr ⟨k, fun ε => by rw [hI.pw ε i, if_neg hij, h0, add_zero], h0'⟩
        · rcases hQ.pc i with ⟨k, h0⟩ | ⟨k, h0⟩
          · by_cases hij : i = j
            · exact Or.inl ⟨k + 1, fun e => by rw [powerCoeff_incr hI, h0]; simp only [hij, true_and]; split_ifs <;> simp⟩
            · exact Or.inl ⟨k, fun e => by rw [powerCoeff_incr hI, h0]; simp only [hij, false_and, if_false, add_zero]⟩
          · by_cases hij : i = j
            · exact Or.inr ⟨k + 1, fun e => by rw [powerCoeff_incr hI, h0]; simp only [hij, true_and]; split_ifs <;> simp [add_assoc]⟩
            · exact Or.inr ⟨k, fun e => by rw [powerCoeff_incr hI, h0]; simp only [hij, false_and, if_false, add_zero]⟩
      have hmb := hmw.setOne B1
      have hBc : IForm φ js P B := by
        refine ⟨wf_of hQ.wf hmb.wm B4 B2, hmb.cm, fun i => ?_, fun i => ?_, hQ.step hj B4⟩
        · by_cases hij : i = j
          · exact Or.inl ⟨0, fun ε => by rw [B1, pw_setOne hQ.wf.wm, if_pos hij]; simp⟩
          · rcases hQ.pw i with ⟨k, h0⟩ | ⟨k, h0, h0'⟩
            · exact Or.inl ⟨k, fun ε => by rw [B1, pw_setOne hQ.wf.wm, if_neg hij, h0]⟩
            · exact Or.inr ⟨k, fun ε => by rw [B1, pw_setOne hQ.wf.wm, if_neg hij, h0], h0'⟩
        · by_cases hij : i = j
          · subst hij
            exact Or.inl ⟨0, fun e => by rw [powerCoeff_setOne_self hmw B1]; simp⟩
          · rcases hQ.pc i with ⟨k, h0⟩ | ⟨k, h0⟩
            · exact Or.inl ⟨k, fun e => by rw [powerCoeff_setOne hmw hij B1, h0]⟩
            · exact Or.inr ⟨k, fun e => by rw [powerCoeff_setOne hmw hij B1, h0]⟩
      intro S hS
      rcases List.mem_cons.1 hS with rfl | hS
      · exact hBc
      · exact ih T rest hTc hr S hS

theorem ibpLoopIdx_iform {js : List (Fin N)} {P : PolyProd (N + R) F} {fuel : ℕ} {val : F → Option ℚ} (gs : List (ℚ × Fin N)) :
    ∀ (l outs : List (PolyProd (N + R) F)), (∀ g ∈ gs, g.2 ∈ js) → (∀ Q ∈ l, IForm φ js P Q) →
      ibpLoopIdx fuel val (castGoals gs) l = .ok outs → ∀ Q ∈ outs, IForm φ js P Q := by
  induction gs with
  | nil => intro l outs _ hl h; simp [castGoals, ibpLoopIdx] at h; subst h; exact hl
  | cons g gs ih =>
    intro l outs hg hl h
    simp only [castGoals, List.map_cons, ibpLoopIdx] at h
    obtain ⟨l', hl', h⟩ := bind_ok h
    have a1 := extendAll_all (p := IForm φ js P) (r := IForm φ js P)
      (fun Q outs hQ ho => ibpSingle_iform (hg g (by simp)) fuel Q outs hQ ho) l l' hl hl'
    exact ih l' outs (fun g' hg' => hg g' (by simp [hg'])) a1 h

theorem iform_start {P : PolyProd (N + R) F} (hW : WellFormed φ P) (hC : CleanExponents P) (js : List (Fin N)) : IForm φ js P P :=
  ⟨hW, (cleanExponents_iff P).1 hC, fun i => Or.inr ⟨0, fun ε => by simp, fun _ => rfl⟩, fun i => Or.inr ⟨0, fun e => by simp⟩, fun ε _ h => h⟩

/-! ### Smoothness after integration by parts -/

/-- The terms are never without monomials. -/
theorem ibpSingle_monos {fuel : ℕ} {val : F → Option ℚ} {goal : ℚ} {j : Fin N} (steps : ℕ) :
    ∀ (Q : PolyProd (N + R) F) (outs : List (PolyProd (N + R) F)), Q.monos ≠ [] →
      ibpSingle fuel val goal (Fin.castAdd R j) steps Q = .ok outs → ∀ T ∈ outs, T.monos ≠ [] := by
  induction steps with
  | zero => intro Q outs _ h; simp [ibpSingle] at h
  | succ steps ih =>
    intro Q outs hQ h
    obtain rfl | ⟨B, T, rest, c1, c1s, d, ds, rfl, ⟨B1, -⟩, ⟨T1, -⟩, -, -, -, -, hr⟩ := ibpSingle_shape h
    · simpa using hQ
    · intro S hS
      rcases List.mem_cons.1 hS with rfl | hS
      · rw [B1]; simpa using hQ
      · exact ih T rest (by rw [T1]; exact increasePower_ne _ _) hr S hS

theorem ibpLoopIdx_monos {fuel : ℕ} {val : F → Option ℚ} (gs : List (ℚ × Fin N)) :
    ∀ (l outs : List (PolyProd (N + R) F)), (∀ Q ∈ l, Q.monos ≠ []) → ibpLoopIdx fuel val (castGoals gs) l = .ok outs → ∀ Q ∈ outs, Q.monos ≠ [] := by
  induction gs with
  | nil => intro l outs hl h; simp [castGoals, ibpLoopIdx] at h; subst h; exact hl
  | cons g gs ih =>
    intro l outs hl h
    simp only [castGoals, List.map_cons, ibpLoopIdx] at h
    obtain ⟨l', hl', h⟩ := bind_ok h
    exact ih l' outs (extendAll_all (p := fun Q => Q.monos ≠ []) (r := fun Q => Q.monos ≠ [])
      (fun Q outs hQ ho => ibpSingle_monos fuel Q outs hQ ho) l l' hl hl') h

theorem ibpLoopIdx_ne {fuel : ℕ} {val : F → Option ℚ} (gs : List (ℚ × Fin N)) :
    ∀ (l outs : List (PolyProd (N + R) F)), l ≠ [] → ibpLoopIdx fuel val (castGoals gs) l = .ok outs → outs ≠ [] := by
  induction gs with
  | nil => intro l outs hl h; simp [castGoals, ibpLoopIdx] at h; subst h; exact hl
  | cons g gs ih =>
    intro l outs hl h
    simp only [castGoals, List.map_cons, ibpLoopIdx] at h
    obtain ⟨l', hl', h⟩ := bind_ok h
    refine ih l' outs (extendAll_ne (p := fun _ => True) (fun Q outs _ ho => ?_) l l' hl (fun _ _ => trivial) hl') h
    cases fuel with
    | zero => simp [ibpSingle] at ho
    | succ fuel =>
      obtain rfl | ⟨B, T, rest, _, _, _, _, rfl, _⟩ := ibpSingle_shape ho <;> simp

theorem ibpSingle_nonint0 {fuel : ℕ} {val : F → Option ℚ} {goal : ℚ} {j : Fin N} (steps : ℕ) :
    ∀ (Q : PolyProd (N + R) F) (outs : List (PolyProd (N + R) F)), SmoothNonint0 φ ε Q →
      ibpSingle fuel val goal (Fin.castAdd R j) steps Q = .ok outs → ∀ T ∈ outs, SmoothNonint0 φ ε T := by
  induction steps with
  | zero => intro Q outs _ h; simp [ibpSingle] at h
  | succ steps ih =>
    intro Q outs hQ h
    obtain rfl | ⟨B, T, rest, c1, c1s, d, ds, rfl, ⟨-, -, B3, -⟩, ⟨-, -, T3, -⟩, hc1, hc1s, hd, hds, hr⟩ := ibpSingle_shape h
    · simpa using hQ
    · obtain ⟨U, hU, hcov, hA⟩ := hQ
      have hP : Adm (Mode.nonint0 φ isReg) φ U (.prod Q.calI) := Adm.prod _ hA
      have k1 := replace_one_adm0 (Fin.castAdd R j) (not_isReg j) fuel _ _ hP hc1
      have k2 := ((simplify_ok (M := Mode.nonint0 φ isReg) (φ := φ) (U := {x | Function.update x (Fin.castAdd R j) 1 ∈ U}) fuel).simp _ _ k1 hc1s).1
      have k3 := derive_ok hU fuel _ _ hP hd
      have k4 := ((simplify_ok (M := Mode.nonint0 φ isReg) (φ := φ) (U := U) fuel).simp _ _ (Adm.prod [const (-1), d] (by
        intro e he; simp at he; rcases he with rfl | rfl
        · exact adm_minus_one
        · exact k3.1)) hds).1
      intro S hS
      rcases List.mem_cons.1 hS with rfl | hS
      · refine ⟨{x | Function.update x (Fin.castAdd R j) 1 ∈ U}, hU.preimage (continuous_upd _ _), Covers.dom1 hcov j, ?_⟩
        intro e he; rw [B3] at he; simp at he; subst he; exact k2.1
      · refine ih T rest ⟨U, hU, hcov, ?_⟩ hr S hS
        intro e he; rw [T3] at he; simp at he; subst he; exact k4.1

theorem ibpLoopIdx_nonint0 {fuel : ℕ} {val : F → Option ℚ} (gs : List (ℚ × Fin N)) :
    ∀ (l outs : List (PolyProd (N + R) F)), (∀ Q ∈ l, SmoothNonint0 φ ε Q) →
      ibpLoopIdx fuel val (castGoals gs) l = .ok outs → ∀ Q ∈ outs, SmoothNonint0 φ ε Q := by
  induction gs with
  | nil => intro l outs hl h; simp [castGoals, ibpLoopIdx] at h; subst h; exact hl
  | cons g gs ih =>
    intro l outs hl h
    simp only [castGoals, List.map_cons, ibpLoopIdx] at h
    obtain ⟨l', hl', h⟩ := bind_ok h
    exact ih l' outs (extendAll_all (p := SmoothNonint0 φ ε) (r := SmoothNonint0 φ ε)
      (fun Q outs hQ ho => ibpSingle_nonint0 fuel Q outs hQ ho) l l' hl hl') h

theorem expo_of_nonint0 {n : ℕ} {dep : Fin n → Prop} {e : Expr n F} (h : (Mode.nonint0 φ dep).expo e) : (Mode.nonint φ dep).expo e := by
  obtain ⟨h1, ⟨h2, h3⟩, h4⟩ := h
  refine ⟨h1, fun k => ?_, fun i hi x s _ _ => h4 i hi x s⟩
  by_contra hc
  push Not at hc
  apply h3 k
  have hcont : ContinuousAt (fun x => Expr.eval φ x e) 0 :=
    (Adm.analytic (M := Mode.flat) (flat_adm_univ (φ := φ) h1 h2) 0 trivial).continuousAt
  have hseq : Filter.Tendsto (fun m : ℕ => (fun _ : Fin n => (((m : ℝ) + 1)⁻¹ : ℂ))) Filter.atTop (nhds 0) := by
    refine tendsto_pi_nhds.2 fun i => ?_
    have := tendsto_one_div_add_atTop_nhds_zero_nat (𝕜 := ℝ)
    have h5 := (Complex.continuous_ofReal.tendsto 0).comp this
    simpa [Function.comp_def, one_div] using h5
  refine tendsto_nhds_unique (hcont.tendsto.comp hseq) (tendsto_const_nhds.congr fun m => ?_)
  refine (hc _ fun i => ?_).symm
  have : ((m : ℝ) : ℂ) + 1 ≠ 0 := by exact_mod_cast Nat.cast_add_one_ne_zero (R := ℂ) m
  exact inv_ne_zero this

theorem SmoothNonint0.nonint {P : PolyProd (N + R) F} (h : SmoothNonint0 φ ε P) : SmoothNonint φ ε P := by
  obtain ⟨U, h1, h2, h3⟩ := h
  exact ⟨U, h1, h2, fun e he => Adm.mode (M := Mode.nonint0 φ _) (M' := Mode.nonint φ _) (fun _ _ _ _ => trivial) (fun _ _ => trivial)
    (fun _ h => expo_of_nonint0 h) (fun _ h => h) (h3 e he)⟩

theorem SmoothNonint0.smooth {P : PolyProd (N + R) F} (h : SmoothNonint0 φ ε P) : Smooth φ ε P := by
  obtain ⟨U, h1, h2, h3⟩ := h
  exact ⟨U, h1, h2, fun e he => adm_free_of_nonint0 (h3 e he)⟩

end SecDec.Subtraction

namespace SecDec.SectorExp
open Expr Subtraction Set Filter Topology MeasureTheory Decomp Expansion Sector

variable {N : Nat} {F : Type} [Field F] [DecidableEq F] {φ : F →+* ℂ}

/-- What the pole part and the expansion need about a term. -/
structure Ready (φ : F →+* ℂ) (W : Set ℂ) (js : List (Fin N)) (P : PolyProd (N + 1) F) (a : Fin N → ℚ) : Prop where
  wf : WellFormed φ P
  sm : ∀ z ∈ insert 0 W, Smooth φ (fun _ => z) P
  ha : ∀ i ∈ js, power φ (fun _ => 0) P i = (a i : ℂ)
  den : ∀ z ∈ W, ∀ i ∈ js, ∀ p : ℕ, power φ (fun _ => z) P i + p + 1 ≠ 0
  pole : ∀ z ∈ W, poleDenominator φ (fun _ => z) P ≠ 0
  hA : ∀ z ∈ insert 0 W, ∀ i, -1 < (power φ (fun _ => z) P i).re + (if i ∈ js ∧ a i < 0 then ⌊-(a i)⌋.toNat else 0 : ℕ)

/-- The pole part and the expansion of a list of terms. -/
theorem ready_expand {fuel : ℕ} {val : F → Option ℚ} (hval : ∀ c q, val c = some q → φ c = (q : ℂ)) (hv0 : val 0 = some 0)
    {js : List (Fin N)} {o : ℤ} {W : Set ℂ} (hWo : IsOpen W) (hW0 : W ∈ 𝓝[≠] 0) {l outs : List (PolyProd (N + 1) F)}
    (hl : ∀ Q ∈ l, ∃ a, Ready φ W js Q a) (h2 : extendAll (fun Q => integratePolePart fuel val Q (js.map (Fin.castAdd 1))) l = .ok outs)
    {Ss : List (Summand (N + 1) F)} {hs : List ℤ} (h3 : expandAll fuel [(Fin.natAdd N 0, o)] outs none = .ok (Ss, hs)) :
    (∀ z ∈ W, RegSum φ (ez z) l (outs.map fun Q => cubeIntegral (value φ (ez z) Q)).sum) ∧
    ∃ p, hs = [p] ∧ -p ≤ o ∧ (∀ k, CubeIntegrable (orderIntegrand φ Ss k)) ∧
      ∀ J : ℂ → ℂ, (∀ z ∈ W, J z = (outs.map fun Q => cubeIntegral (value φ (ez z) Q)).sum) →
      IsExpansion J o ((sectorOrders o p).map (fun k => (k, cubeIntegral (orderIntegrand φ Ss k)))) := by
  have hWne : W.Nonempty := by
    have : NeBot (𝓝[≠] (0 : ℂ)) := inferInstance
    exact this.nonempty_of_mem hW0
  have key : ∀ (l outs : List (PolyProd (N + 1) F)), (∀ Q ∈ l, ∃ a, Ready φ W js Q a) →
      extendAll (fun Q => integratePolePart fuel val Q (js.map (Fin.castAdd 1))) l = .ok outs →
      (∀ z ∈ W, RegSum φ (ez z) l (outs.map fun Q => cubeIntegral (value φ (ez z) Q)).sum) ∧
      (∀ Q ∈ outs, ∃ U m, Reg φ 0 Q U m) ∧ ∀ Q ∈ outs, ∀ z ∈ W, pev φ (rpt N (ez z)) Q.regBase ≠ 0 := by
    intro l
    induction l with
    | nil => intro outs _ h; simp [extendAll] at h; subst h; simp [RegSum]
    | cons P l ih =>
      intro outs hl h
      simp only [extendAll] at h
      obtain ⟨x, hx, h⟩ := ok_bind h
      obtain ⟨y, hy, h⟩ := ok_bind h
      simp only [Except.ok.injEq] at h; subst h
      obtain ⟨a, hr⟩ := hl P (by simp)
      obtain ⟨i1, i2, i3⟩ := ih y (fun Q hQ => hl Q (by simp [hQ])) hy
      obtain ⟨j1, j2⟩ := outs_facts hval hv0 hr.wf hWo hW0 hr.sm a hr.ha hr.den hr.pole hr.hA hx
      refine ⟨fun z hz => ?_, ?_, ?_⟩
      · refine ⟨_, _, (C20_regulated_value hval hr.wf (hr.sm z (mem_insert_of_mem _ hz)) a hr.ha (hr.den z hz)
          (hr.hA z (mem_insert_of_mem _ hz)) hx).2, i1 z hz, ?_⟩
        rw [List.map_append, List.sum_append]; rfl
      · intro Q hQ
        rcases List.mem_append.1 hQ with h' | h'
        · exact j1 0 (mem_insert _ _) Q h'
        · exact i2 Q h'
      · intro Q hQ
        rcases List.mem_append.1 hQ with h' | h'
        · exact j2 Q h'
        · exact i3 Q h'
  obtain ⟨k1, k2, k3⟩ := key l outs hl h2
  refine ⟨k1, ?_⟩
  obtain ⟨p, rfl, _, p1, p2, p3⟩ := all_exp (φ := φ) outs none Ss hs (fun Q hQ =>
    ⟨k2 Q hQ, coeffOf_ne_of_pev (k3 Q hQ _ hWne.some_mem)⟩) h3 (by simp)
  refine ⟨p, rfl, p1, fun k => cubeIntegrable_oc.2 (p3 k), fun J hJ => ?_⟩
  have hfin := (p2.congr (g := J) (by
    filter_upwards [hW0] with z hz
    rw [hJ z hz]
    simp only [cubeIntegral_oc]
    congr 1
    refine List.map_congr_left fun Q hQ => ?_
    obtain ⟨U, m, hR⟩ := k2 Q hQ
    exact (integral_split hR.wf (ez z)).symm)).isExpansion
  simp only [cubeIntegral_oc]
  exact hfin

/-- C46: one sector with one regulator `z`, without integration by parts.  For every value `z` of the regulator in a punctured
neighbourhood of zero, `J z` is the analytically regulated integral of the sector (the integral need not converge for any value of
the regulator).  The integrand of each order which is handed to the integrator is integrable, and the integrals are the Laurent
coefficients of `J` at zero, from the lowest to the required order. -/
theorem C46_sector_regulated {fuel : ℕ} {val : F → Option ℚ} (hval : ∀ c q, val c = some q → φ c = (q : ℂ))
    (hv0 : val 0 = some 0) {P : PolyProd (N + 1) F} {js : List (Fin N)} {goals : List ℚ} {o : ℤ}
    {Ss : List (Summand (N + 1) F)} {hs : List ℤ} (hP : WellFormed φ P)
    {W : Set ℂ} (hWo : IsOpen W) (hW0 : W ∈ 𝓝[≠] 0)
    -- `cal_I` is smooth on the unit cube for these regulators
    (hS : ∀ z ∈ insert 0 W, Smooth φ (fun _ => z) P)
    -- the powers without regulator are rational numbers, not below the goals of the integration by parts
    (a : Fin N → ℚ) (ha : ∀ i ∈ js, power φ (fun _ => 0) P i = (a i : ℂ)) (hg : ∀ g ∈ goals.zip js, g.1 ≤ a g.2)
    -- no further poles for these regulators
    (hden : ∀ z ∈ W, ∀ i ∈ js, ∀ p : ℕ, power φ (fun _ => z) P i + p + 1 ≠ 0)
    (hpole : ∀ z ∈ W, poleDenominator φ (fun _ => z) P ≠ 0)
    -- the subtractions suffice
    (hA : ∀ z ∈ insert 0 W, ∀ i, -1 < (power φ (fun _ => z) P i).re + (if i ∈ js ∧ a i < 0 then ⌊-(a i)⌋.toNat else 0 : ℕ))
    (h : processSector fuel val goals (js.map (Fin.castAdd 1)) [(Fin.natAdd N 0, o)] P = .ok (Ss, hs)) :
    ∃ (p : ℤ) (J : ℂ → ℂ), hs = [p] ∧ -p ≤ o ∧ (∀ k, CubeIntegrable (orderIntegrand φ Ss k)) ∧
      (∀ z ∈ W, Regulated (value φ (fun _ => z) P) (J z)) ∧
      IsExpansion J o ((sectorOrders o p).map (fun k => (k, cubeIntegral (orderIntegrand φ Ss k)))) := by
  obtain ⟨l, outs, h1, h2, h3⟩ := processSector_ok h
  have hl : l = [P] := by
    refine ibp_trivial _ ?_ h1
    intro g hgm q hq
    rw [List.zip_map_right, List.mem_map] at hgm
    obtain ⟨⟨g1, i⟩, hm, rfl⟩ := hgm
    have hi : i ∈ js := (List.of_mem_zip hm).2
    have e1 := hval _ _ hq
    have e2 := ha i hi
    simp only [Prod.map_snd] at e1
    rw [power_eq, pw_zero_point hP.wm, e1] at e2
    have : q = a i := by exact_mod_cast e2
    rw [this]; exact hg _ hm
  subst hl
  obtain ⟨k1, p, k2, k3, k4, k5⟩ := ready_expand hval hv0 hWo hW0 (l := [P]) (by
    intro Q hQ; simp only [List.mem_singleton] at hQ; subst hQ
    exact ⟨a, hP, hS, ha, hden, hpole, hA⟩) h2 h3
  exact ⟨p, fun z => (outs.map fun Q => cubeIntegral (value φ (ez z) Q)).sum, k2, k3, k4, fun z hz => (k1 z hz).single,
    k5 _ fun _ _ => rfl⟩

/-- C46: the same with integration by parts.  The exponents inside `cal_I` must not be positive integers for vanishing regulators
(else the claim is false, see `C21_boundary_term_wrong`). -/
theorem C46_sector_by_parts_regulated {fuel : ℕ} {val : F → Option ℚ} (hval : ∀ c q, val c = some q → φ c = (q : ℂ))
    (hv0 : val 0 = some 0) {P : PolyProd (N + 1) F} {js : List (Fin N)} {goals : List ℚ} {o : ℤ}
    {Ss : List (Summand (N + 1) F)} {hs : List ℤ} (hP : WellFormed φ P) (hC : CleanExponents P)
    {W : Set ℂ} (hWo : IsOpen W) (hW0 : W ∈ 𝓝[≠] 0)
    -- `cal_I` is smooth on the unit cube for these regulators
    (hS : ∀ z ∈ insert 0 W, SmoothNonint0 φ (fun _ => z) P)
    -- the powers without regulator are rational numbers
    (a : Fin N → ℚ) (ha : ∀ i ∈ js, power φ (fun _ => 0) P i = (a i : ℂ))
    -- no further poles for these regulators
    (hden : ∀ z ∈ W, ∀ i ∈ js, ∀ p : ℕ, power φ (fun _ => z) P i + p + 1 ≠ 0)
    (hpole : ∀ z ∈ W, poleDenominator φ (fun _ => z) P ≠ 0)
    -- the subtractions suffice
    (hA : ∀ z ∈ insert 0 W, ∀ i, -1 < (power φ (fun _ => z) P i).re + (if i ∈ js ∧ a i < 0 then ⌊-(a i)⌋.toNat else 0 : ℕ))
    (h : processSector fuel val goals (js.map (Fin.castAdd 1)) [(Fin.natAdd N 0, o)] P = .ok (Ss, hs)) :
    ∃ (p : ℤ) (J : ℂ → ℂ), hs = [p] ∧ -p ≤ o ∧ (∀ k, CubeIntegrable (orderIntegrand φ Ss k)) ∧
      (∀ z ∈ W, Regulated (value φ (fun _ => z) P) (J z)) ∧
      IsExpansion J o ((sectorOrders o p).map (fun k => (k, cubeIntegral (orderIntegrand φ Ss k)))) := by
  obtain ⟨l, outs, h1, h2, h3⟩ := processSector_ok h
  rw [integrateByParts_eq] at h1
  have hS'' : ∀ Q ∈ l, ∀ z ∈ insert 0 W, Smooth φ (fun _ => z) Q := fun Q hQ z hz =>
    (ibpLoopIdx_nonint0 (ε := fun _ => z) (goals.zip js) [P] l (by simpa using hS z hz) h1 Q hQ).smooth
  have hform := ibpLoopIdx_iform (φ := φ) (js := js) (P := P) (goals.zip js) [P] l (fun g hg => (List.of_mem_zip hg).2) (by
    intro Q hQ; simp only [List.mem_singleton] at hQ; subst hQ
    exact iform_start hP hC js) h1
  have hready : ∀ Q ∈ l, ∃ b, Ready φ W js Q b := by
    intro Q hQ
    have hF := hform Q hQ
    have hb : ∀ i, ∃ b : ℚ, (i ∈ js → power φ (fun _ => 0) Q i = (b : ℂ)) ∧ ∀ z ∈ insert 0 W,
        -1 < (power φ (fun _ => z) Q i).re + (if i ∈ js ∧ b < 0 then ⌊-b⌋.toNat else 0 : ℕ) := by
      intro i
      rcases hF.pw i with ⟨k, h0⟩ | ⟨k, h0, h0'⟩
      · refine ⟨k, fun _ => by rw [power_eq, h0]; simp, fun z _ => ?_⟩
        rw [power_eq, h0, if_neg (by simp)]
        have : (0 : ℝ) ≤ k := Nat.cast_nonneg k
        simp; linarith
      · refine ⟨a i + k, fun hi => by rw [power_eq, h0, ← power_eq, ha i hi]; push_cast; ring, fun z hz => ?_⟩
        have hz' := hA z hz i
        have hk : (0 : ℝ) ≤ k := Nat.cast_nonneg k
        rw [power_eq, h0, ← power_eq, Complex.add_re, Complex.natCast_re]
        by_cases hi : i ∈ js ∧ a i < 0
        · rw [if_pos hi] at hz'
          by_cases hi2 : i ∈ js ∧ a i + k < 0
          · rw [if_pos hi2]
            have e : ⌊-(a i)⌋.toNat = ⌊-(a i + k)⌋.toNat + k := by
              have e1 : -(a i + k) = -(a i) - ((k : ℕ) : ℚ) := by ring
              rw [e1, Int.floor_sub_natCast]
              have : (k : ℤ) ≤ ⌊-(a i)⌋ := by
                rw [Int.le_floor]
                push_cast
                linarith [hi2.2]
              omega
            rw [e] at hz'
            push_cast at hz' ⊢
            linarith
          · rw [if_neg hi2]
            have : (⌊-(a i)⌋.toNat : ℝ) ≤ k := by
              have h3 : -(a i) ≤ k := by
                by_contra hc
                exact hi2 ⟨hi.1, by linarith [not_le.1 hc]⟩
              have h4 : ⌊-(a i)⌋ ≤ (k : ℤ) := by
                have := Int.floor_le_floor h3
                simpa using this
              have h5 : ⌊-(a i)⌋.toNat ≤ k := by omega
              exact_mod_cast h5
            push_cast
            linarith
        · rw [if_neg hi] at hz'
          have h6 : (0 : ℝ) ≤ ((if i ∈ js ∧ a i + k < 0 then ⌊-(a i + k)⌋.toNat else 0 : ℕ) : ℝ) := Nat.cast_nonneg _
          simp only [Nat.cast_zero, add_zero] at hz'
          linarith
    choose b hb1 hb2 using hb
    refine ⟨b, hF.wf, hS'' Q hQ, fun i hi => hb1 i hi, fun z hz i hi p => ?_, fun z hz => ?_, fun z hz i => hb2 i z hz⟩
    · rcases hF.pw i with ⟨k, h0⟩ | ⟨k, h0, _⟩
      · rw [power_eq, h0]
        have : ((k + p : ℕ) : ℂ) + 1 ≠ 0 := Nat.cast_add_one_ne_zero _
        push_cast at this; exact this
      · rw [power_eq, h0, ← power_eq]
        have := hden z hz i hi (k + p)
        push_cast at this
        rwa [← add_assoc] at this
    · rw [poleDen_eq]
      refine hF.den _ (fun j hj p => ?_) ?_
      · rw [← power_eq]; exact hden z hz j hj p
      · rw [← poleDen_eq]; exact hpole z hz
  obtain ⟨k1, p, k2, k3, k4, k5⟩ := ready_expand hval hv0 hWo hW0 hready h2 h3
  refine ⟨p, fun z => (outs.map fun Q => cubeIntegral (value φ (ez z) Q)).sum, k2, k3, k4, fun z hz => ?_,
    k5 _ fun _ _ => rfl⟩
  refine ((ibpLoopIdx_regulated (js := js) (goals.zip js) [P] l (fun g hg => (List.of_mem_zip hg).2) (by
    intro Q hQ; simp only [List.mem_singleton] at hQ; subst hQ
    exact ⟨hP, (cleanExponents_iff Q).1 hC, onP_of_smooth (hS z (mem_insert_of_mem _ hz)).nonint, fun j hj p => by
      rw [← power_eq]; exact hden z hz j hj p⟩) h1).2 _ (k1 z hz)).single

/-- One term passes the pole part. -/
theorem pole_ready {val : F → Option ℚ} (hv0 : val 0 = some 0) {P : PolyProd (N + 1) F} (hP : WellFormed φ P)
    (hc : CompleteIntegrand P) (hm : P.monos ≠ []) {js : List (Fin N)}
    (hj : ∀ j ∈ js, ∃ q, val (powerCoeff P j (fun _ => 0)) = some q ∧ ¬ (q < 0 ∧ Unregulated P j))
    {z : ℂ} (hz1 : poleDenominator φ (fun _ => z) P ≠ 0) (hz2 : ∀ i ∈ js, ∀ p : ℕ, power φ (fun _ => z) P i + p + 1 ≠ 0) :
    ∃ outs, (∃ K, ∀ fuel, K ≤ fuel → integratePolePart fuel val P (js.map (Fin.castAdd 1)) = .ok outs) ∧ outs ≠ [] ∧
      ∀ Q ∈ outs, RegulatorPoly (N := N) (R := 1) Q.regBase ∧ (∃ e, Q.regBase.coeffOf e ≠ 0) ∧ Q.monos ≠ [] ∧ CompleteIntegrand Q := by
  obtain ⟨outs, _, K, hK⟩ := C37_pole_part_succeeds val hv0 P hP hc js hj
  have hK0 := hK K le_rfl
  beta_reduce at hK0
  obtain ⟨r', ⟨_, K', hK'⟩, hcc⟩ := C37_pole_part_terminates val P hc (js.map (Fin.castAdd 1))
  have hr' : r' = .ok outs := (hK' (max K K') (le_max_right _ _)).symm.trans (hK (max K K') (le_max_left _ _))
  have hCI := hcc outs hr'
  refine ⟨outs, ⟨K, hK⟩, poleLoopIdx_nonempty _ [P] outs (by simp) hK0, fun Q hQ => ?_⟩
  have h0 : Form φ P ∅ (fun _ => 0) P := ⟨hP.wm, hP.base, rfl, fun i => Or.inr ⟨by simp, rfl⟩, by simp, by simp⟩
  obtain ⟨S, k, hS, hF⟩ := poleLoopIdx_form hv0 js ∅ [P] outs (by
    intro Q hQ; simp at hQ; subst hQ; exact ⟨∅, _, by simp, h0⟩) hK0 Q hQ
  refine ⟨hF.base, coeffOf_ne_of_pev (φ := φ) (x := rpt N (ez z)) ?_, poleLoopIdx_monos _ [P] outs (by simpa using hm) hK0 Q hQ, hCI Q hQ⟩
  rw [hF.den]
  refine mul_ne_zero (by rw [← poleDen_eq]; exact hz1) (Finset.prod_ne_zero_iff.2 fun j hj => mul_ne_zero ?_ ?_)
  · rw [← power_eq]
    exact hz2 j (by simpa using hS hj) _
  · exact_mod_cast Nat.factorial_ne_zero _

theorem extendAll_ready {val : F → Option ℚ} {js : List (Fin (N + 1))} {p : PolyProd (N + 1) F → Prop} :
    ∀ (l : List (PolyProd (N + 1) F)), (∀ Q ∈ l, ∃ outs, (∃ K, ∀ fuel, K ≤ fuel → integratePolePart fuel val Q js = .ok outs) ∧ outs ≠ [] ∧ ∀ T ∈ outs, p T) →
    ∃ outs, (∃ K, ∀ fuel, K ≤ fuel → extendAll (fun Q => integratePolePart fuel val Q js) l = .ok outs) ∧ (l ≠ [] → outs ≠ []) ∧ ∀ T ∈ outs, p T
  | [], _ => ⟨[], ⟨0, fun _ _ => rfl⟩, fun h => absurd rfl h, by simp⟩
  | Q :: l, h => by
    obtain ⟨o1, ⟨K1, h1⟩, n1, p1⟩ := h Q (by simp)
    obtain ⟨o2, ⟨K2, h2⟩, _, p2⟩ := extendAll_ready l fun Q hQ => h Q (by simp [hQ])
    refine ⟨o1 ++ o2, ⟨max K1 K2, fun fuel hf => ?_⟩, fun _ => by simp [n1], fun T hT => ?_⟩
    · simp only [extendAll, h1 fuel (le_trans (le_max_left _ _) hf), h2 fuel (le_trans (le_max_right _ _) hf), Bind.bind, Except.bind]
    · rcases List.mem_append.1 hT with hT | hT
      · exact p1 T hT
      · exact p2 T hT

theorem val_nat {val : F → Option ℚ} (hv : ∀ c q, val c = some q → val (c + 1) = some (q + 1)) {c : F} {q : ℚ} (h : val c = some q) (k : ℕ) :
    val (c + k) = some (q + k) := by
  induction k with
  | zero => simpa using h
  | succ k ih =>
    have := hv _ _ ih
    push_cast
    rwa [← add_assoc, ← add_assoc]

/-- C46: the sector is processed without exception for all goals of the integration by parts and every required order, if the powers
without regulator are numbers and each negative one is regulated. -/
theorem C46_sector_by_parts_succeeds {val : F → Option ℚ} (hv0 : val 0 = some 0)
    (hv : ∀ c q, val c = some q → val (c + 1) = some (q + 1)) {P : PolyProd (N + 1) F} (hP : WellFormed φ P) (hC : CleanExponents P)
    (hc : CompleteIntegrand P) (hm : P.monos ≠ []) {js : List (Fin N)} (hnd : js.Nodup) {goals : List ℚ} (hlen : goals.length = js.length) (o : ℤ)
    (a : Fin N → ℚ) (ha : ∀ i ∈ js, val (powerCoeff P i (fun _ => 0)) = some (a i)) (hreg : ∀ i ∈ js, a i < 0 → ¬ Unregulated P i)
    (hpole : ∃ z : ℂ, poleDenominator φ (fun _ => z) P ≠ 0 ∧ ∀ i ∈ js, ∀ p : ℕ, power φ (fun _ => z) P i + p + 1 ≠ 0) :
    ∃ r, ∃ K, ∀ fuel, K ≤ fuel → processSector fuel val goals (js.map (Fin.castAdd 1)) [(Fin.natAdd N 0, o)] P = .ok r := by
  obtain ⟨z, hz1, hz2⟩ := hpole
  have hj : ∀ j ∈ js, ∃ q, val (powerCoeff P j (fun _ => 0)) = some q ∧ ¬ (q < 0 ∧ Unregulated P j) :=
    fun j hj => ⟨a j, ha j hj, fun h => hreg j hj h.1 h.2⟩
  obtain ⟨l, _, K1, h1⟩ := C37_parts_succeeds val hv P hP hC hc goals js hlen hnd hj
  have h10 := h1 K1 le_rfl
  beta_reduce at h10
  obtain ⟨r', ⟨_, K', hK'⟩, hcc⟩ := C37_parts_terminates (φ := φ) val hv P hP hC hc goals js
  have hr' : r' = .ok l := (hK' (max K1 K') (le_max_right _ _)).symm.trans (h1 (max K1 K') (le_max_left _ _))
  have hCI := hcc l hr'
  rw [integrateByParts_eq] at h10
  have hform := ibpLoopIdx_iform (φ := φ) (js := js) (P := P) (goals.zip js) [P] l (fun g hg => (List.of_mem_zip hg).2) (by
    intro Q hQ; simp only [List.mem_singleton] at hQ; subst hQ
    exact iform_start hP hC js) h10
  have hmon := ibpLoopIdx_monos (goals.zip js) [P] l (by simpa using hm) h10
  have hlne : l ≠ [] := (ibpLoopIdx_ne (goals.zip js) [P] l (by simp) h10)
  obtain ⟨outs, ⟨K2, h2⟩, hne, hall⟩ := extendAll_ready (val := val) (js := js.map (Fin.castAdd 1))
    (p := fun Q => RegulatorPoly (N := N) (R := 1) Q.regBase ∧ (∃ e, Q.regBase.coeffOf e ≠ 0) ∧ Q.monos ≠ [] ∧ CompleteIntegrand Q) l (by
      intro Q hQ
      have hF := hform Q hQ
      refine pole_ready hv0 hF.wf (hCI Q hQ) (hmon Q hQ) (fun j hj => ?_) (z := z) ?_ ?_
      · rcases hF.pc j with ⟨k, h0⟩ | ⟨k, h0⟩
        · refine ⟨0 + (k : ℚ), ?_, fun h => ?_⟩
          · have := val_nat hv hv0 k
            rw [zero_add] at this
            rw [h0, if_pos rfl]; exact this
          · have : (0 : ℚ) ≤ k := Nat.cast_nonneg k
            linarith [h.1]
        · refine ⟨a j + k, ?_, fun h => hreg j hj ?_ fun e he => ?_⟩
          · rw [h0, if_pos rfl]; exact val_nat hv (ha j hj) k
          · have : (0 : ℚ) ≤ k := Nat.cast_nonneg k
            linarith [h.1]
          · have := h.2 e he
            rwa [h0, if_neg he, add_zero] at this
      · rw [poleDen_eq]
        refine hF.den _ (fun j hj p => ?_) ?_
        · rw [← power_eq]; exact hz2 j hj p
        · rw [← poleDen_eq]; exact hz1
      · intro i hi p
        rcases hF.pw i with ⟨k, h0⟩ | ⟨k, h0, _⟩
        · rw [power_eq, h0]
          have : ((k + p : ℕ) : ℂ) + 1 ≠ 0 := Nat.cast_add_one_ne_zero _
          push_cast at this; exact this
        · rw [power_eq, h0, ← power_eq]
          have := hz2 i hi (k + p)
          push_cast at this
          rwa [← add_assoc] at this)
  obtain ⟨r, L, hL⟩ := expandAll_succeeds φ o outs none (fun h => absurd h (hne hlne)) hall
  refine ⟨r, max K1 (max K2 L), fun fuel hf => ?_⟩
  have e1 := h1 fuel (by omega)
  have e2 := h2 fuel (by omega)
  have e3 := hL fuel (by omega)
  beta_reduce at e1
  simp only [processSector, e1, liftSub, Bind.bind, Except.bind, e2]
  exact e3

/-! ### A concrete case with integration by parts: `x ** (-3 + eps) * exp(x)` -/

/-- `x ** (-3 + eps) * exp(x)`. -/
def cubic : PolyProd (1 + 1) ℚ :=
  { monos := [⟨![1, 0], 1, ⟨[(![0, 0], -3), (![0, 1], 1)]⟩⟩]
    regBase := ⟨[(![0, 0], 1)]⟩
    regExp := .poly [((fun _ => 0), .num (-1))]
    calI := [.exp (.poly [(![1, 0], .num 1)])] }

theorem cubic_wf : WellFormed (Rat.castHom ℂ) (N := 1) (R := 1) cubic := by
  refine ⟨?_, ?_, ?_, ?_, rfl⟩
  · intro m hm; simp [cubic] at hm; subst hm; exact ⟨1, one_pos, by simp⟩
  · intro m hm i; simp [cubic] at hm; subst hm; fin_cases i; rfl
  · intro m hm; simp [cubic] at hm; subst hm
    intro t ht; simp at ht
    rcases ht with rfl | rfl <;>
    · refine ⟨fun i => ?_, fun i => ?_⟩ <;> fin_cases i <;> simp
  · intro t ht; simp [cubic] at ht; subst ht
    refine ⟨fun i => ?_, fun i => ?_⟩ <;> fin_cases i <;> simp

theorem cubic_clean : CleanExponents cubic := by
  intro m hm h
  simp [cubic] at hm; subst hm
  have := (h (![0, 0], -3) (by simp)).2
  norm_num at this

theorem cubic_smooth (ε : Fin 1 → ℂ) : SmoothNonint0 (Rat.castHom ℂ) (N := 1) ε cubic := by
  refine ⟨univ, isOpen_univ, fun _ _ => trivial, ?_⟩
  intro e he; simp [cubic] at he; subst he
  refine Adm.exp _ (Adm.poly _ ?_ ?_ ?_) <;> intro t ht <;> simp at ht <;> subst ht
  · intro x _ i _; fin_cases i <;> simp
  · exact Adm.num _
  · exact ⟨1, rfl⟩

theorem cubic_complete : CompleteIntegrand cubic := by
  refine ⟨by simp [cubic], ?_, .poly _ (by simpa using .num _)⟩
  intro e he; simp [cubic] at he; subst he
  exact .exp _ (.poly _ (by simpa using .num _))

theorem cubic_power (ε : Fin 1 → ℂ) (i : Fin 1) : power (Rat.castHom ℂ) (N := 1) ε cubic i = -3 + ε 0 := by
  rw [Subsingleton.elim i 0]
  simp [power, cubic, eval_poly, eval_num, Poly.mono, Fin.prod_univ_two, Fin.append, Fin.addCases]

theorem cubic_pole (ε : Fin 1 → ℂ) : poleDenominator (Rat.castHom ℂ) (N := 1) ε cubic = 1 := by
  simp [poleDenominator, cubic, eval_poly, eval_num, Poly.mono, Fin.prod_univ_two]

theorem cubic_den (z : ℂ) (hz : z ∈ disc) (i : Fin 1) (p : ℕ) : power (Rat.castHom ℂ) (N := 1) (fun _ => z) cubic i + p + 1 ≠ 0 := by
  obtain ⟨h1, h2⟩ := mem_disc.1 hz
  rw [cubic_power]
  intro h
  have h3 : z = ((2 - p : ℤ) : ℂ) := by push_cast; linear_combination h
  rw [h3, Complex.norm_intCast] at h2
  have h4 : (2 - p : ℤ) = 0 := by
    have h5 : |(2 - p : ℤ)| < 1 := by exact_mod_cast h2
    exact Int.abs_lt_one_iff.1 h5
  rw [h4] at h3
  exact h1 (by simpa using h3)

theorem cubic_regulated (i : Fin 1) : ¬ Unregulated (N := 1) (R := 1) cubic i := by
  intro h
  have := h ![0, 1] (by decide)
  revert this
  fin_cases i; decide +kernel

/-- The hypotheses of the theorems are met: two steps of the integration by parts, then one subtraction. -/
example (o : ℤ) : ∃ (fuel : ℕ) (Ss : List (Summand (1 + 1) ℚ)) (p : ℤ) (J : ℂ → ℂ),
    processSector fuel some [-1] [0] [(1, o)] cubic = .ok (Ss, [p]) ∧
    (∀ z ∈ disc, Regulated (value (Rat.castHom ℂ) (N := 1) (fun _ => z) cubic) (J z)) ∧
    IsExpansion J o ((sectorOrders o p).map (fun k => (k, cubeIntegral (orderIntegrand (N := 1) (Rat.castHom ℂ) Ss k)))) := by
  have hval : ∀ (c q : ℚ), some c = some q → Rat.castHom ℂ c = (q : ℂ) := by
    intro c q h; simp only [Option.some.injEq] at h; subst h; simp
  have ha : ∀ i ∈ [(0 : Fin 1)], power (Rat.castHom ℂ) (N := 1) (fun _ : Fin 1 => (0 : ℂ)) cubic i = (((fun _ => -3 : Fin 1 → ℚ) i : ℚ) : ℂ) := by
    intro i _; rw [cubic_power]; simp
  have hfl : ⌊-(-3 : ℚ)⌋.toNat = 3 := by norm_num; rfl
  have hA : ∀ z ∈ insert (0 : ℂ) disc, ∀ i, -1 < (power (Rat.castHom ℂ) (N := 1) (fun _ => z) cubic i).re +
      (if i ∈ [(0 : Fin 1)] ∧ (fun _ => -3 : Fin 1 → ℚ) i < 0 then ⌊-((fun _ => -3 : Fin 1 → ℚ) i)⌋.toNat else 0 : ℕ) := by
    intro z hz i
    rw [cubic_power, if_pos (by refine ⟨by simp [Subsingleton.elim i 0], by norm_num⟩), hfl]
    have := sample_re z hz
    simp; linarith
  have hhalf : (1 / 2 : ℂ) ∈ disc := mem_disc.2 ⟨by norm_num, by norm_num⟩
  obtain ⟨⟨Ss, hs⟩, K, hK⟩ := C46_sector_by_parts_succeeds (φ := Rat.castHom ℂ) (N := 1) (val := some) rfl
    (by intro c q h; simp only [Option.some.injEq] at h ⊢; rw [h]) cubic_wf cubic_clean cubic_complete
    (by simp [cubic]) (js := [0]) (by simp) (goals := [-1]) rfl o (fun _ => -3) (by
      intro i hi; simp only [List.mem_singleton] at hi; subst hi; decide +kernel)
    (fun i _ _ => cubic_regulated i)
    ⟨1 / 2, by rw [cubic_pole]; exact one_ne_zero, fun i _ p => cubic_den _ hhalf i p⟩
  have hok := hK K le_rfl
  obtain ⟨p, J, rfl, _, _, p4, p5⟩ := C46_sector_by_parts_regulated hval rfl cubic_wf cubic_clean disc_open disc_nhds
    (fun z _ => cubic_smooth _) (fun _ => -3) ha (fun z hz i _ p => cubic_den z hz i p)
    (fun z _ => by rw [cubic_pole]; exact one_ne_zero) hA hok
  exact ⟨K, Ss, p, J, hok, p4, p5⟩

/-! ### A concrete case: `x ** (-1 + eps) * y ** (-1 - eps) * exp(x * y)`, which converges for no value of `eps` -/

/-- `x ** (-1 + eps) * y ** (-1 - eps) * exp(x * y)`. -/
def balanced : PolyProd (2 + 1) ℚ :=
  { monos := [⟨![1, 0, 0], 1, ⟨[(![0, 0, 0], -1), (![0, 0, 1], 1)]⟩⟩, ⟨![0, 1, 0], 1, ⟨[(![0, 0, 0], -1), (![0, 0, 1], -1)]⟩⟩]
    regBase := ⟨[(![0, 0, 0], 1)]⟩
    regExp := .poly [((fun _ => 0), .num (-1))]
    calI := [.exp (.poly [(![1, 1, 0], .num 1)])] }

theorem balanced_wf : WellFormed (Rat.castHom ℂ) (N := 2) (R := 1) balanced := by
  refine ⟨?_, ?_, ?_, ?_, rfl⟩
  · intro m hm; simp [balanced] at hm; rcases hm with rfl | rfl <;> exact ⟨1, one_pos, by simp⟩
  · intro m hm i; simp [balanced] at hm; rcases hm with rfl | rfl <;> fin_cases i <;> rfl
  · intro m hm; simp [balanced] at hm
    rcases hm with rfl | rfl <;> intro t ht <;> simp at ht <;> rcases ht with rfl | rfl <;>
    · refine ⟨fun i => ?_, fun i => ?_⟩ <;> fin_cases i <;> simp
  · intro t ht; simp [balanced] at ht; subst ht
    refine ⟨fun i => ?_, fun i => ?_⟩ <;> fin_cases i <;> simp

theorem balanced_smooth (ε : Fin 1 → ℂ) : Smooth (Rat.castHom ℂ) (N := 2) ε balanced := by
  refine ⟨univ, isOpen_univ, fun _ _ => trivial, ?_⟩
  intro e he; simp [balanced] at he; subst he
  refine Adm.exp _ (Adm.poly _ ?_ ?_ ?_) <;> intro t ht <;> simp at ht <;> subst ht
  · intro x _ i _; fin_cases i <;> simp
  · exact Adm.num _
  · exact ⟨1, rfl⟩

theorem balanced_complete : CompleteIntegrand balanced := by
  refine ⟨by simp [balanced], ?_, .poly _ (by simpa using .num _)⟩
  intro e he; simp [balanced] at he; subst he
  exact .exp _ (.poly _ (by simpa using .num _))

theorem balanced_power (ε : Fin 1 → ℂ) (i : Fin 2) :
    power (Rat.castHom ℂ) (N := 2) ε balanced i = -1 + (if i = 0 then ε 0 else -ε 0) := by
  fin_cases i <;> simp [power, balanced, eval_poly, eval_num, Poly.mono, Fin.prod_univ_three, Fin.append, Fin.addCases]

theorem balanced_pole (ε : Fin 1 → ℂ) : poleDenominator (Rat.castHom ℂ) (N := 2) ε balanced = 1 := by
  simp [poleDenominator, balanced, eval_poly, eval_num, Poly.mono, Fin.prod_univ_three]

theorem balanced_den (z : ℂ) (hz : z ∈ disc) (i : Fin 2) (p : ℕ) :
    power (Rat.castHom ℂ) (N := 2) (fun _ => z) balanced i + p + 1 ≠ 0 := by
  obtain ⟨h1, h2⟩ := mem_disc.1 hz
  rw [balanced_power]
  intro h
  have h3 : ‖z‖ = p := by
    split_ifs at h
    · have h3 : z = -(p : ℂ) := by linear_combination h
      rw [h3, norm_neg, Complex.norm_natCast]
    · have h3 : z = (p : ℂ) := by linear_combination -h
      rw [h3, Complex.norm_natCast]
  rw [h3] at h2
  have h4 : p = 0 := by
    have : p < 1 := by exact_mod_cast h2
    omega
  rw [h4] at h3
  exact h1 (norm_eq_zero.1 (by simpa using h3))

theorem balanced_regulated (i : Fin 2) : ¬ Unregulated (N := 2) (R := 1) balanced i := by
  intro h
  have := h ![0, 0, 1] (by decide)
  revert this
  fin_cases i <;> decide +kernel

/-- For no value of the regulator the integral converges by power counting. -/
example (z : ℂ) : ¬ ∀ i, -1 < (power (Rat.castHom ℂ) (N := 2) (fun _ => z) balanced i).re := by
  intro h
  have h0 := h 0
  have h1 := h 1
  rw [balanced_power] at h0 h1
  simp at h0 h1
  linarith

/-- The hypotheses of the theorems are met, and the results are the Laurent coefficients of the regulated integral. -/
example (o : ℤ) : ∃ (fuel : ℕ) (Ss : List (Summand (2 + 1) ℚ)) (p : ℤ) (J : ℂ → ℂ),
    processSector fuel some [-1, -1] [0, 1] [(2, o)] balanced = .ok (Ss, [p]) ∧
    (∀ z ∈ disc, Regulated (value (Rat.castHom ℂ) (N := 2) (fun _ => z) balanced) (J z)) ∧
    IsExpansion J o ((sectorOrders o p).map (fun k => (k, cubeIntegral (orderIntegrand (N := 2) (Rat.castHom ℂ) Ss k)))) := by
  have hval : ∀ (c q : ℚ), some c = some q → Rat.castHom ℂ c = (q : ℂ) := by
    intro c q h; simp only [Option.some.injEq] at h; subst h; simp
  have ha : ∀ i ∈ [(0 : Fin 2), 1], power (Rat.castHom ℂ) (N := 2) (fun _ : Fin 1 => (0 : ℂ)) balanced i = (((fun _ => -1 : Fin 2 → ℚ) i : ℚ) : ℂ) := by
    intro i _; rw [balanced_power]; simp
  have hg : ∀ g ∈ [(-1 : ℚ), -1].zip [(0 : Fin 2), 1], g.1 ≤ (fun _ => -1 : Fin 2 → ℚ) g.2 := by simp
  have hfl : ⌊-(-1 : ℚ)⌋.toNat = 1 := by simp
  have hA : ∀ z ∈ insert (0 : ℂ) disc, ∀ i, -1 < (power (Rat.castHom ℂ) (N := 2) (fun _ => z) balanced i).re +
      (if i ∈ [(0 : Fin 2), 1] ∧ (fun _ => -1 : Fin 2 → ℚ) i < 0 then ⌊-((fun _ => -1 : Fin 2 → ℚ) i)⌋.toNat else 0 : ℕ) := by
    intro z hz i
    have hz' : |z.re| < 1 := by
      rcases hz with rfl | hz
      · simp
      · exact (Complex.abs_re_le_norm z).trans_lt (mem_disc.1 hz).2
    obtain ⟨h1, h2⟩ := abs_lt.1 hz'
    rw [if_pos (show i ∈ [(0 : Fin 2), 1] ∧ (fun _ => -1 : Fin 2 → ℚ) i < 0 by refine ⟨?_, by norm_num⟩; fin_cases i <;> simp), hfl, balanced_power]
    split_ifs <;> simp <;> linarith
  have hhalf : (1 / 2 : ℂ) ∈ disc := mem_disc.2 ⟨by norm_num, by norm_num⟩
  obtain ⟨⟨Ss, hs⟩, K, hK⟩ := C46_sector_succeeds (φ := Rat.castHom ℂ) (N := 2) (val := some) rfl balanced_wf balanced_complete
    (by simp [balanced]) (js := [0, 1]) (goals := [-1, -1]) o (fun _ => -1) (by
      intro i hi; simp only [List.mem_cons, List.not_mem_nil, or_false] at hi; rcases hi with rfl | rfl <;> decide +kernel) hg
    (fun i _ _ => balanced_regulated i)
    ⟨1 / 2, by rw [balanced_pole]; exact one_ne_zero, fun i _ p => balanced_den _ hhalf i p⟩
  have hok := hK K le_rfl
  obtain ⟨p, J, rfl, _, _, p4, p5⟩ := C46_sector_regulated hval rfl balanced_wf disc_open disc_nhds
    (fun z _ => balanced_smooth _) (fun _ => -1) ha hg (fun z hz i _ p => balanced_den z hz i p)
    (fun z _ => by rw [balanced_pole]; exact one_ne_zero) hA hok
  exact ⟨K, Ss, p, J, hok, p4, p5⟩

end SecDec.SectorExp
