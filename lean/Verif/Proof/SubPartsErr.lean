import Verif.Proof.SubParts
/-
Integration by parts: errors, number of terms, termination.
-/
set_option linter.unusedSectionVars false
namespace SecDec.Subtraction
open Expr Set Decomp MeasureTheory

variable {N R : Nat} {F : Type} [Field F] [DecidableEq F] {φ : F →+* ℂ} {ε : Fin R → ℂ}

/-- All possible outcomes of one step. -/
theorem ibpSingle_cases {fuel steps : ℕ} {val : F → Option ℚ} {goal : ℚ} {j : Fin N} {P : PolyProd (N + R) F} :
    (val (powerCoeff P j (fun _ => 0)) = none ∧
      ∀ steps, ibpSingle fuel val goal (Fin.castAdd R j) (steps + 1) P = .error .typeError) ∨
    ∃ q, val (powerCoeff P j (fun _ => 0)) = some q ∧
      ((q < 0 ∧ Unregulated P j ∧ ∀ steps, ibpSingle fuel val goal (Fin.castAdd R j) (steps + 1) P = .error .oneOverZero) ∨
       (¬ (q < 0 ∧ Unregulated P j) ∧ goal ≤ q ∧ ∀ steps, ibpSingle fuel val goal (Fin.castAdd R j) (steps + 1) P = .ok [P]) ∨
       (¬ (q < 0 ∧ Unregulated P j) ∧ q < goal ∧
         ((∀ steps, ibpSingle fuel val goal (Fin.castAdd R j) (steps + 1) P = .error .outOfFuel) ∨
          ∃ Q T : PolyProd (N + R) F, Q.monos = P.monos.map (Monomial.setOne (Fin.castAdd R j)) ∧
            T.monos = increasePower (Fin.castAdd R j) P.monos ∧
            ∀ steps, ibpSingle fuel val goal (Fin.castAdd R j) (steps + 1) P
              = (ibpSingle fuel val goal (Fin.castAdd R j) steps T).bind (fun rest => .ok (Q :: rest))))) := by
  rw [← ect_eq_powerCoeff]
  cases hv : val (ect (Fin.castAdd R j) P.monos) with
  | none => left; exact ⟨rfl, fun steps => by simp only [ibpSingle, hv]⟩
  | some q =>
    right
    refine ⟨q, rfl, ?_⟩
    have hn := noRegulator_iff j P
    by_cases h1 : q < 0 ∧ Unregulated P j
    · left
      refine ⟨h1.1, h1.2, fun steps => ?_⟩
      simp only [ibpSingle, hv]
      rw [if_pos ⟨h1.1, hn.2 h1.2⟩]
    · right
      have h1' : ¬ (q < 0 ∧ noRegulator (fullExponent (Fin.castAdd R j) P.monos) (ect (Fin.castAdd R j) P.monos) = true) :=
        fun h => h1 ⟨h.1, hn.1 h.2⟩
      by_cases h2 : goal ≤ q
      · left
        refine ⟨h1, h2, fun steps => ?_⟩
        simp only [ibpSingle, hv]
        rw [if_neg h1', if_pos h2]
      · right
        refine ⟨h1, not_le.1 h2, ?_⟩
        cases hc : Expr.replace 1 (fun _ => 1) (Fin.castAdd R j) fuel (.prod P.calI) with
        | none =>
          left; intro steps
          simp only [ibpSingle, hv]
          rw [if_neg h1', if_neg h2, hc]; rfl
        | some c1 =>
        cases hcs : Expr.simplify fuel c1 with
        | none =>
          left; intro steps
          simp only [ibpSingle, hv]
          rw [if_neg h1', if_neg h2, hc]; simp only [lift, Bind.bind, Except.bind, hcs]
        | some c1s =>
        cases hd : Expr.derive fuel (.prod P.calI) (Fin.castAdd R j) with
        | none =>
          left; intro steps
          simp only [ibpSingle, hv]
          rw [if_neg h1', if_neg h2, hc]; simp only [lift, Bind.bind, Except.bind, hcs, hd]
        | some d =>
        cases hds : Expr.simplify fuel (.prod [const (-1), d]) with
        | none =>
          left; intro steps
          simp only [ibpSingle, hv]
          rw [if_neg h1', if_neg h2, hc]; simp only [lift, Bind.bind, Except.bind, hcs, hd, hds]
        | some ds =>
          right
          refine ⟨{ monos := P.monos.map (Monomial.setOne (Fin.castAdd R j)), regBase := P.regBase.mul ((fullExponent (Fin.castAdd R j) P.monos).addScalar 1), regExp := P.regExp, calI := [c1s] },
            { monos := increasePower (Fin.castAdd R j) P.monos, regBase := P.regBase.mul ((fullExponent (Fin.castAdd R j) P.monos).addScalar 1), regExp := P.regExp, calI := [ds] }, rfl, rfl, fun steps => ?_⟩
          simp only [ibpSingle, hv]
          rw [if_neg h1', if_neg h2, hc]; simp only [lift, Bind.bind, Except.bind, hcs, hd, hds]

/-- Conditions on the monomials. -/
structure MW (φ : F →+* ℂ) (P : PolyProd (N + R) F) : Prop where
  wm : ∀ m ∈ P.monos, WM φ m
  cm : ∀ m ∈ P.monos, CM m

theorem MW.incr {P T : PolyProd (N + R) F} (h : MW φ P) {j : Fin N} (hT : T.monos = increasePower (Fin.castAdd R j) P.monos) :
    Incr φ j P.monos T.monos := by
  rw [hT]; exact increasePower_spec P.monos h.wm h.cm

theorem Incr.mw {P T : PolyProd (N + R) F} {j : Fin N} (h : Incr φ j P.monos T.monos) : MW φ T := ⟨h.wm, h.cm⟩

theorem MW.setOne {P Q : PolyProd (N + R) F} (h : MW φ P) {j : Fin N} (hQ : Q.monos = P.monos.map (Monomial.setOne (Fin.castAdd R j))) :
    MW φ Q := by
  constructor <;> rw [hQ] <;> intro m hm <;> obtain ⟨m', hm', rfl⟩ := List.mem_map.1 hm
  · exact setOne_wm (h.wm m' hm') j
  · rw [setOne_eq (h.wm m' hm')]; exact h.cm m' hm'

theorem powerCoeff_incr {P T : PolyProd (N + R) F} {j : Fin N} (h : Incr φ j P.monos T.monos) (i : Fin N) (e : Expo (N + R)) :
    powerCoeff T i e = powerCoeff P i e + if i = j ∧ e = (fun _ => 0) then 1 else 0 := h.coef i e

theorem powerCoeff_setOne {P Q : PolyProd (N + R) F} (h : MW φ P) {i j : Fin N} (hij : i ≠ j)
    (hQ : Q.monos = P.monos.map (Monomial.setOne (Fin.castAdd R j))) (e : Expo (N + R)) :
    powerCoeff Q i e = powerCoeff P i e := by
  unfold powerCoeff
  rw [hQ, List.map_map]
  congr 1
  refine List.map_congr_left fun m hm => ?_
  simp only [Function.comp]
  rw [setOne_eq (h.wm m hm)]
  simp only
  rw [Function.update_of_ne (castAdd_ne hij)]

/-- The number of terms. -/
theorem ibpSingle_length {fuel : ℕ} {val : F → Option ℚ} (hv : ∀ c q, val c = some q → val (c + 1) = some (q + 1))
    {goal : ℚ} {j : Fin N} (steps : ℕ) :
    ∀ (P : PolyProd (N + R) F) (outs : List (PolyProd (N + R) F)) (q : ℚ), MW φ P → val (powerCoeff P j (fun _ => 0)) = some q →
      ibpSingle fuel val goal (Fin.castAdd R j) steps P = .ok outs → outs.length = ⌈goal - q⌉.toNat + 1 := by
  induction steps with
  | zero => intro P outs q _ _ h; simp [ibpSingle] at h
  | succ steps ih =>
    intro P outs q hP hq h
    rcases ibpSingle_cases (fuel := fuel) (steps := steps) (val := val) (goal := goal) (j := j) (P := P) with
      ⟨h1, _⟩ | ⟨q', h1, ⟨_, _, h2⟩ | ⟨_, hg, h2⟩ | ⟨_, hg, h2 | ⟨Q, T, _, hT, h2⟩⟩⟩
    · rw [h1] at hq; simp at hq
    · rw [h2] at h; simp at h
    · rw [h2] at h; simp at h; subst h
      rw [h1] at hq; simp at hq; subst hq
      have : ⌈goal - q'⌉ ≤ 0 := Int.ceil_le.2 (by push_cast; linarith)
      rw [Int.toNat_of_nonpos this]; rfl
    · rw [h2] at h; simp at h
    · rw [h2] at h
      rw [h1] at hq; simp at hq; subst hq
      obtain ⟨rest, hr, h⟩ := bind_ok h
      simp at h; subst h
      have hI := hP.incr hT
      have := ih T rest (q' + 1) hI.mw (by rw [powerCoeff_incr hI, if_pos ⟨rfl, rfl⟩]; exact hv _ _ h1) hr
      rw [List.length_cons, this]
      have h3 : ⌈goal - (q' + 1)⌉ = ⌈goal - q'⌉ - 1 := by
        rw [show goal - (q' + 1) = (goal - q') - 1 by ring, Int.ceil_sub_one]
      have h4 : 0 < ⌈goal - q'⌉ := Int.ceil_pos.2 (by linarith)
      rw [h3]; omega

/-- Termination: more steps than the missing power do not change the result. -/
theorem ibpSingle_steps {fuel : ℕ} {val : F → Option ℚ} (hv : ∀ c q, val c = some q → val (c + 1) = some (q + 1))
    {goal : ℚ} {j : Fin N} (k : ℕ) :
    ∀ (P : PolyProd (N + R) F) (q : ℚ), MW φ P → val (powerCoeff P j (fun _ => 0)) = some q → ⌈goal - q⌉ ≤ k →
      ∀ m, ibpSingle fuel val goal (Fin.castAdd R j) (k + 1 + m) P = ibpSingle fuel val goal (Fin.castAdd R j) (k + 1) P := by
  induction k with
  | zero =>
    intro P q hP hq hk m
    have hg0 : goal ≤ q := by
      have := Int.ceil_le.1 hk
      push_cast at this; linarith
    rw [show 0 + 1 + m = m + 1 by omega]
    rcases ibpSingle_cases (fuel := fuel) (steps := 0) (val := val) (goal := goal) (j := j) (P := P) with
      ⟨h1, h2⟩ | ⟨q', h1, ⟨_, _, h2⟩ | ⟨_, _, h2⟩ | ⟨_, hg, _⟩⟩
    · rw [h2, h2]
    · rw [h2, h2]
    · rw [h2, h2]
    · rw [h1] at hq; simp at hq; subst hq; linarith
  | succ k ih =>
    intro P q hP hq hk m
    rw [show k + 1 + 1 + m = (k + 1 + m) + 1 by omega]
    rcases ibpSingle_cases (fuel := fuel) (steps := 0) (val := val) (goal := goal) (j := j) (P := P) with
      ⟨h1, h2⟩ | ⟨q', h1, ⟨_, _, h2⟩ | ⟨_, _, h2⟩ | ⟨_, hg, h2 | ⟨Q, T, _, hT, h2⟩⟩⟩
    · rw [h2, h2]
    · rw [h2, h2]
    · rw [h2, h2]
    · rw [h2, h2]
    · rw [h1] at hq; simp at hq; subst hq
      rw [h2, h2]
      have hI := hP.incr hT
      rw [ih T (q' + 1) hI.mw (by rw [powerCoeff_incr hI, if_pos ⟨rfl, rfl⟩]; exact hv _ _ h1) (by
        rw [show goal - (q' + 1) = (goal - q') - 1 by ring, Int.ceil_sub_one]
        push_cast at hk; omega) m]

/-- Unregulated powers stay unregulated. -/
theorem unregulated_incr {P T : PolyProd (N + R) F} {j : Fin N} (h : Incr φ j P.monos T.monos) (i : Fin N) :
    Unregulated T i ↔ Unregulated P i := by
  unfold Unregulated
  constructor <;> intro hu e he <;> have := hu e he
  · rw [powerCoeff_incr h, if_neg (fun hh => he hh.2), add_zero] at this; exact this
  · rw [powerCoeff_incr h, if_neg (fun hh => he hh.2), add_zero]; exact this

/-- The errors of one parameter. -/
theorem ibpSingle_error {fuel : ℕ} {val : F → Option ℚ} (hv : ∀ c q, val c = some q → val (c + 1) = some (q + 1))
    {goal : ℚ} {j : Fin N} (steps : ℕ) :
    ∀ (P : PolyProd (N + R) F) (e : Err), MW φ P → ibpSingle fuel val goal (Fin.castAdd R j) steps P = .error e →
      (e = .typeError ∧ val (powerCoeff P j (fun _ => 0)) = none) ∨
      (e = .oneOverZero ∧ ∃ q < 0, val (powerCoeff P j (fun _ => 0)) = some q ∧ Unregulated P j) ∨ e = .outOfFuel := by
  induction steps with
  | zero => intro P e _ h; simp [ibpSingle] at h; exact Or.inr (Or.inr h.symm)
  | succ steps ih =>
    intro P e hP h
    rcases ibpSingle_cases (fuel := fuel) (steps := steps) (val := val) (goal := goal) (j := j) (P := P) with
      ⟨h1, h2⟩ | ⟨q', h1, ⟨hq, hu, h2⟩ | ⟨_, hg, h2⟩ | ⟨hn, hg, h2 | ⟨Q, T, _, hT, h2⟩⟩⟩
    · rw [h2] at h; simp at h; exact Or.inl ⟨h.symm, h1⟩
    · rw [h2] at h; simp at h; exact Or.inr (Or.inl ⟨h.symm, q', hq, h1, hu⟩)
    · rw [h2] at h; simp at h
    · rw [h2] at h; simp at h; exact Or.inr (Or.inr h.symm)
    · rw [h2] at h
      have hI := hP.incr hT
      have hvT : val (powerCoeff T j (fun _ => 0)) = some (q' + 1) := by
        rw [powerCoeff_incr hI, if_pos ⟨rfl, rfl⟩]; exact hv _ _ h1
      cases hr : ibpSingle fuel val goal (Fin.castAdd R j) steps T with
      | ok rest => rw [hr] at h; simp [Except.bind] at h
      | error e' =>
        rw [hr] at h; simp [Except.bind] at h; subst h
        rcases ih T e' hI.mw hr with ⟨_, h4⟩ | ⟨_, q2, hq2, h4, h5⟩ | h3
        · rw [hvT] at h4; simp at h4
        · rw [hvT] at h4; simp at h4
          exact absurd ⟨by linarith, (unregulated_incr hI j).1 h5⟩ hn
        · exact Or.inr (Or.inr h3)

/-- The powers of the untreated parameters are those of `P`. -/
structure UInv (φ : F →+* ℂ) (P : PolyProd (N + R) F) (S : List (Fin N)) (Q : PolyProd (N + R) F) : Prop where
  mw : MW φ Q
  same : ∀ i, i ∉ S → ∀ e, powerCoeff Q i e = powerCoeff P i e

theorem UInv.unreg {P Q : PolyProd (N + R) F} {S : List (Fin N)} (h : UInv φ P S Q) {i : Fin N} (hi : i ∉ S) :
    Unregulated Q i ↔ Unregulated P i := by
  unfold Unregulated
  simp only [h.same i hi]

theorem ibpSingle_uinv {fuel : ℕ} {val : F → Option ℚ} {goal : ℚ} {j : Fin N} {P : PolyProd (N + R) F} {S : List (Fin N)} (steps : ℕ) :
    ∀ (Q : PolyProd (N + R) F) (outs : List (PolyProd (N + R) F)), UInv φ P S Q →
      ibpSingle fuel val goal (Fin.castAdd R j) steps Q = .ok outs →
      outs ≠ [] ∧ ∀ T ∈ outs, UInv φ P (j :: S) T := by
  induction steps with
  | zero => intro Q outs _ h; simp [ibpSingle] at h
  | succ steps ih =>
    intro P' outs hP h
    rcases ibpSingle_cases (fuel := fuel) (steps := steps) (val := val) (goal := goal) (j := j) (P := P') with
      ⟨h1, h2⟩ | ⟨q', h1, ⟨hq, hu, h2⟩ | ⟨_, hg, h2⟩ | ⟨hn, hg, h2 | ⟨Q, T, hQ, hT, h2⟩⟩⟩
    · rw [h2] at h; simp at h
    · rw [h2] at h; simp at h
    · rw [h2] at h; simp at h; subst h
      refine ⟨by simp, fun T hT => ?_⟩
      simp at hT; subst hT
      exact ⟨hP.mw, fun i hi => hP.same i (fun hh => hi (by simp [hh]))⟩
    · rw [h2] at h; simp at h
    · rw [h2] at h
      obtain ⟨rest, hr, h⟩ := bind_ok h
      simp at h; subst h
      have hI := hP.mw.incr hT
      have hTI : UInv φ P (j :: S) T := ⟨hI.mw, fun i hi e => by
        have hij : i ≠ j := fun hh => hi (by simp [hh])
        rw [powerCoeff_incr hI, if_neg (fun hh => hij hh.1), add_zero]
        exact hP.same i (fun hh => hi (by simp [hh])) e⟩
      refine ⟨by simp, ?_⟩
      intro S' hS'
      rcases List.mem_cons.1 hS' with rfl | hS'
      · refine ⟨hP.mw.setOne hQ, fun i hi e => ?_⟩
        rw [powerCoeff_setOne hP.mw (fun hh => hi (by simp [hh])) hQ]
        exact hP.same i (fun hh => hi (by simp [hh])) e
      · have key : ∀ (st : ℕ) (T : PolyProd (N + R) F) (rest : List (PolyProd (N + R) F)), UInv φ P (j :: S) T →
            ibpSingle fuel val goal (Fin.castAdd R j) st T = .ok rest → ∀ T' ∈ rest, UInv φ P (j :: S) T' := by
          intro st
          induction st with
          | zero => intro T rest _ h; simp [ibpSingle] at h
          | succ st ih2 =>
            intro T rest hTU h T' hT'
            rcases ibpSingle_cases (fuel := fuel) (steps := st) (val := val) (goal := goal) (j := j) (P := T) with
              ⟨h1, h2⟩ | ⟨q', h1, ⟨hq, hu, h2⟩ | ⟨_, hg, h2⟩ | ⟨hn, hg, h2 | ⟨Q2, T2, hQ2, hT2, h2⟩⟩⟩
            · rw [h2] at h; simp at h
            · rw [h2] at h; simp at h
            · rw [h2] at h; simp at h; subst h; simp at hT'; subst hT'; exact hTU
            · rw [h2] at h; simp at h
            · rw [h2] at h
              obtain ⟨rest2, hr2, h⟩ := bind_ok h
              simp at h; subst h
              have hI2 := hTU.mw.incr hT2
              rcases List.mem_cons.1 hT' with rfl | hT'
              · refine ⟨hTU.mw.setOne hQ2, fun i hi e => ?_⟩
                rw [powerCoeff_setOne hTU.mw (fun hh => hi (by simp [hh])) hQ2]
                exact hTU.same i hi e
              · refine ih2 T2 rest2 ⟨hI2.mw, fun i hi e => ?_⟩ hr2 T' hT'
                have hij : i ≠ j := fun hh => hi (by simp [hh])
                rw [powerCoeff_incr hI2, if_neg (fun hh => hij hh.1), add_zero]
                exact hTU.same i hi e
        exact key steps T rest hTI hr S' hS'

theorem extendAll_ne {f : PolyProd (N + R) F → Except Err (List (PolyProd (N + R) F))} {p : PolyProd (N + R) F → Prop}
    (hf : ∀ P outs, p P → f P = .ok outs → outs ≠ []) :
    ∀ (l outs : List (PolyProd (N + R) F)), l ≠ [] → (∀ P ∈ l, p P) → extendAll f l = .ok outs → outs ≠ [] := by
  intro l outs hl hp h
  cases l with
  | nil => exact absurd rfl hl
  | cons P l =>
    simp only [extendAll] at h
    obtain ⟨a, ha, h⟩ := bind_ok h
    obtain ⟨b, hb, h⟩ := bind_ok h
    simp at h; subst h
    have := hf P a (hp P (by simp)) ha
    simp [this]

theorem ibpLoopIdx_error {P : PolyProd (N + R) F} {val : F → Option ℚ} (hv : ∀ c q, val c = some q → val (c + 1) = some (q + 1))
    {fuel : ℕ} (gs : List (ℚ × Fin N)) :
    ∀ (S : List (Fin N)) (l : List (PolyProd (N + R) F)) (e : Err), (∀ Q ∈ l, UInv φ P S Q) → (∀ g ∈ gs, g.2 ∉ S) → (gs.map (·.2)).Nodup →
      ibpLoopIdx fuel val (castGoals gs) l = .error e →
      (e = .typeError ∧ ∃ g ∈ gs, val (powerCoeff P g.2 (fun _ => 0)) = none) ∨
      (e = .oneOverZero ∧ ∃ g ∈ gs, ∃ q < 0, val (powerCoeff P g.2 (fun _ => 0)) = some q ∧ Unregulated P g.2) ∨
      e = .outOfFuel := by
  induction gs with
  | nil => intro S l e _ _ _ h; simp [castGoals, ibpLoopIdx] at h
  | cons g gs ih =>
    intro S l e hl hS hnd h
    simp only [castGoals, List.map_cons, ibpLoopIdx] at h
    simp only [List.map_cons, List.nodup_cons] at hnd
    cases hl' : extendAll (ibpSingle fuel val g.1 (Fin.castAdd R g.2) fuel) l with
    | error e' =>
      rw [hl'] at h
      simp [Bind.bind, Except.bind] at h
      subst h
      obtain ⟨Q, hQ, hQe⟩ := extendAll_error l e' hl'
      have hU := hl Q hQ
      rcases ibpSingle_error hv fuel Q e' hU.mw hQe with ⟨a, b⟩ | ⟨a, q, b, c, d⟩ | a
      · rw [hU.same _ (hS g (by simp))] at b
        exact Or.inl ⟨a, g, by simp, b⟩
      · rw [hU.same _ (hS g (by simp))] at c
        exact Or.inr (Or.inl ⟨a, g, by simp, q, b, c, (hU.unreg (hS g (by simp))).1 d⟩)
      · exact Or.inr (Or.inr a)
    | ok l' =>
      rw [hl'] at h
      simp only [Bind.bind, Except.bind] at h
      have hl2 := extendAll_all (p := UInv φ P S) (r := UInv φ P (g.2 :: S))
        (fun Q outs hQ ho => (ibpSingle_uinv fuel Q outs hQ ho).2) l l' hl hl'
      rcases ih (g.2 :: S) l' e hl2 (by
        intro g' hg' hmem
        rcases List.mem_cons.1 hmem with hh | hh
        · exact hnd.1 (List.mem_map.2 ⟨g', hg', hh⟩)
        · exact hS g' (by simp [hg']) hh) hnd.2 h with ⟨a, g', hg', b⟩ | ⟨a, g', hg', b⟩ | a
      · exact Or.inl ⟨a, g', by simp [hg'], b⟩
      · exact Or.inr (Or.inl ⟨a, g', by simp [hg'], b⟩)
      · exact Or.inr (Or.inr a)

theorem ibpLoopIdx_good {P : PolyProd (N + R) F} {val : F → Option ℚ} {fuel : ℕ} (gs : List (ℚ × Fin N)) :
    ∀ (S : List (Fin N)) (l outs : List (PolyProd (N + R) F)), l ≠ [] → (∀ Q ∈ l, UInv φ P S Q) → (∀ g ∈ gs, g.2 ∉ S) → (gs.map (·.2)).Nodup →
      ibpLoopIdx fuel val (castGoals gs) l = .ok outs →
      ∀ g ∈ gs, ∃ q, val (powerCoeff P g.2 (fun _ => 0)) = some q ∧ ¬ (q < 0 ∧ Unregulated P g.2) := by
  induction gs with
  | nil => intro S l outs _ _ _ _ _; simp
  | cons g gs ih =>
    intro S l outs hne hl hS hnd h
    simp only [castGoals, List.map_cons, ibpLoopIdx] at h
    simp only [List.map_cons, List.nodup_cons] at hnd
    obtain ⟨l', hl', h⟩ := bind_ok h
    have hl2 := extendAll_all (p := UInv φ P S) (r := UInv φ P (g.2 :: S))
      (fun Q outs hQ ho => (ibpSingle_uinv fuel Q outs hQ ho).2) l l' hl hl'
    have hne' := extendAll_ne (p := UInv φ P S) (fun Q outs hQ ho => (ibpSingle_uinv fuel Q outs hQ ho).1) l l' hne hl hl'
    intro g' hg'
    rcases List.mem_cons.1 hg' with rfl | hg'
    · obtain ⟨Q, hQ⟩ := List.exists_mem_of_ne_nil l hne
      obtain ⟨o, ho, _⟩ := extendAll_mem l l' hl' Q hQ
      have hU := hl Q hQ
      have hgS := hS g' (by simp)
      cases fuel with
      | zero => simp [ibpSingle] at ho
      | succ f =>
      rcases ibpSingle_cases (fuel := f + 1) (steps := f) (val := val) (goal := g'.1) (j := g'.2) (P := Q) with
        ⟨h1, h2⟩ | ⟨q', h1, ⟨hq, hu, h2⟩ | ⟨hn, _⟩ | ⟨hn, _⟩⟩
      · rw [h2] at ho; simp at ho
      · rw [h2] at ho; simp at ho
      · rw [hU.same _ hgS] at h1
        rw [hU.unreg hgS] at hn
        exact ⟨q', h1, hn⟩
      · rw [hU.same _ hgS] at h1
        rw [hU.unreg hgS] at hn
        exact ⟨q', h1, hn⟩
    · exact ih (g.2 :: S) l' outs hne' hl2 (by
        intro g' hg' hmem
        rcases List.mem_cons.1 hmem with hh | hh
        · exact hnd.1 (List.mem_map.2 ⟨g', hg', hh⟩)
        · exact hS g' (by simp [hg']) hh) hnd.2 h g' hg'

end SecDec.Subtraction
