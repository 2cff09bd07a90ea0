import Verif.Proof.SubPartsErr
import Verif.Props.Subtraction
/-
C21: integration by parts is exact and reaches the power goals.
-/
set_option linter.unusedSectionVars false
namespace SecDec.Subtraction
open Expr Set Decomp MeasureTheory

variable {N R : Nat} {F : Type} [Field F] [DecidableEq F] {φ : F →+* ℂ} {ε : Fin R → ℂ}

theorem onP_of_smooth {P : PolyProd (N + R) F} (h : SmoothNonint φ ε P) : ∃ U, OnP φ ε P U := by
  obtain ⟨U, h1, h2, h3⟩ := h
  exact ⟨U, h1, h2, h3⟩

theorem smooth_of_onP {P : PolyProd (N + R) F} (h : ∃ U, OnP φ ε P U) : SmoothNonint φ ε P := by
  obtain ⟨U, h⟩ := h
  exact ⟨U, h.isOpen, h.covers, h.adm⟩

theorem integrateByParts_eq {fuel : ℕ} {val : F → Option ℚ} {P : PolyProd (N + R) F} (goals : List ℚ) (js : List (Fin N)) :
    integrateByParts fuel val P goals (js.map (Fin.castAdd R)) = ibpLoopIdx fuel val (castGoals (goals.zip js)) [P] := by
  unfold integrateByParts castGoals
  rw [List.zip_map_right]; rfl

theorem goals_nodup {goals : List ℚ} {js : List (Fin N)} (h : goals.length = js.length) (hnd : js.Nodup) :
    ((goals.zip js).map (·.2)).Nodup := by
  have : (goals.zip js).map (·.2) = js := List.map_snd_zip h.ge
  rw [this]; exact hnd

theorem mem_zip_of_mem {goals : List ℚ} {js : List (Fin N)} (h : goals.length = js.length) {j : Fin N} (hj : j ∈ js) :
    ∃ g, (g, j) ∈ goals.zip js := by
  have : (goals.zip js).map Prod.snd = js := List.map_snd_zip h.ge
  rw [← this] at hj
  obtain ⟨⟨g, j'⟩, h1, rfl⟩ := List.mem_map.1 hj
  exact ⟨g, h1⟩

theorem ginv_start {P : PolyProd (N + R) F} {val : F → Option ℚ} (hW : WellFormed φ P) (hC : CleanExponents P)
    (hS : SmoothNonint φ ε P) : GInv φ ε val [] P :=
  ⟨hW, (cleanExponents_iff P).1 hC, onP_of_smooth hS, by simp⟩

theorem mw_start {P : PolyProd (N + R) F} (hW : WellFormed φ P) (hC : CleanExponents P) : MW φ P :=
  ⟨hW.wm, (cleanExponents_iff P).1 hC⟩

/-- C21: `integrate_by_parts` preserves the integral: for all values of the regulators for which the
original integral converges, every returned term is integrable and the integrals of the returned terms
add up to the original integral.
(Partial: exponents inside `cal_I` must not be positive integers; for those the claim is false, see
`C21_boundary_term_wrong`.) -/
theorem C21_preserves_integral_partial {fuel : ℕ} {val : F → Option ℚ} {P : PolyProd (N + R) F} {goals : List ℚ}
    {js : List (Fin N)} {outs : List (PolyProd (N + R) F)} (hW : WellFormed φ P) (hC : CleanExponents P)
    (hS : SmoothNonint φ ε P) (hA : ∀ i, -1 < (power φ ε P i).re)
    (h : integrateByParts fuel val P goals (js.map (Fin.castAdd R)) = .ok outs) :
    CubeIntegrable (value φ ε P) ∧ (∀ Q ∈ outs, CubeIntegrable (value φ ε Q)) ∧
      (outs.map (fun Q => cubeIntegral (value φ ε Q))).sum = cubeIntegral (value φ ε P) := by
  rw [integrateByParts_eq] at h
  have hC : ConvP φ ε P := ⟨hW, (cleanExponents_iff P).1 hC, onP_of_smooth hS, fun i => by rw [← power_eq]; exact hA i⟩
  obtain ⟨h1, h2⟩ := ibpLoopIdx_conv (goals.zip js) [P] outs (by simpa using hC) h
  have hI : ∀ Q : PolyProd (N + R) F, ConvP φ ε Q → CubeIntegrable (value φ ε Q) := by
    intro Q hQ
    obtain ⟨U, hU⟩ := hQ.sm
    exact cubeIntegrable_oc.2 (integrableOn_onP hQ.wf hU hQ.re)
  refine ⟨hI P hC, fun Q hQ => hI Q (h1 Q hQ), ?_⟩
  simp only [cubeIntegral_oc]
  simpa using h2

/-- C21: in every returned term and for every treated parameter, either the term does not depend on the
parameter any more, or the constant part of its power has reached the goal. -/
theorem C21_goal_reached {fuel : ℕ} {val : F → Option ℚ} (hval : ∀ c q, val c = some q → φ c = (q : ℂ))
    {P : PolyProd (N + R) F} {goals : List ℚ} {js : List (Fin N)} {outs : List (PolyProd (N + R) F)}
    (hW : WellFormed φ P) (hC : CleanExponents P) (hS : SmoothNonint φ ε P)
    (hlen : goals.length = js.length) (hnd : js.Nodup)
    (h : integrateByParts fuel val P goals (js.map (Fin.castAdd R)) = .ok outs) :
    ∀ Q ∈ outs, SmoothNonint φ ε Q ∧ ∀ g j, (g, j) ∈ goals.zip js →
      IndependentOf φ ε Q j ∨ ∃ q : ℚ, power φ (fun _ => 0) Q j = (q : ℂ) ∧ g ≤ q := by
  rw [integrateByParts_eq] at h
  intro Q hQ
  obtain ⟨D', h1, h2⟩ := ibpLoopIdx_ginv (goals.zip js) [] [P] outs (by simpa using ginv_start hW hC hS) (by simp)
    (goals_nodup hlen hnd) h Q hQ
  refine ⟨smooth_of_onP h2.sm, fun g j hgj => ?_⟩
  rcases h2.goals _ (h1 _ (Or.inr hgj)) with ⟨c1, c2⟩ | ⟨q, c1, c2⟩
  · left
    intro t s ht hs0 hs1
    have hpos : ∀ i, 0 < Function.update t j s i := by
      intro i
      by_cases hi : i = j
      · subst hi; simpa using hs0
      · rw [Function.update_of_ne hi]; exact (ht i).1
    rw [value_eq h2.wf hpos, value_eq h2.wf (fun i => (ht i).1), c2 t ⟨fun i => (ht i).1.le, fun i => (ht i).2.le⟩ s ⟨hs0.le, hs1.le⟩]
    congr 2
    refine Finset.prod_congr rfl fun i _ => ?_
    by_cases hi : i = j
    · subst hi; rw [pw_zero c1]; simp
    · rw [Function.update_of_ne hi]
  · right
    exact ⟨q, by rw [power_eq, pw_zero_point h2.wf.wm]; exact hval _ _ c1, c2⟩

/-- C21: if all power goals are larger than `-1` and all parameters whose power has a constant term of at most `-1` are treated, then for vanishing regulators the coefficients of the
pole factors are smooth and integrable. -/
theorem C21_finite_at_zero {fuel : ℕ} {val : F → Option ℚ} (hval : ∀ c q, val c = some q → φ c = (q : ℂ))
    {P : PolyProd (N + R) F} {goals : List ℚ} {js : List (Fin N)} {outs : List (PolyProd (N + R) F)}
    (hW : WellFormed φ P) (hC : CleanExponents P) (hS : SmoothNonint φ (fun _ => 0) P)
    (hlen : goals.length = js.length) (hnd : js.Nodup) (hg : ∀ g ∈ goals, -1 < g)
    (hA : ∀ i, i ∉ js → -1 < (power φ (fun _ => 0) P i).re)
    (h : integrateByParts fuel val P goals (js.map (Fin.castAdd R)) = .ok outs) :
    ∀ Q ∈ outs, SmoothNonint φ (fun _ => 0) Q ∧ CubeIntegrable (valueWithoutPoles φ (fun _ => 0) Q) := by
  rw [integrateByParts_eq] at h
  intro Q hQ
  obtain ⟨D', h1, h2⟩ := ibpLoopIdx_ginv (goals.zip js) [] [P] outs (by simpa using ginv_start hW hC hS) (by simp)
    (goals_nodup hlen hnd) h Q hQ
  refine ⟨smooth_of_onP h2.sm, ?_⟩
  -- powers of the untreated parameters
  have hU : ∀ Q ∈ outs, ∀ i, i ∉ js → pw φ (fun _ => 0) Q.monos i = pw φ (fun _ => 0) P.monos i := by
    have key : ∀ (gs : List (ℚ × Fin N)) (l outs : List (PolyProd (N + R) F)) (S : List (Fin N)), (∀ Q ∈ l, UInv φ P S Q) →
        ibpLoopIdx fuel val (castGoals gs) l = .ok outs → ∀ Q ∈ outs, ∃ S', UInv φ P S' Q ∧ ∀ i ∈ S', i ∈ S ∨ i ∈ gs.map (·.2) := by
      intro gs
      induction gs with
      | nil => intro l outs S hl h; simp [castGoals, ibpLoopIdx] at h; subst h; exact fun Q hQ => ⟨S, hl Q hQ, fun i hi => Or.inl hi⟩
      | cons g gs ih =>
        intro l outs S hl h
        simp only [castGoals, List.map_cons, ibpLoopIdx] at h
        obtain ⟨l', hl', h⟩ := bind_ok h
        have a1 := extendAll_all (p := UInv φ P S) (r := UInv φ P (g.2 :: S))
          (fun Q outs hQ ho => (ibpSingle_uinv fuel Q outs hQ ho).2) l l' hl hl'
        intro Q hQ
        obtain ⟨S', b1, b2⟩ := ih l' outs (g.2 :: S) a1 h Q hQ
        refine ⟨S', b1, fun i hi => ?_⟩
        rcases b2 i hi with h' | h'
        · rcases List.mem_cons.1 h' with rfl | h'
          · right; simp
          · exact Or.inl h'
        · right; simp only [List.map_cons, List.mem_cons]; exact Or.inr h'
    intro Q hQ i hi
    obtain ⟨S', b1, b2⟩ := key (goals.zip js) [P] outs [] (by
      intro Q hQ; simp at hQ; subst hQ; exact ⟨mw_start hW hC, fun _ _ _ => rfl⟩) h Q hQ
    have hi' : i ∉ S' := by
      intro hh
      rcases b2 i hh with h' | h'
      · simp at h'
      · rw [List.map_snd_zip hlen.ge] at h'; exact hi h'
    rw [pw_zero_point b1.mw.wm, pw_zero_point hW.wm, ect_eq_powerCoeff, ect_eq_powerCoeff, b1.same i hi']
  have hre : ∀ i, -1 < (pw φ (fun _ => 0) Q.monos i).re := by
    intro i
    by_cases hi : i ∈ js
    · obtain ⟨g, hgj⟩ := mem_zip_of_mem hlen hi
      rcases h2.goals _ (h1 _ (Or.inr hgj)) with ⟨c1, _⟩ | ⟨q, c1, c2⟩
      · rw [pw_zero c1]; simp
      · rw [pw_zero_point h2.wf.wm, hval _ _ c1, Complex.ratCast_re]
        have h3 := hg g (List.of_mem_zip hgj).1
        have : -1 < q := lt_of_lt_of_le h3 c2
        exact_mod_cast this
    · rw [hU Q hQ i hi, ← power_eq]; exact hA i hi
  obtain ⟨U, hOn⟩ := h2.sm
  have := integrableOn_onP (noPoles_wf h2.wf) (P := noPoles Q) (U := U) ⟨hOn.isOpen, hOn.covers, hOn.adm⟩ hre
  have hfun : value φ (fun _ => 0) (noPoles Q) = valueWithoutPoles φ (fun _ => 0) Q := funext (noPoles_value h2.wf)
  rw [hfun] at this
  exact cubeIntegrable_oc.2 this

/-- C21: for one parameter whose power has constant term `q`, exactly `⌈goal - q⌉ + 1` terms (one if the goal is
reached already) are returned ... -/
theorem C21_number_of_terms {fuel : ℕ} {val : F → Option ℚ} (hv : ∀ c q, val c = some q → val (c + 1) = some (q + 1))
    {P : PolyProd (N + R) F} {goal : ℚ} {j : Fin N} {outs : List (PolyProd (N + R) F)} {q : ℚ}
    (hW : WellFormed φ P) (hC : CleanExponents P) (hq : val (powerCoeff P j (fun _ => 0)) = some q)
    (h : integrateByParts fuel val P [goal] [Fin.castAdd R j] = .ok outs) : outs.length = ⌈goal - q⌉.toNat + 1 := by
  simp only [integrateByParts, List.zip_cons_cons, List.zip_nil_left, ibpLoopIdx, extendAll] at h
  obtain ⟨l, hl, h⟩ := bind_ok h
  obtain ⟨a, ha, hl⟩ := bind_ok hl
  obtain ⟨b, hb, hl⟩ := bind_ok hl
  simp at h hl hb
  subst h hb
  subst hl
  rw [List.append_nil]
  exact ibpSingle_length hv fuel P a q (mw_start hW hC) hq ha

/-- ... and the recursion ends after this number of steps: allowing more steps does not change the
result. -/
theorem C21_terminates {fuel : ℕ} {val : F → Option ℚ} (hv : ∀ c q, val c = some q → val (c + 1) = some (q + 1))
    {P : PolyProd (N + R) F} {goal : ℚ} {j : Fin N} {q : ℚ} (hW : WellFormed φ P) (hC : CleanExponents P)
    (hq : val (powerCoeff P j (fun _ => 0)) = some q) (k : ℕ) (hk : goal - q ≤ k) (m : ℕ) :
    ibpSingle fuel val goal (Fin.castAdd R j) (k + 1 + m) P = ibpSingle fuel val goal (Fin.castAdd R j) (k + 1) P :=
  ibpSingle_steps hv k P q (mw_start hW hC) hq (Int.ceil_le.2 (by exact_mod_cast hk)) m

/-- C21: `'"1/0" detected'` is raised only if the power of one of the treated parameters has a negative constant
term and does not depend on the regulators ... -/
theorem C21_one_over_zero {fuel : ℕ} {val : F → Option ℚ} (hv : ∀ c q, val c = some q → val (c + 1) = some (q + 1))
    {P : PolyProd (N + R) F} {goals : List ℚ} {js : List (Fin N)} (hW : WellFormed φ P) (hC : CleanExponents P)
    (hlen : goals.length = js.length) (hnd : js.Nodup)
    (h : integrateByParts fuel val P goals (js.map (Fin.castAdd R)) = .error .oneOverZero) :
    ∃ j ∈ js, ∃ q < 0, val (powerCoeff P j (fun _ => 0)) = some q ∧ Unregulated P j := by
  rw [integrateByParts_eq] at h
  rcases ibpLoopIdx_error (P := P) (φ := φ) hv (goals.zip js) [] [P] _ (by
      intro Q hQ; simp at hQ; subst hQ; exact ⟨mw_start hW hC, fun _ _ _ => rfl⟩) (by simp)
      (goals_nodup hlen hnd) h with ⟨a, _⟩ | ⟨_, g, hg, b⟩ | a
  · simp at a
  · exact ⟨g.2, (List.of_mem_zip (show (g.1, g.2) ∈ goals.zip js from hg)).2, b⟩
  · simp at a

/-- ... and in this case the function never succeeds. -/
theorem C21_one_over_zero_detected {fuel : ℕ} {val : F → Option ℚ} {P : PolyProd (N + R) F} {goals : List ℚ} {js : List (Fin N)}
    {outs : List (PolyProd (N + R) F)} (hW : WellFormed φ P) (hC : CleanExponents P)
    (hlen : goals.length = js.length) (hnd : js.Nodup)
    (h : integrateByParts fuel val P goals (js.map (Fin.castAdd R)) = .ok outs) :
    ∀ j ∈ js, ∃ q, val (powerCoeff P j (fun _ => 0)) = some q ∧ ¬ (q < 0 ∧ Unregulated P j) := by
  rw [integrateByParts_eq] at h
  intro j hj
  obtain ⟨g, hgj⟩ := mem_zip_of_mem hlen hj
  exact ibpLoopIdx_good (P := P) (φ := φ) (goals.zip js) [] [P] outs (by simp) (by
      intro Q hQ; simp at hQ; subst hQ; exact ⟨mw_start hW hC, fun _ _ _ => rfl⟩) (by simp)
      (goals_nodup hlen hnd) h (g, j) hgj

/-! ### Concrete cases -/

/-- The sample `x ** (-1 + eps) * exp(x)` meets the hypotheses. -/
example : WellFormed (Rat.castHom ℂ) (N := 1) (R := 1) sample ∧ CleanExponents (N := 1) (R := 1) sample := by
  refine ⟨sample_wf, ?_⟩
  intro m hm h
  simp [sample] at hm; subst hm
  have := (h (![0, 0], -1) (by simp)).2
  norm_num at this

theorem sample_smoothNonint (ε : Fin 1 → ℂ) : SmoothNonint (Rat.castHom ℂ) (N := 1) ε sample := by
  refine ⟨univ, isOpen_univ, fun _ _ => trivial, ?_⟩
  intro e he; simp [sample] at he; subst he
  refine Adm.exp _ (Adm.poly _ ?_ ?_ ?_) <;> intro t ht <;> simp at ht <;> subst ht
  · intro x _ i _; fin_cases i <;> simp
  · exact Adm.num _
  · exact ⟨1, rfl⟩

/-- The function succeeds on the sample. -/
example : ∃ outs, integrateByParts 20 some sample [0] ([(0 : Fin 1)].map (Fin.castAdd 1)) = .ok outs := by
  have h1 : ect (Fin.castAdd 1 (0 : Fin 1)) sample.monos = -1 := by decide +kernel
  have h2 : noRegulator (fullExponent (Fin.castAdd 1 (0 : Fin 1)) sample.monos) (-1) = false := by
    rw [← Bool.not_eq_true, ← h1, noRegulator_iff]
    exact sample_regulated
  obtain ⟨c1, h4⟩ : ∃ e, Expr.replace 1 (fun _ => 1) (Fin.castAdd 1 (0 : Fin 1)) 20 (.prod sample.calI) = some e :=
    Option.isSome_iff_exists.1 (by decide +kernel)
  have hc1 : c1 = ((Expr.replace 1 (fun _ => 1) (Fin.castAdd 1 (0 : Fin 1)) 20 (.prod sample.calI)).getD (.num 0)) := by
    rw [h4]; rfl
  obtain ⟨c1s, h5⟩ : ∃ s, Expr.simplify 20 c1 = some s := by
    rw [hc1]; exact Option.isSome_iff_exists.1 (by decide +kernel)
  obtain ⟨d, h6⟩ : ∃ e, Expr.derive 20 (.prod sample.calI) (Fin.castAdd 1 (0 : Fin 1)) = some e :=
    Option.isSome_iff_exists.1 (by decide +kernel)
  have hd : d = ((Expr.derive 20 (.prod sample.calI) (Fin.castAdd 1 (0 : Fin 1))).getD (.num 0)) := by
    rw [h6]; rfl
  obtain ⟨ds, h7⟩ : ∃ s, Expr.simplify 20 (.prod [const (-1), d]) = some s := by
    rw [hd]; exact Option.isSome_iff_exists.1 (by decide +kernel)
  have h8 : ect (Fin.castAdd 1 (0 : Fin 1)) (increasePower (Fin.castAdd 1 (0 : Fin 1)) sample.monos) = 0 := by decide +kernel
  have last : ∀ (steps : ℕ) (T : PolyProd (1 + 1) ℚ), T.monos = increasePower (Fin.castAdd 1 (0 : Fin 1)) sample.monos →
      ibpSingle 20 some 0 (Fin.castAdd 1 (0 : Fin 1)) (steps + 1) T = .ok [T] := by
    intro steps T hT
    simp only [ibpSingle, hT, h8]
    rw [if_neg (fun h => lt_irrefl _ h.1), if_pos le_rfl]
  have key : ∃ o, ibpSingle 20 some 0 (Fin.castAdd 1 (0 : Fin 1)) (18 + 1 + 1) sample = .ok o := by
    rw [ibpSingle]
    simp only [h1, h2, h4, h5, h6, h7, lift, Bind.bind, Except.bind]
    rw [last]
    · exact ⟨_, rfl⟩
    · rfl
  obtain ⟨o, ho⟩ := key
  have ho' : ibpSingle 20 some 0 (Fin.castAdd 1 (0 : Fin 1)) 20 sample = .ok o := ho
  simp only [integrateByParts, List.zip_cons_cons, List.zip_nil_left, List.map_cons, List.map_nil, ibpLoopIdx, extendAll, ho',
    Bind.bind, Except.bind]
  exact ⟨_, rfl⟩

/-- `x ** 0 * (1 + x) ** 1 * eps` with the `ExponentiatedPolynomial` `(1 + x) ** 1` and `eps` as `cal_I`. -/
def sampleOnePlus : PolyProd (1 + 1) ℚ :=
  { monos := [⟨![0, 0], 1, ⟨[(![0, 0], 1)]⟩⟩]
    regBase := ⟨[(![0, 0], 1)]⟩
    regExp := .poly [((fun _ => 0), .num (-1))]
    calI := [.epoly [(![1, 0], .num 1), (![0, 0], .num 1)] (.num 1), .poly [(![0, 1], .num 1)]] }

/-- The expression is the polynomial `eps`. -/
def isEps (e : Expr (1 + 1) ℚ) : Bool :=
  match e with
  | .poly [(m, .num c)] => decide (m = ![0, 1]) && decide (c = 1)
  | _ => false

theorem isEps_eval {e : Expr (1 + 1) ℚ} (h : isEps e = true) (x : Fin (1 + 1) → ℂ) : eval (Rat.castHom ℂ) x e = x 1 := by
  unfold isEps at h
  split at h
  · rename_i m c
    simp only [Bool.and_eq_true, decide_eq_true_eq] at h
    rw [h.1, h.2, eval_poly]
    simp [eval_num, Poly.mono]
  · simp at h

/-- C21, defect: with a positive integer exponent the boundary term can be wrong (a consequence of
`C07_simplify_changes_value`).  For `cal_I = (1 + x) ** 1 * eps`, the substitution `x = 1` leaves the unsimplified
polynomial `1 + 1`, which `simplify` drops: the boundary term contains `eps` instead of `2 * eps`. -/
theorem C21_boundary_term_wrong :
    ∃ c c' : Expr (1 + 1) ℚ, replace 1 (fun _ => 1) (Fin.castAdd 1 (0 : Fin 1)) 20 (.prod sampleOnePlus.calI) = some c ∧
      simplify 20 c = some c' ∧
      ∀ x, eval (Rat.castHom ℂ) x c' = x 1 ∧
        eval (Rat.castHom ℂ) (Function.update x (Fin.castAdd 1 (0 : Fin 1)) 1) (.prod sampleOnePlus.calI) = 2 * x 1 := by
  have hs : ((replace 1 (fun _ => 1) (Fin.castAdd 1 (0 : Fin 1)) 20 (.prod sampleOnePlus.calI)).bind (fun c =>
      (simplify 20 c).map isEps)) = some true := by decide +kernel
  obtain ⟨c, h1, h2⟩ := Option.bind_eq_some_iff.1 hs
  obtain ⟨c', h3, h4⟩ := Option.map_eq_some_iff.1 h2
  refine ⟨c, c', h1, h3, fun x => ⟨isEps_eval h4 x, ?_⟩⟩
  rw [eval_prod]
  simp only [sampleOnePlus, List.map_cons, List.map_nil, List.prod_cons, List.prod_nil]
  rw [eval_epoly, eval_poly, eval_poly, eval_num]
  simp [eval_num, Poly.mono]
  norm_num

end SecDec.Subtraction
