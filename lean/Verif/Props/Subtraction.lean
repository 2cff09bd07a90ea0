import Verif.Proof.SubOrder
/-
C20: the pole subtraction is exact and makes all poles explicit.
-/
set_option linter.unusedSectionVars false
namespace SecDec.Subtraction
open Expr Set Decomp MeasureTheory

variable {N R : Nat} {F : Type} [Field F] [DecidableEq F] {φ : F →+* ℂ} {ε : Fin R → ℂ}

theorem on_of_smooth {P : PolyProd (N + R) F} (h : Smooth φ ε P) : ∃ U, On φ ε P U := by
  obtain ⟨U, h1, h2, h3⟩ := h
  exact ⟨U, h1, h2, h3⟩

theorem smooth_of_on {P : PolyProd (N + R) F} (h : ∃ U, On φ ε P U) : Smooth φ ε P := by
  obtain ⟨U, h⟩ := h
  exact ⟨U, h.isOpen, h.covers, h.adm⟩

theorem cubeIntegral_oc (f : (Fin N → ℝ) → ℂ) : cubeIntegral f = ∫ t in oc N, f t :=
  (setIntegral_congr_set oc_ae).symm

theorem cubeIntegrable_oc {f : (Fin N → ℝ) → ℂ} : CubeIntegrable f ↔ IntegrableOn f (oc N) :=
  integrableOn_congr_set_ae oc_ae.symm

/-- The product with the regulator poles removed. -/
def noPoles (P : PolyProd (N + R) F) : PolyProd (N + R) F := { P with regBase := ⟨[((fun _ => 0), 1)]⟩ }

theorem noPoles_wf {P : PolyProd (N + R) F} (h : WellFormed φ P) : WellFormed φ (noPoles P) := by
  refine ⟨h.coeff, h.monomial, h.exponent, ?_, h.exp⟩
  intro t ht
  simp [noPoles] at ht
  subst ht
  exact ⟨fun _ => le_refl _, fun _ => rfl⟩

theorem noPoles_value {P : PolyProd (N + R) F} (h : WellFormed φ P) (t : Fin N → ℝ) :
    value φ ε (noPoles P) t = valueWithoutPoles φ ε P t := by
  unfold value valueWithoutPoles PolyProd.toExpr noPoles
  rw [eval_prod, eval_prod]
  simp only [List.map_cons, List.prod_cons, h.exp, eval_pow, List.map_nil]
  have h1 : Expr.eval φ (point ε t) (.poly [((fun _ => 0), .num (1 : F))]) = 1 := by
    rw [eval_poly]; simp [eval_num, mono_zero']
  rw [h1, Complex.one_cpow, one_mul]

/-- C20: `integrate_pole_part` preserves the integral: for all values of the regulators for which the
original integral converges, every returned term is integrable and the integrals of the returned terms
add up to the original integral. -/
theorem C20_pole_part_preserves_integral {fuel : ℕ} {val : F → Option ℚ} {P : PolyProd (N + R) F} {js : List (Fin N)}
    {outs : List (PolyProd (N + R) F)} (hW : WellFormed φ P) (hS : Smooth φ ε P)
    (hA : ∀ i, -1 < (power φ ε P i).re)
    (h : integratePolePart fuel val P (js.map (Fin.castAdd R)) = .ok outs) :
    CubeIntegrable (value φ ε P) ∧ (∀ Q ∈ outs, CubeIntegrable (value φ ε Q)) ∧
      (outs.map (fun Q => cubeIntegral (value φ ε Q))).sum = cubeIntegral (value φ ε P) := by
  have hC : Conv φ ε P := ⟨hW, on_of_smooth hS, fun i => by rw [← power_eq]; exact hA i⟩
  obtain ⟨h1, h2⟩ := poleLoopIdx_conv js [P] outs (by simpa using hC) h
  have hI : ∀ Q : PolyProd (N + R) F, Conv φ ε Q → CubeIntegrable (value φ ε Q) := by
    intro Q hQ
    obtain ⟨U, hU⟩ := hQ.sm
    exact cubeIntegrable_oc.2 (integrableOn_of_re hQ.wf hU hQ.re)
  refine ⟨hI P hC, fun Q hQ => hI Q (h1 Q hQ), ?_⟩
  simp only [cubeIntegral_oc]
  simpa using h2

/-- C20: the subtraction makes the poles explicit: let `a i` be the constant terms of the powers of the
treated parameters.  For all regulators (in particular close to zero, where the original integral
diverges) for which the powers improved by the subtraction are integrable, the coefficient of the pole
factor in every returned term is integrable. -/
theorem C20_terms_integrable {fuel : ℕ} {val : F → Option ℚ} (hval : ∀ c q, val c = some q → φ c = (q : ℂ))
    {P : PolyProd (N + R) F} {js : List (Fin N)} {outs : List (PolyProd (N + R) F)}
    (hW : WellFormed φ P) (hS : Smooth φ ε P) (a : Fin N → ℚ)
    (ha : ∀ i ∈ js, power φ (fun _ => 0) P i = (a i : ℂ))
    (hden : ∀ i ∈ js, ∀ p : ℕ, (a i : ℚ) + p + 1 ≠ 0 → power φ ε P i + p + 1 ≠ 0)
    (hA : ∀ i, -1 < (power φ ε P i).re + (if i ∈ js ∧ a i < 0 then ⌊-(a i)⌋.toNat else 0 : ℕ))
    (h : integratePolePart fuel val P (js.map (Fin.castAdd R)) = .ok outs) :
    ∀ Q ∈ outs, Smooth φ ε Q ∧ CubeIntegrable (valueWithoutPoles φ ε Q) ∧ CubeIntegrable (value φ ε Q) := by
  have hgood := poleLoopIdx_good (P := P) js [P] outs ⟨P, by simp, rfl⟩ h
  have hvala : ∀ i ∈ js, val (ect (Fin.castAdd R i) P.monos) = some (a i) := by
    intro i hi
    obtain ⟨q, hq, _⟩ := hgood i hi
    have h1 := hval _ _ hq
    have h2 := ha i hi
    rw [power_eq, pw_zero_point hW.wm, h1] at h2
    have : q = a i := by exact_mod_cast h2
    rw [hq, this]
  have h0 : Inv φ ε val P [] P := ⟨hW, on_of_smooth hS, fun i => Or.inr ⟨rfl, rfl, fun hi => by simp at hi⟩⟩
  intro Q hQ
  obtain ⟨S', hS', hI⟩ := poleLoopIdx_inv hval js [] [P] outs (by simpa using h0) (by
    intro j hj p hp
    have := hden j hj p (by
      intro hz
      apply hp
      have hφ := hval _ _ (hvala j hj)
      apply φ.injective
      rw [map_add, map_add, hφ, map_natCast, map_one, map_zero]
      exact_mod_cast hz)
    rw [power_eq] at this
    exact this) h Q hQ
  have hSm : Smooth φ ε Q := smooth_of_on hI.sm
  obtain ⟨U, hU⟩ := hI.sm
  have key : ∀ Q' : PolyProd (N + R) F, WellFormed φ Q' → Q'.monos = Q.monos → Q'.calI = Q.calI →
      CubeIntegrable (value φ ε Q') := by
    intro Q' hW' hm' hc'
    have hU' : On φ ε Q' U := ⟨hU.isOpen, hU.covers, by rw [hc']; exact hU.adm⟩
    have hf : fI φ Q' = fI φ Q := by funext x; simp only [fI, hc']
    have hint : ∀ i : Fin N, ∃ m : ℕ, Van ε (fI φ Q) i m ∧ -1 < (pw φ ε Q.monos i).re + m := by
      intro i
      rcases hI.col i with hz | ⟨e1, e2, e3⟩
      · exact ⟨0, van_zero _ _, by rw [pw_zero hz]; simp⟩
      · have hAi := hA i
        rw [power_eq] at hAi
        by_cases hi : i ∈ js ∧ a i < 0
        · rw [if_pos hi] at hAi
          exact ⟨_, e3 (hS' i (Or.inr hi.1)) (a i) (hvala i hi.1) hi.2, by rw [e2]; exact hAi⟩
        · rw [if_neg hi] at hAi
          exact ⟨0, van_zero _ _, by rw [e2]; exact hAi⟩
    choose m hm1 hm2 using hint
    exact cubeIntegrable_oc.2 (integrableOn_of_van hW' hU' m (by rw [hf]; exact hm1) (by rw [hm']; exact hm2))
  refine ⟨hSm, ?_, key Q hI.wf rfl rfl⟩
  have := key (noPoles Q) (noPoles_wf hI.wf) rfl rfl
  have hfun : value φ ε (noPoles Q) = valueWithoutPoles φ ε Q := funext (noPoles_value hI.wf)
  rwa [hfun] at this

/-- C20: in particular at the expansion point, all regulators zero: if all parameters with powers whose constant
term is at most `-1` are treated, the coefficients of the pole factors are smooth and integrable. -/
theorem C20_finite_at_zero {fuel : ℕ} {val : F → Option ℚ} (hval : ∀ c q, val c = some q → φ c = (q : ℂ))
    {P : PolyProd (N + R) F} {js : List (Fin N)} {outs : List (PolyProd (N + R) F)}
    (hW : WellFormed φ P) (hS : Smooth φ (fun _ => 0) P) (a : Fin N → ℚ)
    (ha : ∀ i, power φ (fun _ => 0) P i = (a i : ℂ)) (hA : ∀ i, a i ≤ -1 → i ∈ js)
    (h : integratePolePart fuel val P (js.map (Fin.castAdd R)) = .ok outs) :
    ∀ Q ∈ outs, Smooth φ (fun _ => 0) Q ∧ CubeIntegrable (valueWithoutPoles φ (fun _ => 0) Q) := by
  intro Q hQ
  obtain ⟨h1, h2, _⟩ := C20_terms_integrable hval hW hS a (fun i _ => ha i) (by
    intro i _ p hp
    rw [ha i]
    exact_mod_cast hp) (by
    intro i
    rw [ha i, Complex.ratCast_re]
    split
    · rename_i hi
      have hf : (0 : ℤ) ≤ ⌊-(a i)⌋ := Int.floor_nonneg.2 (by linarith [hi.2])
      have hcast : ((⌊-(a i)⌋.toNat : ℕ) : ℚ) = (⌊-(a i)⌋ : ℚ) := by
        have := Int.toNat_of_nonneg hf
        exact_mod_cast this
      have h1 := Int.lt_floor_add_one (-(a i))
      have h2 : -1 < a i + ((⌊-(a i)⌋.toNat : ℕ) : ℚ) := by rw [hcast]; linarith
      exact_mod_cast h2
    · rename_i hi
      have : -1 < a i := by
        by_contra hc
        push Not at hc
        exact hi ⟨hA i hc, by linarith⟩
      have h2 : -1 < a i + ((0 : ℕ) : ℚ) := by simpa using this
      exact_mod_cast h2) h Q hQ
  exact ⟨h1, h2⟩

/-- C20: the pole factor of every returned term is the original one times one factor
`(power_j + k_j + 1) * k_j!` for each `j` of a set `S` of treated parameters, where `k_j + 1` is minus the
constant term of the power of `j` (so that the factor vanishes when the regulators are zero). -/
theorem C20_pole_factors {fuel : ℕ} {val : F → Option ℚ} (hv0 : val 0 = some 0)
    {P : PolyProd (N + R) F} {js : List (Fin N)} {outs : List (PolyProd (N + R) F)} (hW : WellFormed φ P)
    (h : integratePolePart fuel val P (js.map (Fin.castAdd R)) = .ok outs) :
    ∀ Q ∈ outs, ∃ (S : Finset (Fin N)) (k : Fin N → ℕ), (∀ j ∈ S, j ∈ js ∧ power φ (fun _ => 0) P j = -((k j : ℂ) + 1)) ∧
      ∀ ε, poleDenominator φ ε Q = poleDenominator φ ε P * ∏ j ∈ S, (power φ ε P j + k j + 1) * ((k j).factorial : ℂ) := by
  intro Q hQ
  have h0 : Form φ P ∅ (fun _ => 0) P := ⟨hW.wm, hW.base, rfl, fun i => Or.inr ⟨by simp, rfl⟩, by simp, by simp⟩
  obtain ⟨S, k, hS, hF⟩ := poleLoopIdx_form hv0 js ∅ [P] outs (by
    intro Q hQ; simp at hQ; subst hQ; exact ⟨∅, _, by simp, h0⟩) h Q hQ
  refine ⟨S, k, ?_, ?_⟩
  · intro j hj
    refine ⟨by simpa using hS hj, ?_⟩
    rw [power_eq, pw_zero_point hW.wm]
    have := congrArg φ (hF.pole j hj)
    simp only [map_add, map_natCast, map_one, map_zero] at this
    linear_combination this
  · intro ε
    have e : ∀ Q : PolyProd (N + R) F, poleDenominator φ ε Q = pev φ (rpt N ε) Q.regBase := by
      intro Q; unfold poleDenominator; rw [eval_ofPoly]; rfl
    rw [e, e, hF.den ε]
    simp only [power_eq]

/-- C20: `'"1/0" detected'` is raised only if the power of one of the treated parameters has a negative constant
term and does not depend on the regulators ... -/
theorem C20_one_over_zero {fuel : ℕ} {val : F → Option ℚ} (hv0 : val 0 = some 0)
    {P : PolyProd (N + R) F} {js : List (Fin N)} (hW : WellFormed φ P)
    (h : integratePolePart fuel val P (js.map (Fin.castAdd R)) = .error .oneOverZero) :
    ∃ j ∈ js, ∃ q < 0, val (powerCoeff P j (fun _ => 0)) = some q ∧ Unregulated P j := by
  have h0 : Form φ P ∅ (fun _ => 0) P := ⟨hW.wm, hW.base, rfl, fun i => Or.inr ⟨by simp, rfl⟩, by simp, by simp⟩
  rcases poleLoopIdx_error hv0 js [P] _ (by
    intro Q hQ; simp at hQ; subst hQ; exact ⟨∅, _, h0⟩) h with ⟨h1, _⟩ | ⟨_, j, hj, h1⟩ | h1
  · simp at h1
  · exact ⟨j, hj, by rw [← ect_eq_powerCoeff]; exact h1⟩
  · simp at h1

/-- ... and in this case the function never succeeds. -/
theorem C20_one_over_zero_detected {fuel : ℕ} {val : F → Option ℚ}
    {P : PolyProd (N + R) F} {js : List (Fin N)} {outs : List (PolyProd (N + R) F)}
    (h : integratePolePart fuel val P (js.map (Fin.castAdd R)) = .ok outs) :
    ∀ j ∈ js, ∃ q, val (powerCoeff P j (fun _ => 0)) = some q ∧ ¬ (q < 0 ∧ Unregulated P j) := by
  intro j hj
  rw [← ect_eq_powerCoeff]
  exact poleLoopIdx_good (P := P) js [P] outs ⟨P, by simp, rfl⟩ h j hj

/-- C20: for a single parameter the error is raised exactly in this case. -/
theorem C20_one_over_zero_iff {fuel : ℕ} {val : F → Option ℚ} {P : PolyProd (N + R) F} {j : Fin N} :
    poleSingle fuel val P (Fin.castAdd R j) = .error .oneOverZero ↔
      ∃ q < 0, val (powerCoeff P j (fun _ => 0)) = some q ∧ Unregulated P j := by
  constructor
  · intro h
    rcases poleSingle_error _ h with ⟨h1, _⟩ | ⟨_, h1⟩ | h1
    · simp at h1
    · rw [← ect_eq_powerCoeff]; exact h1
    · simp at h1
  · rintro ⟨q, hq, hv, hu⟩
    rw [← ect_eq_powerCoeff] at hv
    simp only [poleSingle, hv]
    rw [if_pos ⟨hq, (noRegulator_iff j P).2 hu⟩]

/-- C20: `pole_structure` returns the powers of the parameters for vanishing regulators. -/
theorem C20_pole_structure {P : PolyProd (N + R) F} (hW : WellFormed φ P) (js : List (Fin N)) :
    (poleStructure P.monos (js.map (Fin.castAdd R))).map φ = js.map (power φ (fun _ => 0) P) := by
  unfold poleStructure
  rw [List.map_map, List.map_map]
  refine List.map_congr_left fun j _ => ?_
  rw [power_eq, pw_zero_point hW.wm]; rfl

/-! ### A concrete case: `x ** (-1 + eps) * exp(x)` -/

/-- `x ** (-1 + eps) * 1 ** -1 * exp(x)`. -/
def sample : PolyProd (1 + 1) ℚ :=
  { monos := [⟨![1, 0], 1, ⟨[(![0, 0], -1), (![0, 1], 1)]⟩⟩]
    regBase := ⟨[(![0, 0], 1)]⟩
    regExp := .poly [((fun _ => 0), .num (-1))]
    calI := [.exp (.poly [(![1, 0], .num 1)])] }

theorem sample_wf : WellFormed (Rat.castHom ℂ) (N := 1) (R := 1) sample := by
  refine ⟨?_, ?_, ?_, ?_, rfl⟩
  · intro m hm; simp [sample] at hm; subst hm; exact ⟨1, one_pos, by simp⟩
  · intro m hm i; simp [sample] at hm; subst hm; fin_cases i; rfl
  · intro m hm; simp [sample] at hm; subst hm
    intro t ht; simp at ht
    rcases ht with rfl | rfl <;>
    · refine ⟨fun i => ?_, fun i => ?_⟩ <;> fin_cases i <;> simp
  · intro t ht; simp [sample] at ht; subst ht
    refine ⟨fun i => ?_, fun i => ?_⟩ <;> fin_cases i <;> simp

example (ε : Fin 1 → ℂ) : Smooth (Rat.castHom ℂ) (N := 1) ε sample := by
  refine ⟨univ, isOpen_univ, fun _ _ => trivial, ?_⟩
  intro e he; simp [sample] at he; subst he
  refine Adm.exp _ (Adm.poly _ ?_ ?_ ?_) <;> intro t ht <;> simp at ht <;> subst ht
  · intro x _ i _; fin_cases i <;> simp
  · exact Adm.num _
  · exact ⟨1, rfl⟩

theorem sample_power (ε : Fin 1 → ℂ) : power (Rat.castHom ℂ) (N := 1) ε sample 0 = -1 + ε 0 := by
  simp [power, sample, eval_poly, eval_num, Poly.mono, Fin.prod_univ_two]
  rfl

/-- The regulator can be chosen such that the integral converges. -/
example : ∀ i, -1 < (power (Rat.castHom ℂ) (N := 1) (fun _ : Fin 1 => (1/2 : ℂ)) sample i).re := by
  intro i; fin_cases i
  rw [show ((fun i => i) ⟨0, Nat.zero_lt_one⟩ : Fin 1) = 0 from rfl, sample_power]
  norm_num

theorem sample_regulated : ¬ Unregulated (N := 1) (R := 1) sample 0 := by
  intro h
  have := h ![0, 1] (by decide)
  revert this
  decide +kernel

/-- The function succeeds. -/
example : ∃ outs, integratePolePart 20 some sample ([(0 : Fin 1)].map (Fin.castAdd 1)) = .ok outs := by
  have h1 : ect (Fin.castAdd 1 (0 : Fin 1)) sample.monos = -1 := by decide +kernel
  have h2 : noRegulator (fullExponent (Fin.castAdd 1 (0 : Fin 1)) sample.monos) (-1) = false := by
    rw [← Bool.not_eq_true, ← h1, noRegulator_iff]
    exact sample_regulated
  have h3 : ⌊-(-1 : ℚ)⌋.toNat = 1 := by simp
  obtain ⟨e1, h4⟩ : ∃ e, Expr.replace 0 (fun _ => 0) (Fin.castAdd 1 (0 : Fin 1)) 20 (.prod sample.calI) = some e :=
    Option.isSome_iff_exists.1 (by decide +kernel)
  have h5 : ∃ s, Expr.simplify 20 (.sum (.prod sample.calI :: [.prod [minusPower (Fin.castAdd 1 (0 : Fin 1)) 0 1, e1]])) = some s := by
    have : e1 = ((Expr.replace 0 (fun _ => 0) (Fin.castAdd 1 (0 : Fin 1)) 20 (.prod sample.calI)).getD (.num 0)) := by
      rw [h4]; rfl
    rw [this]
    exact Option.isSome_iff_exists.1 (by decide +kernel)
  obtain ⟨s, h5⟩ := h5
  suffices h : (integratePolePart 20 some sample ([(0 : Fin 1)].map (Fin.castAdd 1))).isOk = true by
    cases hh : integratePolePart 20 some sample ([(0 : Fin 1)].map (Fin.castAdd 1)) with
    | ok o => exact ⟨o, rfl⟩
    | error e => rw [hh] at h; simp [Except.isOk, Except.toBool] at h
  simp only [integratePolePart, List.map_cons, List.map_nil, poleLoopIdx, extendAll, poleSingle, h1, h2, h3, poleLoop,
    poleTerm, lift, h4, Bind.bind, Except.bind, if_true]
  norm_num
  rw [h5]
  rfl

/-- `x ** (-1/2)`, without regulator. -/
def sampleRoot : PolyProd (1 + 1) ℚ :=
  { monos := [⟨![1, 0], 1, ⟨[(![0, 0], -1/2)]⟩⟩]
    regBase := ⟨[(![0, 0], 1)]⟩
    regExp := .poly [((fun _ => 0), .num (-1))]
    calI := [] }

/-- An unregulated parameter is rejected even if the singularity is integrable: `x ** (-1/2)`. -/
theorem C20_integrable_singularity_rejected :
    ∃ P : PolyProd (1 + 1) ℚ, WellFormed (Rat.castHom ℂ) (N := 1) (R := 1) P ∧
      (∀ ε : Fin 1 → ℂ, Smooth (Rat.castHom ℂ) (N := 1) ε P ∧ ∀ i, -1 < (power (Rat.castHom ℂ) (N := 1) ε P i).re) ∧
      ∀ fuel, integratePolePart fuel some P ([(0 : Fin 1)].map (Fin.castAdd 1)) = .error .oneOverZero := by
  refine ⟨sampleRoot, ⟨?_, ?_, ?_, ?_, rfl⟩, fun ε => ⟨?_, ?_⟩, fun fuel => ?_⟩
  · intro m hm; simp [sampleRoot] at hm; subst hm; exact ⟨1, one_pos, by simp⟩
  · intro m hm i; simp [sampleRoot] at hm; subst hm; fin_cases i; rfl
  · intro m hm; simp [sampleRoot] at hm; subst hm
    intro t ht; simp at ht; subst ht
    refine ⟨fun i => ?_, fun i => ?_⟩ <;> fin_cases i <;> simp
  · intro t ht; simp [sampleRoot] at ht; subst ht
    refine ⟨fun i => ?_, fun i => ?_⟩ <;> fin_cases i <;> simp
  · exact ⟨univ, isOpen_univ, fun _ _ => trivial, by simp [sampleRoot]⟩
  · intro i; fin_cases i
    simp [power, sampleRoot, eval_poly, eval_num, Poly.mono, Fin.prod_univ_two]
    norm_num
  · have h := (C20_one_over_zero_iff (fuel := fuel) (val := some) (j := (0 : Fin 1)) (R := 1) (F := ℚ)
      (P := sampleRoot)).2 ⟨-1/2, by norm_num, by decide +kernel, by
        intro e he
        simp only [sampleRoot, powerCoeff, Poly.coeffOf, List.map_cons, List.map_nil, List.sum_cons, List.sum_nil,
          List.filter_cons, List.filter_nil]
        rw [if_neg]
        · simp
        · simp only [decide_eq_true_eq]
          intro hh; apply he; rw [← hh]; funext i; fin_cases i <;> rfl⟩
    simp only [integratePolePart, List.map_cons, List.map_nil, poleLoopIdx, extendAll]
    rw [h]; rfl

end SecDec.Subtraction
