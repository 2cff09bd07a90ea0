import Verif.Proof.RegPole
import Verif.Props.Parts
/-
Integration by parts preserves the regulated integral, also where the integral diverges.
-/
set_option linter.unusedSectionVars false
namespace SecDec.Reg
open Set Decomp MeasureTheory Filter Topology Metric
open AnalyticReg (cubeIntegral_oc cubeIntegrable_oc)
open Subtraction (integrableOn_powers bdd_cube parts_cube update_mem_cube prod_split integral_power_out)

variable {N : ℕ}

theorem prod_add {t : Fin N → ℝ} (ht : t ∈ oc N) (s : ℂ) (A : Fin N → ℂ) :
    ∏ i, (t i : ℂ) ^ (A i + s) = (∏ i, (t i : ℂ) ^ s) * ∏ i, (t i : ℂ) ^ (A i) := by
  rw [← Finset.prod_mul_distrib]
  refine Finset.prod_congr rfl fun i _ => ?_
  have h0 : (t i : ℂ) ≠ 0 := by exact_mod_cast (mem_oc.1 ht i).1.ne'
  rw [Complex.cpow_add _ _ h0, mul_comm]

/-- Integrable for a large regulator. -/
theorem integrable_large (A : Fin N → ℂ) (g : (Fin N → ℝ) → ℂ) (hg : ContinuousOn g (Icc 0 1)) (s : ℂ) (hs : ∀ i, -1 < (A i + s).re) :
    IntegrableOn (fun t => (∏ i, (t i : ℂ) ^ (A i + s)) * g t) (oc N) := by
  obtain ⟨C, hC⟩ := bdd_cube hg
  exact integrableOn_powers (fun i => A i + s) (fun _ => 0) (by simpa using hs) g hg C hC

theorem exists_large (A : Fin N → ℂ) : ∃ c : ℝ, ∀ s : ℂ, c < s.re → ∀ i, -1 < (A i + s).re := by
  obtain ⟨c, hc⟩ : ∃ c : ℝ, ∀ i, -1 - (A i).re ≤ c := by
    obtain ⟨c, hc⟩ := (Set.finite_range fun i => -1 - (A i).re).bddAbove
    exact ⟨c, fun i => hc ⟨i, rfl⟩⟩
  refine ⟨c, fun s hs i => ?_⟩
  have := hc i
  rw [Complex.add_re]; linarith

/-- Integration by parts of a regulated integral. -/
theorem parts (A : Fin N → ℂ) (κ : ℂ) (j : Fin N) (hA : A j + 1 ≠ 0) (g g' : (Fin N → ℝ) → ℂ)
    (hg : ContinuousOn g (Icc 0 1)) (hg' : ContinuousOn g' (Icc 0 1))
    (hd : ∀ t ∈ Icc (0 : Fin N → ℝ) 1, HasDerivAt (fun s : ℝ => g (Function.update t j s)) (g' t) (t j)) {a b : ℂ}
    (ha : Regulated (fun t => κ * (A j + 1)⁻¹ * ((∏ i, (t i : ℂ) ^ (if i = j then 0 else A i)) * g (Function.update t j 1))) a)
    (hb : Regulated (fun t => κ * (A j + 1)⁻¹ * ((∏ i, (t i : ℂ) ^ (A i)) * (-(t j * g' t)))) b) :
    Regulated (fun t => κ * ((∏ i, (t i : ℂ) ^ (A i)) * g t)) (a + b) := by
  obtain ⟨δ, c, E, H, h1, h2, h3, h4, h5, h6, h7, h8⟩ := ha
  obtain ⟨δ', c', E', H', h1', h2', h3', h4', h5', h6', h7', h8'⟩ := hb
  obtain ⟨c0, hc0⟩ := exists_large A
  have hcc : ∀ s : ℂ, max (max c c') (max c0 (-1)) < s.re → c < s.re ∧ c' < s.re ∧ c0 < s.re ∧ -1 < s.re := by
    intro s hs
    refine ⟨lt_of_le_of_lt ?_ hs, lt_of_le_of_lt ?_ hs, lt_of_le_of_lt ?_ hs, lt_of_le_of_lt ?_ hs⟩ <;> simp
  have hint : ∀ s : ℂ, c0 < s.re → ∀ h : (Fin N → ℝ) → ℂ, ContinuousOn h (Icc 0 1) →
      IntegrableOn (fun t => (∏ i, (t i : ℂ) ^ s) * ((∏ i, (t i : ℂ) ^ (A i)) * h t)) (oc N) := by
    intro s hs h hh
    refine (integrable_large A h hh s (hc0 s hs)).congr_fun (fun t ht => ?_) measurableSet_oc
    beta_reduce
    rw [prod_add ht, mul_assoc]
  have htj : ContinuousOn (fun t : Fin N → ℝ => (t j : ℂ) * g' t) (Icc 0 1) :=
    ((Complex.continuous_ofReal.comp (continuous_apply j)).continuousOn).mul hg'
  have hne : ∀ s : ℂ, c0 < s.re → s + A j + 1 ≠ 0 := by
    intro s hs h0
    have := hc0 s hs j
    have h := congrArg Complex.re h0
    simp only [Complex.add_re, Complex.one_re, Complex.zero_re] at h this
    linarith
  refine ⟨min δ δ', max (max c c') (max c0 (-1)), E ∪ E' ∪ {-(A j + 1)},
    fun s => ((A j + 1) * (s + 1) * H s + (A j + 1) * H' s) / (s + A j + 1), lt_min h1 h1', (h2.union h2').union (countable_singleton _),
    (h3.union h3').union isClosed_singleton, ?_, ?_, ?_, ?_, ?_⟩
  · rintro ((h | h) | h)
    · exact h4 h
    · exact h4' h
    · exact hA (by rw [mem_singleton_iff] at h; linear_combination h)
  · refine DifferentiableOn.div (DifferentiableOn.add (DifferentiableOn.mul (by fun_prop) (h5.mono ?_))
      (DifferentiableOn.const_mul (h5'.mono ?_) _)) (by fun_prop) ?_
    · rintro s ⟨a1, a2⟩
      exact ⟨lt_of_le_of_lt (neg_le_neg (min_le_left δ δ')) a1, fun h => a2 (Or.inl (Or.inl h))⟩
    · rintro s ⟨a1, a2⟩
      exact ⟨lt_of_le_of_lt (neg_le_neg (min_le_right δ δ')) a1, fun h => a2 (Or.inl (Or.inr h))⟩
    · rintro s ⟨-, a2⟩ h0
      exact a2 (Or.inr (by rw [mem_singleton_iff]; linear_combination h0))
  · intro s hs
    obtain ⟨-, -, s3, -⟩ := hcc s hs
    rw [cubeIntegrable_oc]
    have h : IntegrableOn _ (oc N) := Integrable.const_mul (hint s s3 g hg) κ
    refine h.congr_fun (fun t _ => ?_) measurableSet_oc
    beta_reduce; ring
  · intro s hs hE
    obtain ⟨s1, s2, s3, s4⟩ := hcc s hs
    have e1 : H s = κ * (A j + 1)⁻¹ * (1 / (s + 1) * ∫ t in oc N, (∏ i, (t i : ℂ) ^ (if i = j then 0 else A i + s)) * g (Function.update t j 1)) := by
      rw [h7 s s1 fun h => hE (Or.inl (Or.inl h)), cubeIntegral_oc, ← integral_power_out j (b := s) (by linarith), ← integral_const_mul]
      · refine setIntegral_congr_fun measurableSet_oc fun t ht => ?_
        beta_reduce
        have e : (∏ i, (t i : ℂ) ^ s) * ∏ i, (t i : ℂ) ^ (if i = j then 0 else A i) =
            (t j : ℂ) ^ s * ∏ i, (t i : ℂ) ^ (if i = j then 0 else A i + s) := by
          rw [← prod_add ht, prod_split t (fun i => (if i = j then 0 else A i) + s) j]
          simp only [if_true, zero_add]
          congr 1
          refine Finset.prod_congr rfl fun i _ => ?_
          by_cases hij : i = j <;> simp [hij]
        linear_combination (κ * (A j + 1)⁻¹ * g (Function.update t j 1)) * e
      · intro t ht x hx
        rw [Function.update_idem]
        congr 1
        refine Finset.prod_congr rfl fun i _ => ?_
        by_cases hij : i = j
        · simp [hij]
        · rw [Function.update_of_ne hij]
    have e2 : H' s = -(κ * (A j + 1)⁻¹) * ∫ t in oc N, (∏ i, (t i : ℂ) ^ (A i + s)) * (t j * g' t) := by
      rw [h7' s s2 fun h => hE (Or.inl (Or.inr h)), cubeIntegral_oc, ← integral_const_mul]
      refine setIntegral_congr_fun measurableSet_oc fun t ht => ?_
      beta_reduce
      rw [prod_add ht]; ring
    have hp := parts_cube (fun i => A i + s) (hc0 s s3) j g g' hg hg' hd
    have hsplit : ∫ t in oc N, (∏ i, (t i : ℂ) ^ (A i + s)) * ((A j + s + 1) * g t + t j * g' t) =
        (A j + s + 1) * (∫ t in oc N, (∏ i, (t i : ℂ) ^ (A i + s)) * g t) + ∫ t in oc N, (∏ i, (t i : ℂ) ^ (A i + s)) * (t j * g' t) := by
      rw [← integral_const_mul, ← integral_add (Integrable.const_mul (integrable_large A g hg s (hc0 s s3)) _) (integrable_large A _ htj s (hc0 s s3))]
      refine setIntegral_congr_fun measurableSet_oc fun t ht => ?_
      beta_reduce; ring
    beta_reduce at hp
    rw [hsplit] at hp
    have e3 : cubeIntegral (fun t => (∏ i, (t i : ℂ) ^ s) * (κ * ((∏ i, (t i : ℂ) ^ A i) * g t))) =
        κ * ∫ t in oc N, (∏ i, (t i : ℂ) ^ (A i + s)) * g t := by
      rw [cubeIntegral_oc, ← integral_const_mul]
      refine setIntegral_congr_fun measurableSet_oc fun t ht => ?_
      beta_reduce
      rw [prod_add ht]; ring
    have n1 : s + 1 ≠ 0 := by
      intro h0
      have := congrArg Complex.re h0
      simp at this; linarith
    have n2 := hne s s3
    beta_reduce
    rw [e3, e1, e2, ← hp, div_eq_iff n2]
    field_simp
    ring
  · beta_reduce
    rw [h8, h8', zero_add, zero_add, mul_one, ← mul_add, mul_div_cancel_left₀ _ hA]

end SecDec.Reg

namespace SecDec.Subtraction
open Expr Set Decomp MeasureTheory

variable {N R : Nat} {F : Type} [Field F] [DecidableEq F] {φ : F →+* ℂ} {ε : Fin R → ℂ}

/-- One step of the integration by parts. -/
theorem step_regulated {P Q T : PolyProd (N + R) F} (hW : WellFormed φ P) (hc : ∀ m ∈ P.monos, CM m)
    {U : Set (Fin (N + R) → ℂ)} (hU : OnP φ ε P U) {j : Fin N} (hA1 : pw φ ε P.monos j + 1 ≠ 0)
    (hQ : IsBdry φ ε P U j Q) (hT : IsInt φ ε P U j T) {a b : ℂ} (ha : Regulated (value φ ε Q) a) (hb : Regulated (value φ ε T) b) :
    Regulated (value φ ε P) (a + b) := by
  have hI := hT.incr hW hc
  set A := pw φ ε P.monos with hAdef
  have hpb : ∀ S : PolyProd (N + R) F, S.regBase = P.regBase.mul ((fullExponent (Fin.castAdd R j) P.monos).addScalar 1) →
      pev φ (rpt N ε) S.regBase = pev φ (rpt N ε) P.regBase * (A j + 1) := by
    intro S hS
    rw [hS, pev_mul _ hW.base.nonneg (den_one hW.wm j).1.nonneg, (den_one hW.wm j).2]
  have cQ : cst φ ε Q = cst φ ε P * (A j + 1)⁻¹ := by
    rw [cst, cst, hpb Q hQ.base, hQ.monos, kappa_setOne hW.wm, mul_inv]; ring
  have cT : cst φ ε T = cst φ ε P * (A j + 1)⁻¹ := by
    rw [cst, cst, hpb T hT.base, hI.kappa ε, mul_inv]; ring
  have hcube : ∀ t ∈ Icc (0 : Fin N → ℝ) 1, point ε t ∈ U := hU.covers
  refine Reg.congr (fun t ht => ?_) (Reg.parts A (cst φ ε P) j hA1 (fun t => fI φ P (point ε t)) (fun t => pd (Fin.castAdd R j) (fI φ P) (point ε t))
    (An.continuousOn_cube hU.covers hU.analytic.continuousOn)
    (An.continuousOn_cube hU.covers (pd_analytic hU.analytic _).continuousOn)
    (fun t ht => by
      have h1 := hasDerivAt_pd' (hU.analytic _ (hcube t ht)) (Fin.castAdd R j)
      rw [point_castAdd] at h1
      have h2 := h1.comp_ofReal
      refine h2.congr_of_eventuallyEq (Filter.Eventually.of_forall fun s => ?_)
      simp only [point_update]) (Reg.congr (fun t ht => ?_) ha) (Reg.congr (fun t ht => ?_) hb))
  · rw [value_eq hW (oc_pos ht)]; ring
  · rw [value_eq (hQ.wf hW) (oc_pos ht), cQ]
    have hx : Function.update (point ε t) (Fin.castAdd R j) 1 ∈ U := by
      have := hcube _ (update_mem_cube (oc_sub ht) j (s := 1) ⟨zero_le_one, le_refl _⟩)
      rw [point_update] at this; simpa using this
    rw [hQ.fn _ hx, point_update]
    have : ∀ i, pw φ ε Q.monos i = if i = j then 0 else A i := by
      intro i; rw [hQ.monos, pw_setOne hW.wm]
    simp only [this]
    push_cast
    ring
  · rw [value_eq (hT.wf hW hc) (oc_pos ht), cT, hT.fn _ (hcube t (oc_sub ht))]
    have hpow : ∏ i, (t i : ℂ) ^ (pw φ ε T.monos i) = (∏ i, (t i : ℂ) ^ (A i)) * t j := by
      have : ∀ i, (t i : ℂ) ^ (pw φ ε T.monos i) = (t i : ℂ) ^ (A i) * (if i = j then (t i : ℂ) else 1) := by
        intro i
        rw [hI.pw ε i]
        split
        · rw [Complex.cpow_add _ _ (by exact_mod_cast (oc_pos ht i).ne'), Complex.cpow_one]
        · rw [add_zero, mul_one]
      simp only [this, Finset.prod_mul_distrib]
      congr 1
      simp
    rw [hpow]
    ring

/-- The conditions on a term for the integration by parts: no pole at this value of the regulators. -/
structure NoPoleP (φ : F →+* ℂ) (ε : Fin R → ℂ) (js : List (Fin N)) (P : PolyProd (N + R) F) : Prop where
  wf : WellFormed φ P
  cm : ∀ m ∈ P.monos, CM m
  sm : ∃ U, OnP φ ε P U
  den : ∀ j ∈ js, ∀ p : ℕ, pw φ ε P.monos j + p + 1 ≠ 0

theorem ibpSingle_regulated {js : List (Fin N)} {fuel : ℕ} {val : F → Option ℚ} {goal : ℚ} {j : Fin N} (hj : j ∈ js) (steps : ℕ) :
    ∀ (P : PolyProd (N + R) F) (outs : List (PolyProd (N + R) F)), NoPoleP φ ε js P →
      ibpSingle fuel val goal (Fin.castAdd R j) steps P = .ok outs →
      (∀ Q ∈ outs, NoPoleP φ ε js Q) ∧ ∀ v, RegSum φ ε outs v → Regulated (value φ ε P) v := by
  induction steps with
  | zero => intro P outs _ h; simp [ibpSingle] at h
  | succ steps ih =>
    intro P outs hP h
    obtain ⟨U, hU⟩ := hP.sm
    obtain ⟨q, _, _, ⟨_, rfl⟩ | ⟨_, Q, T, rest, rfl, hQ, hT, hr⟩⟩ := ibpSingle_succ hU h
    · exact ⟨by simpa using hP, fun v hv => hv.single⟩
    · have hI := hT.incr hP.wf hP.cm
      have hTc : NoPoleP φ ε js T := by
        refine ⟨hT.wf hP.wf hP.cm, hI.cm, ⟨U, hT.on⟩, fun i hi p => ?_⟩
        rw [hI.pw ε i]
        split
        · have := hP.den i hi (p + 1)
          push_cast at this
          intro h0
          exact this (by linear_combination h0)
        · rw [add_zero]; exact hP.den i hi p
      have hQc : NoPoleP φ ε js Q := by
        refine ⟨hQ.wf hP.wf, hQ.cm hP.wf hP.cm, ⟨_, hQ.on⟩, fun i hi p => ?_⟩
        rw [hQ.monos, pw_setOne hP.wf.wm]
        split
        · rw [zero_add]; exact_mod_cast Nat.succ_ne_zero p
        · exact hP.den i hi p
      obtain ⟨r1, r2⟩ := ih T rest hTc hr
      refine ⟨?_, ?_⟩
      · intro S hS
        rcases List.mem_cons.1 hS with rfl | hS
        · exact hQc
        · exact r1 S hS
      · rintro v ⟨a, b, h1, h2, rfl⟩
        exact step_regulated hP.wf hP.cm hU (by simpa using hP.den j hj 0) hQ hT h1 (r2 b h2)

theorem ibpLoopIdx_regulated {js : List (Fin N)} {fuel : ℕ} {val : F → Option ℚ} (gs : List (ℚ × Fin N)) :
    ∀ (l outs : List (PolyProd (N + R) F)), (∀ g ∈ gs, g.2 ∈ js) → (∀ P ∈ l, NoPoleP φ ε js P) →
      ibpLoopIdx fuel val (castGoals gs) l = .ok outs →
      (∀ Q ∈ outs, NoPoleP φ ε js Q) ∧ ∀ v, RegSum φ ε outs v → RegSum φ ε l v := by
  induction gs with
  | nil => intro l outs _ hl h; simp [castGoals, ibpLoopIdx] at h; subst h; exact ⟨hl, fun _ h => h⟩
  | cons g gs ih =>
    intro l outs hg hl h
    simp only [castGoals, List.map_cons, ibpLoopIdx] at h
    obtain ⟨l', hl', h⟩ := bind_ok h
    obtain ⟨a1, a2⟩ := extendAll_regulated (fun P outs hP ho => ibpSingle_regulated (hg g (by simp)) fuel P outs hP ho) l l' hl hl'
    obtain ⟨b1, b2⟩ := ih l' outs (fun g' hg' => hg g' (by simp [hg'])) a1 h
    exact ⟨b1, fun v hv => a2 v (b2 v hv)⟩

end SecDec.Subtraction
