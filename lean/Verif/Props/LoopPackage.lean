import Verif.Proof.LoopPackage
/-
C58: the coefficients computed by a loop package are the Laurent coefficients of the loop integral in momentum space, up to the known prefactor.
-/
namespace SecDec
namespace LoopPackage
open LoopCommon FromProps LoopMeasure Numer MeasureTheory Set Package LeadingOrder Decomp Squash Expansion Filter Topology
variable {n D e d : ℕ} {R : Type} [CommRing R] [DecidableEq R] [Invertible (2 : R)] [Algebra ℝ R]

theorem loopIntegrand_one (m : Momentum (n+1) D e ℝ) (p : Fin e → Fin d → ℝ) (ν : Fin (n+1) → ℝ) (τ : ℕ → Fin d) (k : Fin d → Fin (D+1) → ℝ) :
    loopIntegrand m p ν (one D e) τ k = ∏ i, (propagator m p i k : ℂ) ^ (-(ν i : ℂ)) := by
  unfold loopIntegrand one
  have h1 : ([(⟨[], [], 1⟩ : Term (D + 1) e ℕ)].map fun t => t.value eMetric (fun l μ => ((p l μ : ℝ) : ℂ)) (fun a μ => ((k μ a : ℝ) : ℂ)) τ).sum = 1 := by
    simp [Term.value, einstein, Term.idx, repeated, contract]
  rw [h1, one_mul]

/-- The loop integral for one value of the regulator (C51 for the integrand handed to `make_package`). -/
theorem at_regulator (num : R → Option Int) (rules : R →ₗ[ℝ] ℝ) (sym : Fin e → R) (p : Fin e → Fin (d + 1) → ℝ)
    (m : Momentum (n+1) D e ℝ) (input : Props (n+1) D R) (hden : Denotes input m sym rules (edotForm (d + 1)) p) (hint : IntegerForm num input)
    (hM : ∀ x, (∀ i, 0 < x i) → (m.form x).PosDef) (hneg : ∀ᵐ k : Fin (d + 1) → Fin (D+1) → ℝ, ∀ i, propagator m p i k < 0)
    (powers : Fin (n + 1) → Power ℚ) (hE : Euclidean (polynomials num rules input ⟨(d + 1 : ℕ), 0⟩ powers)) {t : ℝ} (hc : Converges m p powers t) :
    Projective (integrandAt (polynomials num rules input ⟨(d + 1 : ℕ), 0⟩ powers) (t : ℂ)) ∧
      DeltaIntegrable (integrandAt (polynomials num rules input ⟨(d + 1 : ℕ), 0⟩ powers) (t : ℂ)) ∧
      prefactorAt D ⟨(d + 1 : ℕ), 0⟩ powers t ≠ 0 ∧
      loopIntegral m p powers t = (Real.pi : ℂ) ^ (((d + 1 : ℕ) : ℂ) * (D + 1) / 2) * prefactorAt D ⟨(d + 1 : ℕ), 0⟩ powers t *
        deltaIntegral (integrandAt (polynomials num rules input ⟨(d + 1 : ℕ), 0⟩ powers) (t : ℂ)) := by
  obtain ⟨hν, hN, hI⟩ := hc
  have hF : ∀ x, (∀ i, 0 < x i) → 0 < (preliminaryF num rules input).eval x := by
    intro x hx
    have h := hE ⟨(preliminaryF num rules input).terms, some (affinePoly (exponentF D ⟨(d + 1 : ℕ), 0⟩ powers))⟩ (by simp [polynomials])
    exact eval_pos h.1 (fun t ht => (h.2.1 t ht).1) hx
  have hI' : Integrable (loopIntegrand m p (powersAt powers t) (one D e) (fun _ : ℕ => (0 : Fin (d + 1)))) := by
    refine hI.congr (Eventually.of_forall fun k => ?_)
    exact (loopIntegrand_one m p _ _ k).symm
  obtain ⟨out, h1, h2, h3, h4⟩ := C51_loop_integral num rules sym p m input hden hint hM hF hneg (powersAt powers t) hν (fun _ : ℕ => (0 : Fin (d + 1))) [] true (one D e)
    (by simp [one, Term.Adm, Term.idx]) (fun _ => rfl) 0 rfl (by simpa using hN) hI'
  have hout : ∀ x, (∀ i, 0 < x i) → out x = [⟨1, [], []⟩] := by
    intro x hx
    have h := h1 x hx
    have h' : numerator (dataAt num rules input m (d + 1) (powersAt powers t) x) [] true (one D e) = some [⟨1, [], []⟩] := rfl
    rw [h'] at h
    exact (Option.some.inj h).symm
  have heq : ∀ x, (∀ i, 0 < x i) → integrandAt (polynomials num rules input ⟨(d + 1 : ℕ), 0⟩ powers) (t : ℂ) x =
      feynmanIntegrand (dataAt num rules input m (d + 1) (powersAt powers t)) p (powersAt powers t) 0 (fun _ => 0) out x :=
    fun x hx => integrand_eq num rules input m p powers t hν _ out hx (hout x hx)
  have hon : EqOn (fun w : Fin n → ℝ => integrandAt (polynomials num rules input ⟨(d + 1 : ℕ), 0⟩ powers) (t : ℂ) (Fin.snoc w (1 - ∑ k, w k)))
      (fun w => feynmanIntegrand (dataAt num rules input m (d + 1) (powersAt powers t)) p (powersAt powers t) 0 (fun _ => 0) out (Fin.snoc w (1 - ∑ k, w k))) (Simplex n) :=
    fun w hw => heq _ fun i => simplex_pos hw i
  have hpre : prefactorAt D ⟨(d + 1 : ℕ), 0⟩ powers t = gammaFactor ((∑ i, powersAt powers t i : ℝ) - ((d + 1 : ℕ) : ℂ) * (D + 1) / 2 - (0 / 2 : ℕ)) (∑ i, (powersAt powers t i : ℂ))
      (fun i => (powersAt powers t i : ℂ)) 0 := by
    unfold prefactorAt
    rw [nnu_real]
    have : (fun i => valueAt (powers i) (t : ℂ)) = fun i => ((powersAt powers t i : ℝ) : ℂ) := funext fun i => valueAt_real _ _
    rw [this]
    congr 1
    · simp [valueAt]
    · push_cast; rfl
  refine ⟨?_, (integrableOn_congr_fun hon simplex_measurable).2 h3, ?_, ?_⟩
  · intro c x hc hx
    rw [heq _ fun i => mul_pos hc (hx i), heq x hx]
    exact h2 c x hc hx
  · rw [hpre, gammaFactor_eq _ _ _ fun i => by exact_mod_cast (hν i).ne']
    refine mul_ne_zero (mul_ne_zero ?_ ?_) (Complex.exp_ne_zero _)
    · have : ((∑ i, powersAt powers t i : ℝ) : ℂ) - ((d + 1 : ℕ) : ℂ) * (D + 1) / 2 - (0 / 2 : ℕ) = (((∑ i, powersAt powers t i) - ((d + 1 : ℕ) : ℝ) * (D + 1) / 2 : ℝ) : ℂ) := by
        push_cast; simp
      rw [this]
      refine Complex.Gamma_ne_zero_of_re_pos ?_
      rw [Complex.ofReal_re]
      linarith
    · refine inv_ne_zero (Finset.prod_ne_zero_iff.2 fun i _ => Complex.Gamma_ne_zero_of_re_pos ?_)
      rw [Complex.ofReal_re]
      exact hν i
  · have e1 : loopIntegral m p powers t = ∫ k, loopIntegrand m p (powersAt powers t) (one D e) (fun _ : ℕ => (0 : Fin (d + 1))) k := by
      unfold loopIntegral
      exact integral_congr_ae (Eventually.of_forall fun k => (loopIntegrand_one m p _ _ k).symm)
    rw [e1, h4, hpre]
    congr 1
    exact setIntegral_congr_fun simplex_measurable fun w hw => (hon hw).symm

/-- Two functions which are analytic up to countably many points and agree on an interval of the real axis agree. -/
theorem eq_of_interval {a b : ℝ} (hab : a < b) {E : Set ℂ} (hE : E.Countable) (hEc : IsClosed E) {f g : ℂ → ℂ}
    (hf : DifferentiableOn ℂ f Eᶜ) (hg : DifferentiableOn ℂ g Eᶜ) (h : ∀ t ∈ Ioo a b, f (t : ℂ) = g (t : ℂ)) : EqOn f g Eᶜ := by
  have hop : IsOpen Eᶜ := hEc.isOpen_compl
  have hcon : IsPreconnected Eᶜ := (hE.isPathConnected_compl_of_one_lt_rank (by simp)).isConnected.isPreconnected
  have hE' : ((fun t : ℝ => (t : ℂ)) ⁻¹' E).Countable := hE.preimage Complex.ofReal_injective
  obtain ⟨t0, ht0, ht0'⟩ : (Ioo a b ∩ ((fun t : ℝ => (t : ℂ)) ⁻¹' E)ᶜ).Nonempty := (hE'.dense_compl ℝ).inter_open_nonempty _ isOpen_Ioo (nonempty_Ioo.2 hab)
  refine (hf.analyticOnNhd hop).eqOn_of_preconnected_of_frequently_eq (hg.analyticOnNhd hop) hcon (z₀ := (t0 : ℂ)) ht0' ?_
  have h1 : ∀ᶠ t : ℝ in 𝓝[≠] t0, f (t : ℂ) = g (t : ℂ) := by
    filter_upwards [nhdsWithin_le_nhds (isOpen_Ioo.mem_nhds ht0)] with t ht
    exact h t ht
  have h2 : Tendsto (fun t : ℝ => (t : ℂ)) (𝓝[≠] t0) (𝓝[≠] (t0 : ℂ)) := by
    refine tendsto_nhdsWithin_of_tendsto_nhds_of_eventually_within _ (Complex.continuous_ofReal.continuousAt.tendsto.mono_left nhdsWithin_le_nhds) ?_
    filter_upwards [self_mem_nhdsWithin] with t ht
    simpa using ht
  exact h2.frequently h1.frequently

variable {num : R → Option Int} {rules : R →ₗ[ℝ] ℝ} {sym : Fin e → R} {p : Fin e → Fin (d + 1) → ℝ} {m : Momentum (n+1) D e ℝ} {input : Props (n+1) D R}

/-- The strip over the interval. -/
theorem strip (hden : Denotes input m sym rules (edotForm (d + 1)) p) (hint : IntegerForm num input)
    (hM : ∀ x, (∀ i, 0 < x i) → (m.form x).PosDef) (hneg : ∀ᵐ k : Fin (d + 1) → Fin (D+1) → ℝ, ∀ i, propagator m p i k < 0)
    (powers : Fin (n + 1) → Power ℚ) (hE : Euclidean (polynomials num rules input ⟨(d + 1 : ℕ), 0⟩ powers)) {a b : ℝ} (hab : a < b)
    (hc : ∀ t ∈ Ioo a b, Converges m p powers t) :
    IsOpen {z : ℂ | z.re ∈ Ioo a b} ∧ {z : ℂ | z.re ∈ Ioo a b}.Nonempty ∧
      (∀ z, Projective (integrandAt (polynomials num rules input ⟨(d + 1 : ℕ), 0⟩ powers) z)) ∧
      ∀ z ∈ {z : ℂ | z.re ∈ Ioo a b}, DeltaIntegrable (integrandAt (polynomials num rules input ⟨(d + 1 : ℕ), 0⟩ powers) z) := by
  obtain ⟨t1, h1⟩ := nonempty_Ioo.2 hab
  obtain ⟨t2, h2⟩ := nonempty_Ioo.2 h1.2
  have hat := fun t (ht : t ∈ Ioo a b) => at_regulator num rules sym p m input hden hint hM hneg powers hE (hc t ht)
  refine ⟨isOpen_Ioo.preimage Complex.continuous_re, ⟨(t1 : ℂ), h1⟩, fun z => ?_, fun z hz => ?_⟩
  · exact projective_all hE h2.1.ne (hat t1 h1).1 (hat t2 ⟨h1.1.trans h2.1, h2.2⟩).1 z
  · exact deltaIntegrable_re hE z (hat z.re hz).2.1

/-- C58: the whole chain from the propagators to the numbers, for Euclidean kinematics.  If the loop integral converges for all regulators in an interval and the
package is generated, then the loop integral has an analytic continuation to the neighbourhood of the value zero of the regulator (up to the known prefactor). -/
theorem C58_continuation_exists {o : Options} (hden : Denotes input m sym rules (edotForm (d + 1)) p) (hint : IntegerForm num input)
    (hM : ∀ x, (∀ i, 0 < x i) → (m.form x).PosDef) (hneg : ∀ᵐ k : Fin (d + 1) → Fin (D+1) → ℝ, ∀ i, propagator m p i k < 0)
    (powers : Fin (n + 1) → Power ℚ) (hE : Euclidean (polynomials num rules input ⟨(d + 1 : ℕ), 0⟩ powers))
    (hD : Decomposable o (polynomials num rules input ⟨(d + 1 : ℕ), 0⟩ powers)) {a b : ℝ} (hab : a < b)
    (hc : ∀ t ∈ Ioo a b, Converges m p powers t) {results : List (List (Sector.Summand (n + 1) ℝ) × ℤ)}
    (h : loopPackage o num rules input ⟨(d + 1 : ℕ), 0⟩ powers = some results) :
    ∃ J, Continues m p powers a b J := by
  obtain ⟨s1, s2, s3, s4⟩ := strip hden hint hM hneg powers hE hab hc
  unfold loopPackage at h
  split_ifs at h with hd
  unfold package at h
  rw [Option.bind_eq_bind, Option.bind_eq_some_iff] at h
  obtain ⟨ss, hss, h⟩ := h
  obtain ⟨J, hJ⟩ := C57_continuation_exists hE hD s1 s2 (fun z _ => s3 z) s4 hss
  refine ⟨J, hJ.analytic, fun t ht => ?_⟩
  rw [(at_regulator num rules sym p m input hden hint hM hneg powers hE (hc t ht)).2.2.2, hJ.eq t (by simpa using ht)]

/-- C58: and for every such continuation, the sums over the sectors of the integrals which the package integrates numerically are the coefficients of the Laurent
expansion, up to and including the required order. -/
theorem C58_loop_integral_laurent {o : Options} (hden : Denotes input m sym rules (edotForm (d + 1)) p) (hint : IntegerForm num input)
    (hM : ∀ x, (∀ i, 0 < x i) → (m.form x).PosDef) (hneg : ∀ᵐ k : Fin (d + 1) → Fin (D+1) → ℝ, ∀ i, propagator m p i k < 0)
    (powers : Fin (n + 1) → Power ℚ) (hE : Euclidean (polynomials num rules input ⟨(d + 1 : ℕ), 0⟩ powers))
    (hD : Decomposable o (polynomials num rules input ⟨(d + 1 : ℕ), 0⟩ powers)) {a b : ℝ} (hab : a < b)
    (hc : ∀ t ∈ Ioo a b, Converges m p powers t)
    (hval : ∀ c q, o.val c = some q → c = (q : ℝ)) (hv0 : o.val 0 = some 0)
    (hg : NoIntegerPowers (polynomials num rules input ⟨(d + 1 : ℕ), 0⟩ powers) ∨ GoalsReached o (polynomials num rules input ⟨(d + 1 : ℕ), 0⟩ powers))
    {results : List (List (Sector.Summand (n + 1) ℝ) × ℤ)} (h : loopPackage o num rules input ⟨(d + 1 : ℕ), 0⟩ powers = some results)
    {J : ℂ → ℂ} (hJ : Continues m p powers a b J) :
    (∀ r ∈ results, -r.2 ≤ o.order ∧ ∀ k, CubeIntegrable (Sector.orderIntegrand Complex.ofRealHom r.1 k)) ∧
      ∀ P : ℤ, (∀ r ∈ results, r.2 ≤ P) →
        IsExpansion J o.order ((Sector.sectorOrders o.order P).map fun k => (k, coefficient results o.order k)) := by
  obtain ⟨s1, s2, s3, s4⟩ := strip hden hint hM hneg powers hE hab hc
  unfold loopPackage at h
  split_ifs at h with hd
  have h' := h
  unfold package at h'
  rw [Option.bind_eq_bind, Option.bind_eq_some_iff] at h'
  obtain ⟨ss, hss, -⟩ := h'
  obtain ⟨J', hJ'⟩ := C57_continuation_exists hE hD s1 s2 (fun z _ => s3 z) s4 hss
  have hclean : CleanPowers (polynomials num rules input ⟨(d + 1 : ℕ), 0⟩ powers) := by
    have haff : ∀ q : Power ℚ, (∀ t ∈ (affinePoly q).terms, t.1 = (fun _ => 0) ∧ t.2 = 1) → (affinePoly q).terms.length = 1 := by
      intro q hq
      unfold affinePoly at hq ⊢
      split_ifs at hq ⊢
      · rfl
      · rfl
      · have := congrFun (hq _ (List.mem_cons_self)).1 0
        simp at this
    intro q hq
    have : ∃ w, q.exponent = some (affinePoly w) := by
      simp only [polynomials, List.cons_append, List.nil_append, List.mem_cons] at hq
      rcases hq with rfl | rfl | hq
      · exact ⟨_, rfl⟩
      · exact ⟨_, rfl⟩
      · obtain ⟨i, -, hi⟩ := List.mem_filterMap.1 hq
        split_ifs at hi
        cases hi
        exact ⟨_, rfl⟩
    obtain ⟨w, hw⟩ := this
    have : exponentOf q = affinePoly w := by simp [exponentOf, hw]
    rw [this]
    exact haff w
  obtain ⟨r1, r2⟩ := C57_laurent_coefficients hE hD hval hv0 (hg.imp_left fun h => ⟨h, hclean⟩) (fun z _ => s3 z) hJ' h
  refine ⟨r1, fun P hP => isExpansion_congr ?_ (r2 P hP)⟩
  obtain ⟨E, e1, e2, ⟨r, hr, e3⟩, e4⟩ := hJ.analytic
  obtain ⟨E', e1', e2', ⟨r', hr', e3'⟩, e4'⟩ := hJ'.analytic
  have heq : EqOn J' J (E ∪ E')ᶜ := by
    refine eq_of_interval hab (e1.union e1') (e2.union e2') (e4'.mono fun z hz hm => hz (Or.inr hm))
      (e4.mono fun z hz hm => hz (Or.inl hm)) fun t ht => ?_
    obtain ⟨-, -, q3, q4⟩ := at_regulator num rules sym p m input hden hint hM hneg powers hE (hc t ht)
    rw [hJ'.eq t (by simpa using ht)]
    have := hJ.eq t ht
    rw [q4] at this
    refine mul_left_cancel₀ (mul_ne_zero ?_ q3) this
    rw [Complex.cpow_def_of_ne_zero (by exact_mod_cast Real.pi_ne_zero)]
    exact Complex.exp_ne_zero _
  rw [EventuallyEq, eventually_nhdsWithin_iff]
  filter_upwards [Metric.ball_mem_nhds (0 : ℂ) hr, Metric.ball_mem_nhds (0 : ℂ) hr'] with z h1 h2 h0
  exact heq fun hm => hm.elim (e3 z (by simpa using h1) h0) (e3' z (by simpa using h2) h0)

/-! ### The hypotheses can be met

The propagators `k**2 - 1` and `(k+p)**2 - 1` in one dimension, with `p*p = -1` (as for C51), with the powers `1` and `eps`. -/

section

theorem exNum_one : exNum 1 = some 1 := by
  have h : ∃ z : Int, (1 : ℂ) = z := ⟨1, by simp⟩
  unfold exNum
  rw [dif_pos h]
  have := h.choose_spec
  congr 1
  exact_mod_cast this.symm

def row (i : Fin 2) : Expo 2 := fun k => if k = i then 1 else 0

theorem ex_M : matM exNum exInput 0 0 = ⟨[(row 0, 1), (row 1, 1)]⟩ := by
  have h : linear (fun _ : Fin 2 => (1 : ℂ)) = ⟨[(row 0, 1), (row 1, 1)]⟩ := by
    simp [linear, List.finRange_succ]
    exact ⟨rfl, rfl⟩
  have h2 : (fun i => if (0 : Fin 1) = 0 then exInput.quad i 0 0 else exInput.quad i (min 0 0) (max 0 0) * ⅟2) = fun _ : Fin 2 => (1 : ℂ) := by
    funext i; rfl
  unfold matM
  rw [h2, h]
  unfold asInt
  simp [exNum_one]

theorem ex_U : applyRules exRules (preliminaryU exNum exInput) = ⟨[(row 0, 1), (row 1, 1)]⟩ := by
  show applyRules exRules (matM exNum exInput 0 0) = _
  rw [ex_M]
  simp [applyRules, exRules]

theorem ex_Q : vecQ exInput 0 = ⟨[(row 1, -Complex.I)]⟩ := by
  have h2 : (fun i : Fin 2 => -(exInput.lin i 0 * ⅟2)) = ![0, -Complex.I] := by
    funext i
    fin_cases i
    · simp [exInput]
    · simp [exInput]
      ring
  unfold vecQ
  rw [h2]
  simp [linear, List.finRange_succ]
  rfl

theorem ex_J : polyJ exInput = ⟨[(row 0, -1), (row 1, -2)]⟩ := by
  unfold polyJ exInput
  simp [linear, List.finRange_succ]
  exact ⟨rfl, rfl⟩

def exF : Poly 2 ℝ := ⟨[(![0, 2], 1), (![1, 1], 3), (![2, 0], 1)]⟩

theorem ex_laurent : ((doubleSum exNum exInput).sub ((preliminaryU exNum exInput).mul (polyJ exInput))).toLaurent =
    (⟨[(![0, 2], 1), (![1, 1], 3), (![2, 0], 1)]⟩ : Poly 2 ℂ).toLaurent := by
  have h1 : doubleSum exNum exInput = (((vecQ exInput 0).mulScalar 1).mul (vecQ exInput 0)).addScalar 0 := rfl
  have h2 : preliminaryU exNum exInput = matM exNum exInput 0 0 := rfl
  rw [h1, h2, ex_M, ex_Q, ex_J]
  have a := fun (p q : Poly 2 ℂ) (c : ℂ) => Poly.C01_arith_formal p q c 1
  rw [(a _ _ 0).2.1, (a _ (⟨[]⟩) 0).2.2.2.2.1, (a _ _ 0).2.2.2.1, (a _ _ 0).2.2.2.1, (a _ (⟨[]⟩) 1).2.2.2.2.2.2.2.1]
  simp only [Poly.toLaurent, List.map_cons, List.map_nil, List.sum_cons, List.sum_nil, add_zero]
  have r00 : row 0 + row 0 = ![2, 0] := by decide
  have r01 : row 0 + row 1 = ![1, 1] := by decide
  have r10 : row 1 + row 0 = ![1, 1] := by decide
  have r11 : row 1 + row 1 = ![0, 2] := by decide
  simp only [mul_add, add_mul, AddMonoidAlgebra.single_mul_single, r00, r01, r10, r11, mul_one, one_mul, AddMonoidAlgebra.single_zero, add_zero]
  have hI : (-Complex.I) * (-Complex.I) = -1 := by simp
  have s3 : AddMonoidAlgebra.single (![1, 1] : Fin 2 → ℤ) (3 : ℂ) = AddMonoidAlgebra.single ![1, 1] 2 + AddMonoidAlgebra.single ![1, 1] 1 := by
    rw [← AddMonoidAlgebra.single_add]; norm_num
  have s2 : AddMonoidAlgebra.single (![0, 2] : Fin 2 → ℤ) (2 : ℂ) = AddMonoidAlgebra.single ![0, 2] 1 + AddMonoidAlgebra.single ![0, 2] 1 := by
    rw [← AddMonoidAlgebra.single_add]; norm_num
  rw [hI, s3]
  simp only [AddMonoidAlgebra.single_neg, s2]
  abel

theorem ex_F' : preliminaryF exNum exRules exInput = exF := by
  have h1 : ∀ (l : List (Expo 2 × ℂ)) (e : Expo 2), (⟨l.map fun t => (t.1, exRules t.2)⟩ : Poly 2 ℝ).coeffOf e = exRules ((⟨l⟩ : Poly 2 ℂ).coeffOf e) := by
    intro l e
    induction l with
    | nil => simp [Poly.coeffOf]
    | cons t l ih =>
      simp only [Poly.coeffOf, List.map_cons, List.filter_cons] at ih ⊢
      by_cases ht : t.1 = e
      · simp [ht, ih]
      · simp [ht, ih]
  have h2 : preliminaryF exNum exRules exInput = exF.simplify := by
    unfold preliminaryF
    rw [Poly.C02_simplify_canonical]
    intro e
    rw [h1, coeffOf_eq_laurent, ex_laurent, ← coeffOf_eq_laurent, ← h1]
    simp [exF, exRules]
  rw [h2]
  have hs : argsort2D (exF.expolist.map List.ofFn) = [0, 1, 2] := by
    unfold argsort2D
    rw [List.mergeSort_of_pairwise (by decide)]
    rfl
  have ht : takeIdx exF.expolist [0, 1, 2] = [![0, 2], ![1, 1], ![2, 0]] := rfl
  have hc : takeIdx exF.coeffs [0, 1, 2] = [1, 3, 1] := rfl
  have hm : Poly.mergeLoop [(![0, 2] : Expo 2), ![1, 1], ![2, 0]] [(1 : ℝ), 3, 1] = [1, 3, 1] := by
    simp [Poly.mergeLoop, Poly.mergeStep, List.range']
  unfold Poly.simplify
  dsimp only
  rw [hs, ht, hc, hm]
  simp [exF]

def exPowers : Fin 2 → Power ℚ := ![⟨1, 0⟩, ⟨0, 1⟩]

theorem ex_polynomials : polynomials exNum exRules exInput ⟨1, 0⟩ exPowers = [⟨[(row 0, 1), (row 1, 1)], some ⟨[((fun _ => 1), 1)]⟩⟩,
    ⟨[(![0, 2], 1), (![1, 1], 3), (![2, 0], 1)], some ⟨[((fun _ => 1), -1), ((fun _ => 0), -1 / 2)]⟩⟩,
    ⟨[(Pi.single 1 1, 1)], some ⟨[((fun _ => 1), 1), ((fun _ => 0), -1)]⟩⟩] := by
  have h1 : affinePoly (exponentU 0 ⟨1, 0⟩ exPowers) = ⟨[((fun _ => 1), 1)]⟩ := by
    simp [affinePoly, exponentU, nnu, exPowers]
    norm_num
  have h2 : affinePoly (exponentF 0 ⟨1, 0⟩ exPowers) = ⟨[((fun _ => 1), -1), ((fun _ => 0), -1 / 2)]⟩ := by
    simp [affinePoly, exponentF, nnu, exPowers]
    norm_num
  have h3 : measureFactors exPowers = [⟨[(Pi.single 1 1, 1)], some ⟨[((fun _ => 1), 1), ((fun _ => 0), -1)]⟩⟩] := by
    simp [measureFactors, List.finRange_succ, exPowers, affinePoly]
  unfold polynomials
  rw [ex_U, ex_F', h1, h2, h3]
  rfl

theorem ex_euclidean : Euclidean (polynomials exNum exRules exInput ⟨1, 0⟩ exPowers) := by
  rw [ex_polynomials]
  intro q hq
  simp only [List.mem_cons, List.not_mem_nil, or_false] at hq
  have hr : ∀ i j : Fin 2, 0 ≤ row i j := by decide
  have hs : ∀ j : Fin 2, 0 ≤ (Pi.single 1 1 : Expo 2) j := by decide
  have h02 : ∀ j : Fin 2, 0 ≤ (![0, 2] : Expo 2) j := by decide
  have h11 : ∀ j : Fin 2, 0 ≤ (![1, 1] : Expo 2) j := by decide
  have h20 : ∀ j : Fin 2, 0 ≤ (![2, 0] : Expo 2) j := by decide
  rcases hq with rfl | rfl | rfl
  · refine ⟨by simp, ?_, ?_⟩
    · intro t ht
      simp only [List.mem_cons, List.not_mem_nil, or_false] at ht
      rcases ht with rfl | rfl
      · exact ⟨one_pos, hr 0⟩
      · exact ⟨one_pos, hr 1⟩
    · simp [Affine, exponentOf]
  · refine ⟨by simp, ?_, ?_⟩
    · intro t ht
      simp only [List.mem_cons, List.not_mem_nil, or_false] at ht
      rcases ht with rfl | rfl | rfl
      · exact ⟨one_pos, h02⟩
      · exact ⟨by norm_num, h11⟩
      · exact ⟨one_pos, h20⟩
    · simp [Affine, exponentOf]
  · refine ⟨by simp, ?_, ?_⟩
    · intro t ht
      simp only [List.mem_cons, List.not_mem_nil, or_false] at ht
      rcases ht with rfl
      exact ⟨one_pos, hs⟩
    · simp [Affine, exponentOf]

theorem ex_noInteger : NoIntegerPowers (polynomials exNum exRules exInput ⟨1, 0⟩ exPowers) := by
  rw [ex_polynomials]
  intro q hq k h
  simp only [List.mem_cons, List.not_mem_nil, or_false] at hq
  have hk : (0 : ℝ) ≤ k := Nat.cast_nonneg k
  have h := congrArg Complex.re h
  rcases hq with rfl | rfl | rfl <;> simp [exponentOf, exponentAt, polyValue, Poly.mono] at h <;> norm_num at h <;> linarith

theorem ex_clean : CleanPowers (polynomials exNum exRules exInput ⟨1, 0⟩ exPowers) := by
  rw [ex_polynomials]
  intro q hq h
  simp only [List.mem_cons, List.not_mem_nil, or_false] at hq
  rcases hq with rfl | rfl | rfl
  · rfl
  · have := congrFun (h _ (List.mem_cons_self)).1 0
    simp at this
  · have := congrFun (h _ (List.mem_cons_self)).1 0
    simp at this

noncomputable def exInit : Squash.Sector 2 ℝ (Poly 1 ℚ) := (mkSector [⟨[(row 0, 1), (row 1, 1)], some ⟨[((fun _ => 1), 1)]⟩⟩,
    ⟨[(![0, 2], 1), (![1, 1], 3), (![2, 0], 1)], some ⟨[((fun _ => 1), -1), ((fun _ => 0), -1 / 2)]⟩⟩,
    ⟨[(Pi.single 1 1, 1)], some ⟨[((fun _ => 1), 1), ((fun _ => 0), -1)]⟩⟩] []).getD ⟨(fun _ => 0, 1), [], []⟩
/-- The two sectors. -/
noncomputable def exSectors : List (Squash.Sector 1 ℝ (Poly 1 ℚ)) := primaryDecomposition exInit (List.finRange 2)

theorem ex_sectors (order : ℤ) : sectors (exOptions order) (polynomials exNum exRules exInput ⟨1, 0⟩ exPowers) = some exSectors := by
  rw [ex_polynomials]
  rfl

theorem ex_power : ∀ s ∈ exSectors, ∀ i, powerAtZero s i < 0 → powerSlope s i ≠ 0 := by decide +kernel

theorem ex_converges {t : ℝ} (ht : t ∈ Ioo (0 : ℝ) 1) : Converges exMomentum exP exPowers t := by
  have p0 : powersAt exPowers t 0 = 1 := by simp [powersAt, exPowers]
  have p1 : powersAt exPowers t 1 = t := by simp [powersAt, exPowers]
  refine ⟨fun i => ?_, ?_, ?_⟩
  · fin_cases i
    · exact lt_of_lt_of_eq one_pos p0.symm
    · exact lt_of_lt_of_eq ht.1 p1.symm
  · rw [Fin.sum_univ_two, p0, p1]
    have := ht.1
    norm_num
    linarith
  · have h0 : Integrable (fun k : Fin 1 → Fin 1 → ℝ => (1 + (k 0 0) ^ 2)⁻¹) := by
      have h1 := (volume_preserving_funUnique (Fin 1) ℝ).integrable_comp_emb (MeasurableEquiv.measurableEmbedding _) |>.2 integrable_inv_one_add_sq
      have h2 := (volume_preserving_funUnique (Fin 1) (Fin 1 → ℝ)).integrable_comp_emb (MeasurableEquiv.measurableEmbedding _) |>.2 h1
      exact h2
    have hm : Measurable fun k => ∏ i, (propagator exMomentum exP i k : ℂ) ^ (-(powersAt exPowers t i : ℂ)) := by
      refine Finset.measurable_prod _ fun i _ => ?_
      exact (Complex.measurable_ofReal.comp (continuous_propagator _ _ i).measurable).pow_const _
    refine h0.mono' hm.aestronglyMeasurable (Filter.Eventually.of_forall fun k => ?_)
    rw [Fin.prod_univ_two, norm_mul]
    have h2 : ∀ i : Fin 2, ‖(propagator exMomentum exP i k : ℂ) ^ (-((powersAt exPowers t i : ℝ) : ℂ))‖ = |propagator exMomentum exP i k| ^ (-(powersAt exPowers t i)) := by
      intro i
      have hn := ex_neg i k
      have hne : (propagator exMomentum exP i k : ℂ) ≠ 0 := by exact_mod_cast (by linarith : propagator exMomentum exP i k ≠ 0)
      rw [Complex.norm_cpow_of_ne_zero hne]
      simp
    rw [h2, h2, p0, p1]
    have h3 : |propagator exMomentum exP 0 k| = 1 + k 0 0 ^ 2 := by
      rw [ex_propagator, if_pos rfl, abs_neg, abs_of_pos (by positivity)]; ring
    have h4 : 1 ≤ |propagator exMomentum exP 1 k| := by
      rw [abs_of_nonpos (by linarith [ex_neg 1 k])]; linarith [ex_neg 1 k]
    rw [h3, Real.rpow_neg_one]
    exact mul_le_of_le_one_right (by positivity) (Real.rpow_le_one_of_one_le_of_nonpos h4 (by linarith [ht.1]))

theorem ex_posDef (x : Fin 2 → ℝ) (hx : ∀ i, 0 < x i) : (exMomentum.form x).PosDef := by
  have h : exMomentum.form x = (x 0 + x 1) • (1 : Matrix (Fin 1) (Fin 1) ℝ) := by
    ext a b
    have : a = b := Subsingleton.elim (α := Fin 1) _ _
    rw [ex_form, this]; simp
  rw [h]
  exact Matrix.PosDef.one.smul (add_pos (hx 0) (hx 1))

/-- The package of the example is generated for every order, the loop integral has a continuation, and its Laurent coefficients are those of the package. -/
example (order : ℤ) : ∃ fuel results, loopPackage { exOptions order with fuel := fuel } exNum exRules exInput ⟨(0 + 1 : ℕ), 0⟩ exPowers = some results ∧
    (∃ J, Continues exMomentum exP exPowers 0 1 J) ∧
    ∀ J, Continues exMomentum exP exPowers 0 1 J → ∀ P : ℤ, (∀ r ∈ results, r.2 ≤ P) →
      IsExpansion J order ((Sector.sectorOrders order P).map fun k => (k, coefficient results order k)) := by
  have hone : (⟨((0 + 1 : ℕ) : ℚ), 0⟩ : Power ℚ) = ⟨1, 0⟩ := by simp
  obtain ⟨results, K, hK⟩ := C57_package_succeeds (o := exOptions order) ex_euclidean (iterative_decomposable rfl _) ex_clean (fun q => (ex_val order _ _).2 rfl)
    (fun c q => (ex_val order c q).1) rfl (ex_sectors order) ex_power
  have hpk : loopPackage { exOptions order with fuel := K } exNum exRules exInput ⟨(0 + 1 : ℕ), 0⟩ exPowers = some results := by
    unfold loopPackage
    rw [if_pos (by decide +kernel), hone]
    exact hK K le_rfl
  have hneg : ∀ᵐ k : Fin 1 → Fin 1 → ℝ, ∀ i, propagator exMomentum exP i k < 0 :=
    Filter.Eventually.of_forall fun k i => lt_of_le_of_lt (ex_neg i k) (by norm_num)
  refine ⟨K, results, hpk, ?_, fun J hJ P hP => ?_⟩
  · exact C58_continuation_exists (o := { exOptions order with fuel := K }) ex_denotes ⟨exNum_exact 0, fun _ _ _ _ => exNum_exact _⟩ ex_posDef hneg exPowers (hone ▸ ex_euclidean) (iterative_decomposable rfl _) zero_lt_one
      (fun t ht => ex_converges ht) hpk
  · exact (C58_loop_integral_laurent (o := { exOptions order with fuel := K }) ex_denotes ⟨exNum_exact 0, fun _ _ _ _ => exNum_exact _⟩ ex_posDef hneg exPowers (hone ▸ ex_euclidean) (iterative_decomposable rfl _) zero_lt_one
      (fun t ht => ex_converges ht) (fun c q => (ex_val order c q).1) ((ex_val order 0 0).2 (by simp)) (Or.inl (hone ▸ ex_noInteger)) hpk hJ).2 P hP

end

end LoopPackage
end SecDec
