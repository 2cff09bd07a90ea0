import Verif.Proof.SubParts
import Mathlib.Analysis.Calculus.ParametricIntegral
import Mathlib.Analysis.Complex.Liouville
/-
Analytic regularisation: integrals over the unit cube of powers times an analytic function, continued in the powers by
integration by parts.
-/
set_option linter.unusedSectionVars false
namespace SecDec.AnalyticReg
open Set Decomp MeasureTheory Filter Topology Metric

variable {N : ℕ}

/-- Integrals of dominated holomorphic functions are differentiable in the parameter. -/
theorem holo_param {α : Type} [MeasurableSpace α] {μ : Measure α} {f : ℂ → α → ℂ} {z₀ : ℂ} {r : ℝ} {B : α → ℝ}
    (hr : 0 < r) (hB : Integrable B μ)
    (hd : ∀ᵐ t ∂μ, DifferentiableOn ℂ (fun z => f z t) (ball z₀ r)) (hb : ∀ᵐ t ∂μ, ∀ z ∈ ball z₀ r, ‖f z t‖ ≤ B t)
    (hm : ∀ z ∈ ball z₀ r, AEStronglyMeasurable (f z) μ) : DifferentiableAt ℂ (fun z => ∫ t, f z t ∂μ) z₀ := by
  have h0 : z₀ ∈ ball z₀ r := mem_ball_self hr
  refine (hasDerivAt_integral_of_dominated_loc_of_deriv_le (s := ball z₀ (r / 2)) (bound := fun t => B t / (r / 4))
    (F' := fun z t => deriv (fun z => f z t) z) (ball_mem_nhds _ (half_pos hr)) ?_ ?_ ?_ ?_ (hB.div_const _) ?_).2.differentiableAt
  · filter_upwards [ball_mem_nhds z₀ hr] with z hz using hm z hz
  · exact hB.mono' (hm z₀ h0) (hb.mono fun t h => h z₀ h0)
  · have hu : Tendsto (fun n : ℕ => ((r / 2 / (n + 1) : ℝ) : ℂ)) atTop (𝓝[≠] 0) := by
      refine tendsto_nhdsWithin_iff.2 ⟨?_, Eventually.of_forall fun n => ?_⟩
      · have : Tendsto (fun n : ℕ => r / 2 / ((n : ℝ) + 1)) atTop (𝓝 0) :=
          tendsto_const_div_atTop_nhds_zero_nat (r / 2) |>.comp (tendsto_add_atTop_nat 1) |>.congr fun n => by simp
        exact_mod_cast (Complex.continuous_ofReal.tendsto 0).comp this
      · have : r / 2 / ((n : ℝ) + 1) ≠ 0 := by positivity
        exact Complex.ofReal_ne_zero.2 this
    refine aestronglyMeasurable_of_tendsto_ae atTop
      (f := fun (n : ℕ) t => ((r / 2 / (n + 1) : ℝ) : ℂ)⁻¹ • (f (z₀ + ((r / 2 / (n + 1) : ℝ) : ℂ)) t - f z₀ t)) ?_ ?_
    · intro n
      have hmm : z₀ + ((r / 2 / ((n : ℝ) + 1) : ℝ) : ℂ) ∈ ball z₀ r := ?_
      · exact AEStronglyMeasurable.const_smul ((hm _ hmm).sub (hm z₀ h0)) (((r / 2 / ((n : ℝ) + 1) : ℝ) : ℂ)⁻¹)
      have h1 : r / 2 / ((n : ℝ) + 1) ≤ r / 2 := div_le_self (half_pos hr).le (by linarith [(Nat.cast_nonneg n : (0:ℝ) ≤ n)])
      have h2 : 0 ≤ r / 2 / ((n : ℝ) + 1) := by positivity
      rw [mem_ball, dist_eq_norm, add_sub_cancel_left, Complex.norm_real, Real.norm_of_nonneg h2]
      linarith
    · filter_upwards [hd] with t ht
      have hda : HasDerivAt (fun z => f z t) (deriv (fun z => f z t) z₀) z₀ :=
        (ht.differentiableAt (ball_mem_nhds _ hr)).hasDerivAt
      exact (hasDerivAt_iff_tendsto_slope_zero.1 hda).comp hu
  · filter_upwards [hd, hb] with t h1 h2 z hz
    have hsub : closedBall z (r / 4) ⊆ ball z₀ r := by
      intro y hy
      rw [mem_closedBall] at hy
      rw [mem_ball] at hz ⊢
      linarith [dist_triangle y z z₀]
    refine Complex.norm_deriv_le_of_forall_mem_sphere_norm_le (by positivity) ?_ fun y hy => h2 y (hsub (sphere_subset_closedBall hy))
    refine DifferentiableOn.diffContOnCl ?_
    rw [closure_ball _ (by positivity : r / 4 ≠ 0)]
    exact h1.mono hsub
  · filter_upwards [hd] with t ht z hz
    exact (ht.differentiableAt (isOpen_ball.mem_nhds (ball_subset_ball (by linarith) hz))).hasDerivAt

/-- `G` is analytic on a neighbourhood of the unit cube times `Z`. -/
def Ana (Z : Set ℂ) (G : (Fin N → ℂ) → ℂ → ℂ) : Prop :=
  ∃ Ω : Set ((Fin N → ℂ) × ℂ), IsOpen Ω ∧ (∀ t ∈ Icc (0 : Fin N → ℝ) 1, ∀ z ∈ Z, ((fun i => (t i : ℂ)), z) ∈ Ω) ∧
    AnalyticOnNhd ℂ (fun p : (Fin N → ℂ) × ℂ => G p.1 p.2) Ω

/-- The integral with powers `β`. -/
noncomputable def II (β : Fin N → ℂ) (G : (Fin N → ℂ) → ℂ → ℂ) (z : ℂ) : ℂ :=
  ∫ t in oc N, (∏ i, (t i : ℂ) ^ (β i)) * G (fun i => (t i : ℂ)) z

/-- The derivative in the direction `j`. -/
noncomputable def dG (j : Fin N) (G : (Fin N → ℂ) → ℂ → ℂ) (x : Fin N → ℂ) (z : ℂ) : ℂ :=
  fderiv ℂ (fun p : (Fin N → ℂ) × ℂ => G p.1 p.2) (x, z) (Pi.single j 1, 0)

/-- The parameter `j` is one. -/
def oneG (j : Fin N) (G : (Fin N → ℂ) → ℂ → ℂ) (x : Fin N → ℂ) (z : ℂ) : ℂ := G (Function.update x j 1) z

variable {Z : Set ℂ} {G : (Fin N → ℂ) → ℂ → ℂ}

theorem Ana.dG (h : Ana Z G) (j : Fin N) : Ana Z (dG j G) := by
  obtain ⟨Ω, h1, h2, h3⟩ := h
  refine ⟨Ω, h1, h2, fun p hp => ?_⟩
  have := (h3.fderiv p hp)
  exact ((ContinuousLinearMap.apply ℂ ℂ ((Pi.single j 1, 0) : (Fin N → ℂ) × ℂ)).analyticAt _).comp this

theorem update_cast (t : Fin N → ℝ) (j : Fin N) (s : ℝ) :
    (fun i => ((Function.update t j s i : ℝ) : ℂ)) = Function.update (fun i => (t i : ℂ)) j (s : ℂ) := by
  funext i
  by_cases h : i = j
  · subst h; simp
  · simp [h]

theorem analytic_update (j : Fin N) (c : ℂ) (p : (Fin N → ℂ) × ℂ) :
    AnalyticAt ℂ (fun p : (Fin N → ℂ) × ℂ => ((Function.update p.1 j c, p.2) : (Fin N → ℂ) × ℂ)) p := by
  refine AnalyticAt.prod ?_ analyticAt_snd
  refine AnalyticAt.pi fun i => ?_
  by_cases h : i = j
  · subst h; simpa using analyticAt_const
  · simp only [Function.update_of_ne h]
    exact ((ContinuousLinearMap.proj (R := ℂ) (φ := fun _ : Fin N => ℂ) i).analyticAt _).comp analyticAt_fst

theorem Ana.oneG (h : Ana Z G) (j : Fin N) : Ana Z (oneG j G) := by
  obtain ⟨Ω, h1, h2, h3⟩ := h
  refine ⟨(fun p : (Fin N → ℂ) × ℂ => ((Function.update p.1 j 1, p.2) : (Fin N → ℂ) × ℂ)) ⁻¹' Ω, ?_, ?_, ?_⟩
  · exact h1.preimage ((continuous_fst.update j continuous_const).prodMk continuous_snd)
  · intro t ht z hz
    have := h2 (Function.update t j 1) (Subtraction.update_mem_cube ht j ⟨zero_le_one, le_rfl⟩) z hz
    rw [update_cast] at this
    simpa using this
  · intro p hp
    exact AnalyticAt.comp (g := fun p : (Fin N → ℂ) × ℂ => G p.1 p.2) (f := fun p : (Fin N → ℂ) × ℂ => ((Function.update p.1 j 1, p.2) : (Fin N → ℂ) × ℂ)) (h3 _ hp) (analytic_update j 1 p)

theorem Ana.continuousOn (h : Ana Z G) {z : ℂ} (hz : z ∈ Z) :
    ContinuousOn (fun t : Fin N → ℝ => G (fun i => (t i : ℂ)) z) (Icc 0 1) := by
  obtain ⟨Ω, h1, h2, h3⟩ := h
  refine h3.continuousOn.comp (f := fun t : Fin N → ℝ => (((fun i => (t i : ℂ)), z) : (Fin N → ℂ) × ℂ)) ?_ fun t ht => h2 t ht z hz
  exact (Continuous.prodMk (continuous_pi fun i => Complex.continuous_ofReal.comp (continuous_apply i)) continuous_const).continuousOn

theorem Ana.hasDerivAt (h : Ana Z G) {z : ℂ} (hz : z ∈ Z) (j : Fin N) {t : Fin N → ℝ} (ht : t ∈ Icc (0 : Fin N → ℝ) 1) :
    HasDerivAt (fun s : ℝ => G (fun i => ((Function.update t j s i : ℝ) : ℂ)) z) (AnalyticReg.dG j G (fun i => (t i : ℂ)) z) (t j) := by
  obtain ⟨Ω, h1, h2, h3⟩ := h
  have h4 := (h3 _ (h2 t ht z hz)).differentiableAt.hasFDerivAt
  have h5 : HasDerivAt (fun s : ℂ => ((Function.update (fun i => (t i : ℂ)) j s, z) : (Fin N → ℂ) × ℂ)) ((Pi.single j 1, 0) : (Fin N → ℂ) × ℂ) ((t j : ℝ) : ℂ) :=
    (hasDerivAt_update (fun i => (t i : ℂ)) j _).prodMk (hasDerivAt_const _ _)
  have h6 : (fun i => (t i : ℂ)) = Function.update (fun i => (t i : ℂ)) j ((t j : ℝ) : ℂ) := by simp
  rw [h6] at h4
  have h7 := (HasFDerivAt.comp_hasDerivAt (f := fun s : ℂ => ((Function.update (fun i => (t i : ℂ)) j s, z) : (Fin N → ℂ) × ℂ)) _ h4 h5).comp_ofReal
  simp only [update_cast]
  rw [← h6] at h7
  exact h7

theorem integrable (hG : Ana Z G) {β : Fin N → ℂ} (hβ : ∀ i, -1 < (β i).re) {z : ℂ} (hz : z ∈ Z) :
    IntegrableOn (fun t : Fin N → ℝ => (∏ i, (t i : ℂ) ^ (β i)) * G (fun i => (t i : ℂ)) z) (oc N) := by
  obtain ⟨C, hC⟩ := Subtraction.bdd_cube (hG.continuousOn hz)
  exact Subtraction.integrableOn_powers β (fun _ => 0) (by simpa using hβ) _ (hG.continuousOn hz) C hC

/-- One integration by parts. -/
theorem step (hG : Ana Z G) {β : Fin N → ℂ} (hβ : ∀ i, -1 < (β i).re) {z : ℂ} (hz : z ∈ Z) (j : Fin N) :
    (β j + 1) * II β G z = II (Function.update β j 0) (oneG j G) z - II (Function.update β j (β j + 1)) (dG j G) z := by
  have h := Subtraction.parts_cube β hβ j (fun t => G (fun i => (t i : ℂ)) z) (fun t => dG j G (fun i => (t i : ℂ)) z)
    (hG.continuousOn hz) ((hG.dG j).continuousOn hz) fun t ht => hG.hasDerivAt hz j ht
  have e1 : ∀ t ∈ oc N, (∏ i, (t i : ℂ) ^ (β i)) * ((β j + 1) * G (fun i => (t i : ℂ)) z + t j * dG j G (fun i => (t i : ℂ)) z)
      = (β j + 1) * ((∏ i, (t i : ℂ) ^ (β i)) * G (fun i => (t i : ℂ)) z) +
        (∏ i, (t i : ℂ) ^ (Function.update β j (β j + 1) i)) * dG j G (fun i => (t i : ℂ)) z := by
    intro t ht
    have h0 : (t j : ℂ) ≠ 0 := by exact_mod_cast ((mem_oc.1 ht j).1).ne'
    have : ∏ i, (t i : ℂ) ^ (Function.update β j (β j + 1) i) = (∏ i, (t i : ℂ) ^ (β i)) * t j := by
      rw [← Finset.mul_prod_erase _ _ (Finset.mem_univ j), ← Finset.mul_prod_erase _ (fun i => (t i : ℂ) ^ (β i)) (Finset.mem_univ j)]
      rw [Function.update_self, Complex.cpow_add _ _ h0, Complex.cpow_one]
      rw [Finset.prod_congr rfl fun i hi => by rw [Function.update_of_ne (Finset.ne_of_mem_erase hi)]]
      ring
    rw [this]; ring
  have hβ' : ∀ i, -1 < (Function.update β j (β j + 1) i).re := by
    intro i
    by_cases hij : i = j
    · subst hij; simp; linarith [hβ i]
    · simpa [hij] using hβ i
  have e2 : ∀ t : Fin N → ℝ, (∏ i, (t i : ℂ) ^ (if i = j then 0 else β i)) * G (fun i => ((Function.update t j 1 i : ℝ) : ℂ)) z
      = (∏ i, (t i : ℂ) ^ (Function.update β j 0 i)) * oneG j G (fun i => (t i : ℂ)) z := by
    intro t
    unfold oneG
    rw [update_cast, Complex.ofReal_one]
    congr 1
    refine Finset.prod_congr rfl fun i _ => ?_
    by_cases hij : i = j
    · subst hij; simp
    · simp [hij]
  rw [setIntegral_congr_fun measurableSet_oc e1, integral_add ((integrable hG hβ hz).const_mul _) (integrable (hG.dG j) hβ' hz),
    integral_const_mul] at h
  simp only [e2] at h
  unfold II
  rw [← h]; ring

/-- `M` is holomorphic along holomorphic curves, where the real parts of the powers are greater than `c`. -/
def Hol (c : Fin N → ℝ) (Z : Set ℂ) (M : (Fin N → ℂ) → ℂ → ℂ) : Prop :=
  ∀ V : Set ℂ, IsOpen V → ∀ (b : ℂ → Fin N → ℂ) (w : ℂ → ℂ), DifferentiableOn ℂ b V → DifferentiableOn ℂ w V →
    (∀ x ∈ V, w x ∈ Z ∧ ∀ i, c i < (b x i).re) → DifferentiableOn ℂ (fun x => M (b x) (w x)) V

theorem hol_base (hG : Ana Z G) : Hol (fun _ => -1) Z (fun β z => II β G z) := by
  intro V hV b w hb hw hd x₀ hx₀
  obtain ⟨Ω, h1, h2, h3⟩ := id hG
  refine DifferentiableAt.differentiableWithinAt ?_
  set c : Fin N → ℝ := fun i => (-1 + (b x₀ i).re) / 2 with hc
  have hc1 : ∀ i, -1 < c i := fun i => by have := (hd x₀ hx₀).2 i; simp only [hc]; linarith
  have hc2 : ∀ i, c i < (b x₀ i).re := fun i => by have := (hd x₀ hx₀).2 i; simp only [hc]; linarith
  have hnear : ∀ᶠ x in 𝓝 x₀, x ∈ V ∧ ∀ i, c i < (b x i).re := by
    refine Filter.Eventually.and (hV.mem_nhds hx₀) ?_
    rw [eventually_all]
    intro i
    have : ContinuousAt (fun x => (b x i).re) x₀ :=
      Complex.continuous_re.continuousAt.comp ((continuous_apply i).continuousAt.comp ((hb.continuousOn.continuousAt (hV.mem_nhds hx₀))))
    exact this.eventually_const_lt (hc2 i)
  obtain ⟨r, hr, hball⟩ := Metric.eventually_nhds_iff_ball.1 hnear
  have hr2 : 0 < r / 2 := half_pos hr
  have hcb : closedBall x₀ (r / 2) ⊆ ball x₀ r := closedBall_subset_ball (by linarith)
  -- a bound of `G`
  have hcont : ContinuousOn (fun p : (Fin N → ℝ) × ℂ => G (fun i => (p.1 i : ℂ)) (w p.2)) (Icc 0 1 ×ˢ closedBall x₀ (r / 2)) := by
    refine h3.continuousOn.comp (f := fun p : (Fin N → ℝ) × ℂ => (((fun i => (p.1 i : ℂ)), w p.2) : (Fin N → ℂ) × ℂ)) ?_ ?_
    · refine ContinuousOn.prodMk ?_ ?_
      · exact (continuous_pi fun i => Complex.continuous_ofReal.comp ((continuous_apply i).comp continuous_fst)).continuousOn
      · exact hw.continuousOn.comp continuous_snd.continuousOn fun p hp => (hball _ (hcb hp.2)).1
    · intro p hp
      exact h2 _ hp.1 _ (hd _ (hball _ (hcb hp.2)).1).1
  obtain ⟨C, hC⟩ := (isCompact_Icc.prod (isCompact_closedBall x₀ (r / 2))).exists_bound_of_continuousOn hcont
  refine holo_param (r := r / 2) (B := fun t : Fin N → ℝ => C * ∏ i, t i ^ c i) hr2
    ((Subtraction.integrable_prod_rpow c hc1).const_mul C) ?_ ?_ ?_
  · refine (ae_restrict_iff' measurableSet_oc).2 (Eventually.of_forall fun t ht => ?_)
    have hsub : ball x₀ (r / 2) ⊆ V := fun x hx => (hball x (hcb (ball_subset_closedBall hx))).1
    refine DifferentiableOn.mul ?_ ?_
    · refine DifferentiableOn.fun_finsetProd (u := Finset.univ) fun i _ => ?_
      refine DifferentiableOn.const_cpow ?_ (Or.inl (by exact_mod_cast ((mem_oc.1 ht i).1).ne'))
      exact (differentiableOn_pi.1 hb i).mono hsub
    · intro x hx
      have hx' := hsub hx
      refine DifferentiableAt.differentiableWithinAt ?_
      have hA := (h3 _ (h2 t (Subtraction.oc_sub ht) (w x) (hd x hx').1)).differentiableAt
      exact hA.comp x (f := fun x => (((fun i => (t i : ℂ)), w x) : (Fin N → ℂ) × ℂ))
        ((differentiableAt_const _).prodMk ((hw x hx').differentiableAt (hV.mem_nhds hx')))
  · refine (ae_restrict_iff' measurableSet_oc).2 (Eventually.of_forall fun t ht x hx => ?_)
    have hpos : ∀ i, 0 < t i := fun i => (mem_oc.1 ht i).1
    rw [norm_mul, norm_prod, mul_comm]
    have hC0 : 0 ≤ C := (norm_nonneg _).trans (hC (t, x) ⟨Subtraction.oc_sub ht, ball_subset_closedBall hx⟩)
    refine mul_le_mul (hC (t, x) ⟨Subtraction.oc_sub ht, ball_subset_closedBall hx⟩) ?_ (Finset.prod_nonneg fun i _ => norm_nonneg _) hC0
    refine Finset.prod_le_prod (fun i _ => norm_nonneg _) fun i _ => ?_
    rw [Complex.norm_cpow_eq_rpow_re_of_pos (hpos i)]
    exact Real.rpow_le_rpow_of_exponent_ge (hpos i) (mem_oc.1 ht i).2.le ((hball x (hcb (ball_subset_closedBall hx))).2 i).le
  · intro x hx
    have hx' := hball x (hcb (ball_subset_closedBall hx))
    exact (integrable hG (fun i => (hc1 i).trans (hx'.2 i)) (hd x hx'.1).1).aestronglyMeasurable

theorem Hol.comp {c c' : Fin N → ℝ} {M : (Fin N → ℂ) → ℂ → ℂ} (h : Hol c Z M) (L : (Fin N → ℂ) → Fin N → ℂ) (hL : Differentiable ℂ L)
    (hc : ∀ β, (∀ i, c' i < (β i).re) → ∀ i, c i < (L β i).re) : Hol c' Z (fun β z => M (L β) z) := by
  intro V hV b w hb hw hd
  exact h V hV (fun x => L (b x)) w (hL.comp_differentiableOn hb) hw fun x hx => ⟨(hd x hx).1, hc _ (hd x hx).2⟩

theorem Hol.sub {c : Fin N → ℝ} {M M' : (Fin N → ℂ) → ℂ → ℂ} (h : Hol c Z M) (h' : Hol c Z M') : Hol c Z (fun β z => M β z - M' β z) :=
  fun V hV b w hb hw hd => (h V hV b w hb hw hd).sub (h' V hV b w hb hw hd)

theorem Hol.mul {c : Fin N → ℝ} {M M' : (Fin N → ℂ) → ℂ → ℂ} (h : Hol c Z M) (h' : Hol c Z M') : Hol c Z (fun β z => M β z * M' β z) :=
  fun V hV b w hb hw hd => (h V hV b w hb hw hd).mul (h' V hV b w hb hw hd)

theorem hol_poly {c : Fin N → ℝ} (j : Fin N) (S : Finset ℕ) (d : ℕ → ℂ) : Hol c Z (fun β _ => ∏ k ∈ S, (β j + d k)) := by
  intro V _ b w hb _ _
  exact DifferentiableOn.fun_finsetProd fun k _ => (differentiableOn_pi.1 hb j).add_const _

/-- The factor of the poles of the parameter with power `b`. -/
noncomputable def den (m : ℕ) (b : ℂ) : ℂ := ∏ k ∈ Finset.range m, (b + k + 1)

theorem den_succ (m : ℕ) (b : ℂ) : den (m + 1) b = (b + 1) * den m (b + 1) := by
  unfold den
  rw [Finset.prod_range_succ', mul_comm]
  congr 1
  · simp
  · exact Finset.prod_congr rfl fun k _ => by push_cast; ring

/-- The powers of the parameters in `T` are zero. -/
def zeroOn (T : Finset (Fin N)) (β : Fin N → ℂ) : Fin N → ℂ := fun i => if i ∈ T then 0 else β i

theorem zeroOn_differentiable (T : Finset (Fin N)) : Differentiable ℂ (zeroOn T : (Fin N → ℂ) → Fin N → ℂ) := by
  refine differentiable_pi.2 fun i => ?_
  unfold zeroOn
  by_cases h : i ∈ T
  · simp only [h, if_true]; exact differentiable_const _
  · simp only [h, if_false]; exact differentiable_apply i

theorem update_differentiable (j : Fin N) (f : ℂ → ℂ) (hf : Differentiable ℂ f) :
    Differentiable ℂ (fun β : Fin N → ℂ => Function.update β j (f (β j))) := by
  refine differentiable_pi.2 fun i => ?_
  by_cases h : i = j
  · subst h; simp only [Function.update_self]; exact hf.comp (differentiable_apply i)
  · simp only [Function.update_of_ne h]; exact differentiable_apply i

/-- The continuation in the powers of the parameters in `S`, by `m` integrations by parts. -/
theorem continuation (m : ℕ) : ∀ (S : List (Fin N)), S.Nodup → ∀ (G : (Fin N → ℂ) → ℂ → ℂ), Ana Z G → ∀ T : Finset (Fin N),
    (∀ j ∈ S, j ∉ T) → ∃ M, Hol (fun i => if i ∈ S then -1 - m else -1) Z M ∧
      ∀ β z, z ∈ Z → (∀ i, -1 < (β i).re) → M β z = (S.map fun i => den m (β i)).prod * II (zeroOn T β) G z := by
  intro S
  induction S with
  | nil =>
    intro _ G hG T _
    refine ⟨fun β z => II (zeroOn T β) G z, ?_, by simp⟩
    refine (hol_base hG).comp (zeroOn T) (zeroOn_differentiable T) fun β hβ i => ?_
    unfold zeroOn
    by_cases h : i ∈ T
    · simp [h]
    · simpa [h] using hβ i
  | cons j S ih =>
    intro hnd
    have hjS : j ∉ S := (List.nodup_cons.1 hnd).1
    have key : ∀ (k : ℕ) (G : (Fin N → ℂ) → ℂ → ℂ), Ana Z G → ∀ T : Finset (Fin N), (∀ i ∈ j :: S, i ∉ T) →
        ∃ M, Hol (fun i => if i = j then -1 - k else if i ∈ S then -1 - m else -1) Z M ∧
          ∀ β z, z ∈ Z → (∀ i, -1 < (β i).re) → M β z = den k (β j) * (S.map fun i => den m (β i)).prod * II (zeroOn T β) G z := by
      intro k
      induction k with
      | zero =>
        intro G hG T hT
        obtain ⟨M, h1, h2⟩ := ih (List.nodup_cons.1 hnd).2 G hG T fun i hi => hT i (by simp [hi])
        refine ⟨M, h1.comp id differentiable_id fun β hβ i => ?_, fun β z hz hβ => by rw [h2 β z hz hβ]; simp [den]⟩
        have := hβ i
        by_cases hij : i = j
        · subst hij; simpa [hjS] using this
        · simpa [hij] using this
      | succ k ihk =>
        intro G hG T hT
        have hjT : j ∉ T := hT j (by simp)
        obtain ⟨M1, h1, h1'⟩ := ih (List.nodup_cons.1 hnd).2 (oneG j G) (hG.oneG j) (insert j T) fun i hi => by
          rw [Finset.mem_insert, not_or]
          exact ⟨fun h => hjS (h ▸ hi), hT i (by simp [hi])⟩
        obtain ⟨M2, h2, h2'⟩ := ihk (dG j G) (hG.dG j) T hT
        refine ⟨fun β z => den k (β j + 1) * M1 (Function.update β j 0) z - M2 (Function.update β j (β j + 1)) z, ?_, ?_⟩
        · refine Hol.sub (Hol.mul ?_ ?_) ?_
          · have := hol_poly (c := fun i => if i = j then -1 - ((k + 1 : ℕ) : ℝ) else if i ∈ S then -1 - m else -1) (Z := Z) j (Finset.range k) (fun k => (1 + k + 1 : ℂ))
            refine fun V hV b w hb hw hd => (this V hV b w hb hw hd).congr fun x hx => ?_
            unfold den
            exact Finset.prod_congr rfl fun k _ => by ring
          · refine h1.comp (fun β => Function.update β j ((fun _ => 0) (β j))) (update_differentiable j _ (differentiable_const _)) fun β hβ i => ?_
            by_cases hij : i = j
            · subst hij; simp [hjS]
            · simpa [hij] using hβ i
          · refine h2.comp (fun β => Function.update β j ((fun b => b + 1) (β j))) (update_differentiable j _ (differentiable_id.add_const _)) fun β hβ i => ?_
            by_cases hij : i = j
            · have := hβ i
              subst hij
              simp at this ⊢
              linarith
            · simpa [hij] using hβ i
        · intro β z hz hβ
          have hz0 : ∀ i, -1 < (zeroOn T β i).re := by
            intro i; unfold zeroOn
            by_cases h : i ∈ T
            · simp [h]
            · simpa [h] using hβ i
          have hs := step hG hz0 hz j
          have hzj : zeroOn T β j = β j := by simp [zeroOn, hjT]
          have e1 : zeroOn (insert j T) (Function.update β j 0) = Function.update (zeroOn T β) j 0 := by
            funext i
            by_cases hij : i = j
            · subst hij; simp [zeroOn]
            · simp [zeroOn, hij]
          have e2 : zeroOn T (Function.update β j (β j + 1)) = Function.update (zeroOn T β) j (β j + 1) := by
            funext i
            by_cases hij : i = j
            · subst hij; simp [zeroOn, hjT]
            · simp [zeroOn, hij]
          have e3 : ∀ c, (S.map fun i => den m (Function.update β j c i)) = S.map fun i => den m (β i) := by
            intro c
            refine List.map_congr_left fun i hi => ?_
            rw [Function.update_of_ne]
            exact fun h => hjS (h ▸ hi)
          have b1 : ∀ i, -1 < (Function.update β j 0 i).re := by
            intro i
            by_cases hij : i = j
            · subst hij; simp
            · simpa [hij] using hβ i
          have b2 : ∀ i, -1 < (Function.update β j (β j + 1) i).re := by
            intro i
            by_cases hij : i = j
            · subst hij; simp; linarith [hβ i]
            · simpa [hij] using hβ i
          beta_reduce
          rw [h1' _ z hz b1, h2' _ z hz b2, e1, e2, e3, e3, Function.update_self, den_succ]
          rw [hzj] at hs
          linear_combination (-(den k (β j + 1) * (S.map fun i => den m (β i)).prod)) * hs
    intro G hG T hT
    obtain ⟨M, h1, h2⟩ := key m G hG T hT
    refine ⟨M, h1.comp id differentiable_id fun β hβ i => ?_, fun β z hz hβ => by rw [h2 β z hz hβ]; simp⟩
    have := hβ i
    by_cases hij : i = j
    · subst hij; simpa using this
    · simpa [hij] using this

end SecDec.AnalyticReg
