import Verif.Proof.PackageSector
import Verif.Props.SectorReg
import Mathlib.MeasureTheory.Integral.Pi
import Mathlib.Analysis.SpecialFunctions.ImproperIntegrals
/-
Analytic facts about one sector: regulated values depend analytically on the regulator; convergence of the integral.
-/
namespace SecDec
namespace Package
open Squash Decomp Sector Expansion Set Subtraction Expr LeadingOrder AnalyticReg Filter Topology MeasureTheory
variable {n : ℕ} {Q : Poly 1 ℚ → Prop} {m : ℕ} {s : Squash.Sector n ℝ (Poly 1 ℚ)}

theorem init_smooth (h : Pos Q m s) (hs : StandardForm (List.finRange n) s) (hQ : ∀ e, Q e → Affine e) (z : ℂ) :
    Smooth φr (ez z) (initializer s) :=
  ⟨good s, good_open h, fun _ ht => point_good h hs z ht, init_adm h hQ (fun c => ⟨c, rfl⟩) fun e _ => flat_exponent e⟩

theorem init_smooth0 (h : Pos Q m s) (hs : StandardForm (List.finRange n) s) (hQ : ∀ e, Q e → Affine e)
    (hQ0 : ∀ e, Q e → ∀ k : ℕ, exponentAt e 0 ≠ (k : ℂ) + 1) (z : ℂ) : SmoothNonint0 φr (ez z) (initializer s) := by
  refine ⟨good s, good_open h, fun _ ht => point_good h hs z ht, init_adm h hQ (fun c => ⟨c, rfl⟩) fun e he => ⟨flat_exponent e, ⟨?_, ?_⟩, ?_⟩⟩
  · intro ts hts t ht i
    have : ts = (allSymbols (n := n) e).terms.map fun t => (t.1, .num t.2) := by
      have := hts
      simp only [ofPoly, Expr.poly.injEq] at this
      exact this.symm
    rw [this] at ht
    obtain ⟨u, hu, rfl⟩ := List.mem_map.1 ht
    exact (exponent_reg (hQ e he) u hu).1 i
  · intro k
    rw [ofPoly, eval_ofPoly, exponent_value]
    exact hQ0 e he k
  · intro i hi x w
    rw [ofPoly, eval_ofPoly, eval_ofPoly, exponent_value, exponent_value, Function.update_of_ne]
    exact fun h => hi ⟨0, h.symm⟩

theorem init_clean (h : Pos Q m s) (hQc : ∀ e, Q e → (∀ t ∈ e.terms, t.1 = (fun _ => 0) ∧ t.2 = 1) → e.terms.length = 1) :
    CleanExponents (initializer s) := by
  intro a ha h1
  rcases List.mem_cons.1 ha with rfl | ha
  · rfl
  · obtain ⟨p, hp, rfl⟩ := List.mem_map.1 ha
    have := hQc _ (h.exponent p hp) (by
      intro t ht
      obtain ⟨e1, e2⟩ := h1 (Fin.append (fun _ : Fin n => 0) t.1, (t.2 : ℝ)) (List.mem_map.2 ⟨t, ht, rfl⟩)
      have e2' : ((t.2 : ℚ) : ℝ) = 1 := e2
      refine ⟨?_, by exact_mod_cast e2'⟩
      funext i
      have := congrFun e1 (Fin.natAdd n i)
      simpa using this)
    simpa [allSymbols] using this

theorem G_ana (h : Pos Q m s) (hs : StandardForm (List.finRange n) s) (hQ : ∀ e, Q e → Affine e) : Ana univ (G s) := by
  have hc : Continuous fun q : (Fin n → ℂ) × ℂ => pt q.1 q.2 := continuous_iff_continuousAt.2 fun q => (pt_analytic q).continuousAt
  refine ⟨(fun q : (Fin n → ℂ) × ℂ => pt q.1 q.2) ⁻¹' good s, (good_open h).preimage hc, fun t ht z _ => ?_, fun q hq => ?_⟩
  · exact point_good h hs z ht
  · exact AnalyticAt.fun_comp (g := fI φr (initializer s)) (f := fun q : (Fin n → ℂ) × ℂ => pt q.1 q.2)
      (Subtraction.Adm.analytic (M := Mode.free φr) (Adm.prod _ (init_adm h hQ (fun c => ⟨c, rfl⟩) fun e _ => flat_exponent e)) _ hq) (pt_analytic q)

theorem G_ne (h : Pos Q m s) (hs : StandardForm (List.finRange n) s) (z : ℂ) {t : Fin n → ℝ} (ht : t ∈ Icc (0 : Fin n → ℝ) 1) :
    G s (fun i => (t i : ℂ)) z ≠ 0 := by
  rw [fI_init]
  refine mul_ne_zero (by exact_mod_cast h.jac.ne') ?_
  intro h0
  rw [List.prod_eq_zero_iff] at h0
  obtain ⟨p, hp, h0⟩ := List.mem_map.1 h0
  rw [Complex.cpow_eq_zero_iff] at h0
  have := eval_pos h hs hp fun i => ht.1 i
  exact this.ne' (by exact_mod_cast h0.1)

/-- If a product of powers is integrable on the cube, the powers are greater than minus one. -/
theorem powers_of_integrable (r : Fin n → ℝ) (h : IntegrableOn (fun t : Fin n → ℝ => ∏ i, t i ^ r i) (oc n)) (i : Fin n) : -1 < r i := by
  obtain ⟨k, rfl⟩ : ∃ k, n = k + 1 := ⟨n - 1, by have := i.2; omega⟩
  have hmp := (volume_preserving_piFinSuccAbove (fun _ : Fin (k + 1) => ℝ) i).symm
  have hpre : (MeasurableEquiv.piFinSuccAbove (fun _ : Fin (k + 1) => ℝ) i).symm ⁻¹' oc (k + 1) = Ioo (0 : ℝ) 1 ×ˢ oc k := by
    ext q
    simp only [mem_preimage, mem_oc, MeasurableEquiv.piFinSuccAbove_symm_apply, Set.mem_prod, mem_Ioo]
    rw [Fin.forall_iff_succAbove i]
    simp
  have h1 : IntegrableOn ((fun t : Fin (k + 1) → ℝ => ∏ i, t i ^ r i) ∘ (MeasurableEquiv.piFinSuccAbove (fun _ : Fin (k + 1) => ℝ) i).symm)
      (Ioo (0 : ℝ) 1 ×ˢ oc k) (volume.prod volume) := by
    rw [← hpre]
    exact (hmp.integrableOn_comp_preimage (MeasurableEquiv.measurableEmbedding _)).2 h
  rw [IntegrableOn, ← Measure.prod_restrict] at h1
  have h2 := h1.prod_left_ae
  have hoc : (volume : Measure (Fin k → ℝ)) (oc k) ≠ 0 := by
    have : oc k = Set.pi univ fun _ => Ioo (0 : ℝ) 1 := by ext x; simp [mem_oc, Set.mem_pi]
    rw [this, volume_pi_pi]
    simp
  have h3 : ∃ y ∈ oc k, Integrable (fun x => ((fun t : Fin (k + 1) → ℝ => ∏ i, t i ^ r i) ∘
      (MeasurableEquiv.piFinSuccAbove (fun _ : Fin (k + 1) => ℝ) i).symm) (x, y)) ((volume : Measure ℝ).restrict (Ioo 0 1)) := by
    by_contra hcon
    push Not at hcon
    have : ∀ᵐ y ∂(volume : Measure (Fin k → ℝ)).restrict (oc k), False := by
      filter_upwards [h2, ae_restrict_mem measurableSet_oc] with y hy hy'
      exact hcon y hy' hy
    rw [ae_iff] at this
    simp at this
    exact hoc this
  obtain ⟨y, hy, h4⟩ := h3
  have hc : 0 < ∏ j, y j ^ r (i.succAbove j) := Finset.prod_pos fun j _ => Real.rpow_pos_of_pos (mem_oc.1 hy j).1 _
  rw [← intervalIntegral.integrableOn_Ioo_rpow_iff (s := r i) (t := 1) one_pos]
  have h5 : IntegrableOn (fun x : ℝ => (x ^ r i * ∏ j, y j ^ r (i.succAbove j)) * (∏ j, y j ^ r (i.succAbove j))⁻¹) (Ioo 0 1) := by
    refine Integrable.mul_const ?_ _
    refine h4.congr (Eventually.of_forall fun x => ?_)
    simp only [Function.comp, MeasurableEquiv.piFinSuccAbove_symm_apply]
    rw [Fin.prod_univ_succAbove _ i]
    simp
  refine h5.congr (Eventually.of_forall fun x => ?_)
  simp only
  rw [mul_assoc, mul_inv_cancel₀ hc.ne', mul_one]

/-- If the integral of the sector exists, the real parts of the powers are greater than minus one. -/
theorem power_of_convergent {G : (Fin n → ℂ) → ℂ → ℂ} (hG : Ana univ G) {z : ℂ} (hne : ∀ t ∈ Icc (0 : Fin n → ℝ) 1, G (fun i => (t i : ℂ)) z ≠ 0)
    {b : Fin n → ℂ} (h : IntegrableOn (fun t : Fin n → ℝ => (∏ i, (t i : ℂ) ^ b i) * G (fun i => (t i : ℂ)) z) (oc n)) (i : Fin n) :
    -1 < (b i).re := by
  have hcont := hG.continuousOn (mem_univ z)
  obtain ⟨t0, ht0, hmin⟩ := (isCompact_Icc (a := (0 : Fin n → ℝ)) (b := 1)).exists_isMinOn (nonempty_Icc.2 zero_le_one) hcont.norm
  have hc : 0 < ‖G (fun i => (t0 i : ℂ)) z‖ := norm_pos_iff.2 (hne t0 ht0)
  refine powers_of_integrable (fun i => (b i).re) ?_ i
  have hmeas : Measurable fun t : Fin n → ℝ => ∏ i, t i ^ (b i).re :=
    Finset.measurable_prod _ fun i _ => (measurable_pi_apply i).pow_const _
  refine (h.norm.const_mul (‖G (fun i => (t0 i : ℂ)) z‖⁻¹)).mono' hmeas.aestronglyMeasurable ?_
  filter_upwards [ae_restrict_mem measurableSet_oc] with t ht
  have hb : ∀ i, ‖(t i : ℂ) ^ b i‖ = t i ^ (b i).re := fun i => Complex.norm_cpow_eq_rpow_re_of_pos (mem_oc.1 ht i).1 _
  rw [Real.norm_of_nonneg (Finset.prod_nonneg fun i _ => Real.rpow_nonneg (mem_oc.1 ht i).1.le _), norm_mul, norm_prod]
  simp only [hb]
  have hle : ‖G (fun i => (t0 i : ℂ)) z‖ ≤ ‖G (fun i => (t i : ℂ)) z‖ :=
    hmin ⟨fun i => (mem_oc.1 ht i).1.le, fun i => (mem_oc.1 ht i).2.le⟩
  have h1 : 0 ≤ ∏ i, t i ^ (b i).re := Finset.prod_nonneg fun i _ => Real.rpow_nonneg (mem_oc.1 ht i).1.le _
  rw [← mul_assoc, mul_comm (_⁻¹), mul_assoc]
  refine le_mul_of_one_le_right h1 ?_
  rw [← div_eq_inv_mul]
  exact (one_le_div hc).2 hle

/-- The regulated value depends analytically on the regulator. -/
theorem regulated_analytic {G : (Fin n → ℂ) → ℂ → ℂ} (hG : Ana univ G) (a c : Fin n → ℂ) :
    ∃ J : ℂ → ℂ, (∀ z, (∀ i, ∀ k : ℕ, a i + c i * z + k + 1 ≠ 0) →
      Regulated (fun t => (∏ i, (t i : ℂ) ^ (a i + c i * z)) * G (fun i => (t i : ℂ)) z) (J z)) ∧
      ∀ z, (∀ᶠ w in 𝓝 z, ∀ i, ∀ k : ℕ, a i + c i * w + k + 1 ≠ 0) → DifferentiableAt ℂ J z := by
  classical
  have hex : ∀ z, ∃ v, (∀ i, ∀ k : ℕ, a i + c i * z + k + 1 ≠ 0) →
      Regulated (fun t => (∏ i, (t i : ℂ) ^ (a i + c i * z)) * G (fun i => (t i : ℂ)) z) v := by
    intro z
    by_cases h : ∀ i, ∀ k : ℕ, a i + c i * z + k + 1 ≠ 0
    · obtain ⟨v, hv⟩ := regulated_exists hG (mem_univ z) (β := fun i => a i + c i * z) h
      exact ⟨v, fun _ => hv⟩
    · exact ⟨0, fun h' => absurd h' h⟩
  choose J hJ using hex
  refine ⟨J, hJ, fun z0 hz0 => ?_⟩
  obtain ⟨m, hm⟩ : ∃ m : ℕ, ∀ i, -(a i + c i * z0).re < m := by
    obtain ⟨B, hB⟩ := (finite_range fun i => -(a i + c i * z0).re).bddAbove
    obtain ⟨m, hm⟩ := exists_nat_gt B
    exact ⟨m, fun i => lt_of_le_of_lt (hB ⟨i, rfl⟩) hm⟩
  obtain ⟨M, hM, hMe⟩ := continuation (Z := univ) m (List.finRange n) (List.nodup_finRange n) G hG ∅ (by simp)
  have hnear : ∀ᶠ z in 𝓝 z0, ∀ i, (if i ∈ List.finRange n then -1 - (m : ℝ) else -1) < (a i + c i * z).re - 1 / 4 := by
    rw [eventually_all]
    intro i
    have hcont : ContinuousAt (fun z : ℂ => (a i + c i * z).re - 1 / 4) z0 := by fun_prop
    refine hcont.eventually_const_lt ?_
    rw [if_pos (List.mem_finRange i)]
    linarith [hm i]
  obtain ⟨r, hr, hball⟩ := Metric.eventually_nhds_iff_ball.1 (hnear.and hz0)
  have hden : ∀ z ∈ Metric.ball z0 r, ((List.finRange n).map fun i => den m (a i + c i * z)).prod ≠ 0 := by
    intro z hz h0
    rw [List.prod_eq_zero_iff] at h0
    obtain ⟨i, -, h0⟩ := List.mem_map.1 h0
    rw [den, Finset.prod_eq_zero_iff] at h0
    obtain ⟨k, -, h0⟩ := h0
    exact (hball z hz).2 i k h0
  have hMd : DifferentiableOn ℂ (fun z => M (fun i => a i + c i * z) z) (Metric.ball z0 r) := by
    refine hM _ Metric.isOpen_ball (fun z i => a i + c i * z) id ?_ differentiableOn_id ?_
    · exact (differentiable_pi.2 fun i => (differentiable_const _).add ((differentiable_const _).mul differentiable_id)).differentiableOn
    · intro z hz
      refine ⟨trivial, fun i => ?_⟩
      linarith [(hball z hz).1 i]
  have hDd : Differentiable ℂ fun z => ((List.finRange n).map fun i => den m (a i + c i * z)).prod :=
    listProd_differentiable fun i => (den_differentiable m).comp ((differentiable_const _).add ((differentiable_const _).mul differentiable_id))
  have hq := (hMd.div hDd.differentiableOn hden).differentiableAt (Metric.ball_mem_nhds z0 hr)
  refine hq.congr_of_eventuallyEq ?_
  filter_upwards [Metric.ball_mem_nhds z0 hr] with z hz
  have hv := regulated_value hM hMe (mem_univ z) (d := 1 / 4) (by norm_num) (hball z hz).1 (hJ z (hball z hz).2)
  exact (eq_div_iff (hden z hz)).2 hv

end Package
end SecDec
