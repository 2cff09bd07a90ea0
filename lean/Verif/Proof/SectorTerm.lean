import Verif.Proof.SectorInt
import Verif.Proof.SubMain
import Verif.Proof.ExpMulti
/-
The integral of one term of the subtraction, as function of the regulator: it is analytic, and its Taylor coefficients
are the integrals of the Taylor coefficients of the integrand.
-/
set_option linter.unusedSectionVars false
namespace SecDec.SectorExp
open Expr Subtraction Set Filter Topology MeasureTheory Decomp

variable {N : Nat} {F : Type} [Field F] [DecidableEq F] {φ : F →+* ℂ}

/-- One regulator. -/
def ez (z : ℂ) : Fin 1 → ℂ := fun _ => z

theorem point_ez (z w : ℂ) (t : Fin N → ℝ) :
    point (ez z) t = Function.update (point (ez w) t) (Fin.natAdd N 0) z := by
  funext i
  refine Fin.addCases (fun i => ?_) (fun i => ?_) i
  · rw [point_castAdd, Function.update_of_ne, point_castAdd]
    intro hh
    have := congrArg Fin.val hh
    simp at this; omega
  · obtain rfl : i = 0 := Subsingleton.elim _ _
    rw [point_natAdd, Function.update_self]; rfl

theorem continuous_point : Continuous (fun p : ℂ × (Fin N → ℝ) => point (ez p.1) p.2) := by
  refine continuous_pi fun i => ?_
  refine Fin.addCases (fun i => ?_) (fun i => ?_) i
  · simp only [point_castAdd]
    exact Complex.continuous_ofReal.comp ((continuous_apply i).comp continuous_snd)
  · simp only [point_natAdd, ez]; exact continuous_fst

theorem continuous_point_left (t : Fin N → ℝ) : Continuous (fun z : ℂ => point (ez z) t) :=
  continuous_point.comp (continuous_id.prodMk continuous_const)

theorem continuous_point_right (z : ℂ) : Continuous (fun t : Fin N → ℝ => point (ez z) t) :=
  continuous_point.comp (continuous_const.prodMk continuous_id)

theorem covers_near {U : Set (Fin (N + 1) → ℂ)} (hU : IsOpen U) {z0 : ℂ} (hc : Covers (ez z0) U) :
    ∀ᶠ z in 𝓝 z0, Covers (ez z) U := by
  refine (isCompact_Icc (a := (0 : Fin N → ℝ)) (b := 1)).eventually_forall_of_forall_eventually
    (P := fun z t => point (ez z) t ∈ U) fun t ht => ?_
  exact (continuous_point.continuousAt (x := (z0, t))).eventually_mem (hU.mem_nhds (hc t ht))

theorem bound_unif {U : Set (Fin (N + 1) → ℂ)} (hU : IsOpen U) {K : Set ℂ} (hK : IsCompact K)
    (hc : ∀ z ∈ K, Covers (ez z) U) (m : Fin N → ℕ) (S : Finset (Fin N)) :
    ∀ f : (Fin (N + 1) → ℂ) → ℂ, AnalyticOnNhd ℂ f U → (∀ z ∈ K, ∀ k ∈ S, Van (ez z) f k (m k)) →
    ∃ C : ℝ, 0 ≤ C ∧ ∀ z ∈ K, ∀ t ∈ Icc (0 : Fin N → ℝ) 1, ‖f (point (ez z) t)‖ ≤ C * ∏ k ∈ S, t k ^ m k := by
  induction S using Finset.induction_on with
  | empty =>
    intro f hf _
    have hcont : ContinuousOn (fun p : ℂ × (Fin N → ℝ) => f (point (ez p.1) p.2)) (K ×ˢ Icc (0 : Fin N → ℝ) 1) :=
      hf.continuousOn.comp continuous_point.continuousOn (fun p hp => hc p.1 hp.1 p.2 hp.2)
    obtain ⟨C, hC⟩ := (hK.prod (isCompact_Icc (a := (0 : Fin N → ℝ)) (b := 1))).exists_bound_of_continuousOn hcont
    refine ⟨max C 0, le_max_right _ _, fun z hz t ht => ?_⟩
    simpa using Or.inl (hC (z, t) ⟨hz, ht⟩)
  | insert k S hk ih =>
    intro f hf hv
    obtain ⟨C, hC0, hC⟩ := ih ((pd (Fin.castAdd 1 k))^[m k] f) (pdn_analytic hf _ _) (by
      intro z hz i hi
      exact (hv z hz i (Finset.mem_insert_of_mem hi)).pdn hU (hc z hz) hf (by rintro rfl; exact hk hi) _)
    refine ⟨C, hC0, fun z hz t ht => ?_⟩
    rw [Finset.prod_insert hk]
    have key := taylor_bound (m := m k) (fun q s => (pd (Fin.castAdd 1 k))^[q] f (point (ez z) (Function.update t k s)))
      (C := C * ∏ i ∈ S, t i ^ m i) (b := 1) zero_le_one ?_ ?_ ?_ (t k) ⟨ht.1 k, ht.2 k⟩
    · simp only [Function.iterate_zero, id_eq, Function.update_eq_self] at key
      calc _ ≤ _ := key
        _ = _ := by ring
    · intro q hq s hs
      have hm := update_mem_cube ht k hs
      have hd := hasDerivAt_pd' (pdn_analytic hf (Fin.castAdd 1 k) q _ (hc z hz _ hm)) (Fin.castAdd 1 k)
      rw [point_castAdd, Function.update_self] at hd
      have h2 := hd.comp_ofReal.hasDerivWithinAt (s := Icc (0:ℝ) 1)
      rw [← Function.iterate_succ_apply' (pd (Fin.castAdd 1 k))] at h2
      refine h2.congr_of_mem (fun u hu => ?_) hs
      simp only [point_update, Function.update_idem]
    · intro q hq
      refine hv z hz k (Finset.mem_insert_self k S) q hq _ (update_mem_cube ht k ⟨le_refl _, zero_le_one⟩) (by simp)
    · intro s hs
      refine (hC z hz _ (update_mem_cube ht k hs)).trans (le_of_eq ?_)
      congr 1
      refine Finset.prod_congr rfl fun i hi => ?_
      rw [Function.update_of_ne (by rintro rfl; exact hk hi)]

/-- Derivatives along one variable. -/
theorem iterDeriv_line {n : ℕ} {Φ : (Fin n → ℂ) → ℂ} {V : Set (Fin n → ℂ)} (hV : IsOpen V) (hΦ : AnalyticOnNhd ℂ Φ V)
    (i : Fin n) (y : Fin n → ℂ) (k : ℕ) : ∀ z, Function.update y i z ∈ V →
      iteratedDeriv k (fun s => Φ (Function.update y i s)) z = (pd i)^[k] Φ (Function.update y i z) := by
  induction k with
  | zero => intro z _; simp
  | succ k ih =>
    intro z hz
    rw [iteratedDeriv_succ, Function.iterate_succ_apply']
    have hc : Continuous (fun s : ℂ => Function.update y i s) := continuous_const.update i continuous_id
    have h1 : iteratedDeriv k (fun s => Φ (Function.update y i s)) =ᶠ[𝓝 z]
        fun s => (pd i)^[k] Φ (Function.update y i s) := by
      filter_upwards [hc.continuousAt.eventually_mem (hV.mem_nhds hz)] with s hs
      exact ih s hs
    rw [h1.deriv_eq]
    have := hasDerivAt_pd' (pdn_analytic hΦ i k _ hz) i
    simp only [Function.update_idem, Function.update_self] at this
    exact this.deriv

/-- The regular part of a term (`make_package.py:1151`). -/
def regExpr (Q : PolyProd (N + 1) F) : Expr (N + 1) F :=
  .prod (.prod (Q.monos.map Monomial.toExpr) :: Q.calI)

/-- Where the regular part is smooth. -/
def dom (φ : F →+* ℂ) (Q : PolyProd (N + 1) F) (U : Set (Fin (N + 1) → ℂ)) : Set (Fin (N + 1) → ℂ) :=
  {x | x ∈ U ∧ (∀ i : Fin N, x (Fin.castAdd 1 i) ≠ 0) ∧
    ∀ m ∈ Q.monos, φ m.coeff * Poly.mono x m.expo ∈ Complex.slitPlane}

theorem eventually_list {α β : Type} {l : Filter α} {p : β → α → Prop} :
    ∀ (L : List β), (∀ b ∈ L, ∀ᶠ x in l, p b x) → ∀ᶠ x in l, ∀ b ∈ L, p b x := by
  intro L
  induction L with
  | nil => intro _; simp
  | cons b L ih =>
    intro h
    filter_upwards [h b (by simp), ih fun b hb => h b (by simp [hb])] with x h1 h2 c hc
    rcases List.mem_cons.1 hc with rfl | hc
    · exact h1
    · exact h2 c hc

theorem isOpen_dom {Q : PolyProd (N + 1) F} (hW : WellFormed φ Q) {U : Set (Fin (N + 1) → ℂ)} (hU : IsOpen U) :
    IsOpen (dom φ Q U) := by
  rw [isOpen_iff_mem_nhds]
  rintro x ⟨h1, h2, h3⟩
  have hu : ∀ᶠ y in 𝓝 x, y ∈ U := hU.mem_nhds h1
  refine hu.and (Filter.Eventually.and ?_ ?_)
  · rw [eventually_all]
    intro i
    exact (continuous_apply _).continuousAt.eventually_ne (h2 i)
  · refine eventually_list (p := fun (m : Monomial (N + 1) F) y => φ m.coeff * Poly.mono y m.expo ∈ Complex.slitPlane) _ fun m hm => ?_
    have ha : AnalyticAt ℂ (fun y => Poly.mono y m.expo) x := analyticAt_mono m.expo (by
      intro i
      refine Fin.addCases (fun i => ?_) (fun i => ?_) i
      · intro h; exact absurd h (h2 i)
      · intro _; rw [hW.monomial m hm i])
    exact (continuousAt_const.mul ha.continuousAt).eventually_mem (Complex.isOpen_slitPlane.mem_nhds (h3 m hm))

theorem adm_regExpr {Q : PolyProd (N + 1) F} (hW : WellFormed φ Q) {U : Set (Fin (N + 1) → ℂ)}
    (hA : ∀ e ∈ Q.calI, Adm (Mode.free φ) φ U e) : Adm (Mode.free φ) φ (dom φ Q U) (regExpr Q) := by
  refine Adm.prod _ fun e he => ?_
  rcases List.mem_cons.1 he with rfl | he
  · refine Adm.prod _ fun e he => ?_
    obtain ⟨m, hm, rfl⟩ := List.mem_map.1 he
    refine Adm.epoly _ _ (Adm.poly _ ?_ ?_ ?_) (adm_ofPoly (hW.exponent m hm) _) ?_ ?_ (Or.inl ?_)
    · intro t ht x hx i
      simp only [List.mem_singleton] at ht
      subst ht
      refine Fin.addCases (fun i => ?_) (fun i => ?_) i
      · intro h; exact absurd h (hx.2.1 i)
      · intro _; show 0 ≤ m.expo (Fin.natAdd N i); rw [hW.monomial m hm i]
    · intro t ht
      simp only [List.mem_singleton] at ht
      subst ht
      exact Adm.num _
    · intro t ht
      simp only [List.mem_singleton] at ht
      subst ht
      exact ⟨_, rfl⟩
    · refine Flat.poly _ fun t ht => ?_
      obtain ⟨u, _, rfl⟩ := List.mem_map.1 ht
      exact ⟨_, rfl⟩
    · exact Or.inl fun _ => rfl
    · intro x hx
      rw [eval_poly]
      simpa [eval_num] using hx.2.2 m hm
  · exact (hA e he).mono fun x hx => hx.1

theorem point_mem_dom {Q : PolyProd (N + 1) F} (hW : WellFormed φ Q) {U : Set (Fin (N + 1) → ℂ)} {z : ℂ}
    (hc : Covers (ez z) U) {t : Fin N → ℝ} (ht : t ∈ oc N) : point (ez z) t ∈ dom φ Q U := by
  rw [mem_oc] at ht
  refine ⟨hc t ⟨fun i => (ht i).1.le, fun i => (ht i).2.le⟩, fun i => ?_, fun m hm => ?_⟩
  · rw [point_castAdd]; exact_mod_cast (ht i).1.ne'
  · obtain ⟨r, hr, hcf⟩ := hW.coeff m hm
    rw [mono_point (hW.monomial m hm), hcf, ← Complex.ofReal_mul]
    exact Complex.ofReal_mem_slitPlane.2 (mul_pos hr (Finset.prod_pos fun i _ => zpow_pos (ht i).1 _))

/-- A term whose integral is finite near the value `z0` of the regulator. -/
structure Reg (φ : F →+* ℂ) (z0 : ℂ) (Q : PolyProd (N + 1) F) (U : Set (Fin (N + 1) → ℂ)) (m : Fin N → ℕ) : Prop where
  wf : WellFormed φ Q
  on : On φ (ez z0) Q U
  van : ∀ᶠ z in 𝓝 z0, ∀ i, Van (ez z) (fI φ Q) i (m i)
  re : ∀ i, -1 < (pw φ (ez z0) Q.monos i).re + m i

theorem continuous_rpt : Continuous (fun z : ℂ => rpt N (ez z)) := by
  refine continuous_pi fun i => ?_
  refine Fin.addCases (fun i => ?_) (fun i => ?_) i
  · simp only [rpt, Fin.append_left]; exact continuous_const
  · simp only [rpt, Fin.append_right, ez]; exact continuous_id

theorem continuous_pev {p : Poly (N + 1) F} (hp : RegulatorPoly p) : Continuous (fun z : ℂ => pev φ (rpt N (ez z)) p) :=
  (continuous_iff_continuousAt.2 fun x => (pev_analytic hp x).continuousAt).comp continuous_rpt

theorem continuous_pw {ms : List (Monomial (N + 1) F)} (h : ∀ m ∈ ms, WM φ m) (i : Fin N) :
    Continuous (fun z : ℂ => pw φ (ez z) ms i) := by
  unfold pw
  exact continuous_list_sum _ fun m hm => (continuous_pev (h m hm).exponent).mul continuous_const

theorem continuous_kappa {ms : List (Monomial (N + 1) F)} (h : ∀ m ∈ ms, WM φ m) :
    Continuous (fun z : ℂ => kappa φ (ez z) ms) := by
  unfold kappa
  refine continuous_list_prod _ fun m hm => ?_
  obtain ⟨r, hr, hc⟩ := (h m hm).coeff
  exact (continuous_pev (h m hm).exponent).const_cpow (Or.inl (by rw [hc]; exact_mod_cast hr.ne'))

theorem vwp_eq {Q : PolyProd (N + 1) F} (h : WellFormed φ Q) {ε : Fin 1 → ℂ} {t : Fin N → ℝ} (ht : ∀ i, 0 < t i) :
    valueWithoutPoles φ ε Q t = kappa φ ε Q.monos * (∏ i, (t i : ℂ) ^ (pw φ ε Q.monos i)) * fI φ Q (point ε t) := by
  rw [valueWithoutPoles, eval_prod]
  simp only [List.map_cons, List.prod_cons]
  rw [eval_prod, monos_value Q.monos h.wm ht, fI, eval_prod]

/-- The integral of a term is analytic, and its Taylor coefficients are integrals. -/
theorem reg_integral {z0 : ℂ} {Q : PolyProd (N + 1) F} {U : Set (Fin (N + 1) → ℂ)} {m : Fin N → ℕ} (h : Reg φ z0 Q U m) :
    AnalyticAt ℂ (fun z => ∫ t in oc N, valueWithoutPoles φ (ez z) Q t) z0 ∧
    ∀ k, IntegrableOn (fun t => iteratedDeriv k (fun z => valueWithoutPoles φ (ez z) Q t) z0) (oc N) ∧
      iteratedDeriv k (fun z => ∫ t in oc N, valueWithoutPoles φ (ez z) Q t) z0 =
        ∫ t in oc N, iteratedDeriv k (fun z => valueWithoutPoles φ (ez z) Q t) z0 := by
  have hU := h.on.isOpen
  set d : Fin N → ℝ := fun i => ((pw φ (ez z0) Q.monos i).re + m i + 1) / 2 with hd
  have hd0 : ∀ i, 0 < d i := fun i => by have := h.re i; simp only [hd]; linarith
  have hpw : ∀ᶠ z in 𝓝 z0, ∀ i, (pw φ (ez z0) Q.monos i).re - d i ≤ (pw φ (ez z) Q.monos i).re := by
    rw [eventually_all]
    intro i
    have hcont : ContinuousAt (fun z => (pw φ (ez z) Q.monos i).re) z0 :=
      (Complex.continuous_re.comp (continuous_pw h.wf.wm i)).continuousAt
    have := hcont.eventually_mem (isOpen_Ioi.mem_nhds (show (pw φ (ez z0) Q.monos i).re - d i <
      (pw φ (ez z0) Q.monos i).re by have := hd0 i; linarith))
    filter_upwards [this] with z hz using le_of_lt hz
  obtain ⟨r, hr, hball⟩ := Metric.nhds_basis_closedBall.eventually_iff.1
    ((covers_near hU h.on.covers).and (h.van.and hpw))
  have hK : IsCompact (Metric.closedBall z0 r) := isCompact_closedBall z0 r
  obtain ⟨C, hC0, hC⟩ := bound_unif hU hK (fun z hz => (hball hz).1) m Finset.univ (fI φ Q) h.on.analytic
    (fun z hz k _ => (hball hz).2.1 k)
  obtain ⟨C1, hC1⟩ := hK.exists_bound_of_continuousOn (continuous_kappa h.wf.wm).continuousOn
  have hC10 : 0 ≤ C1 := (norm_nonneg _).trans (hC1 z0 (Metric.mem_closedBall_self hr.le))
  set B : (Fin N → ℝ) → ℝ := fun t => C1 * C * ∏ i, t i ^ ((pw φ (ez z0) Q.monos i).re - d i + m i) with hB
  have hBi : IntegrableOn B (oc N) := by
    refine (integrable_prod_rpow _ fun i => ?_).const_mul _
    have := h.re i
    simp only [hd]; linarith
  have hAn := Adm.analytic (adm_regExpr h.wf h.on.adm)
  have hopen := isOpen_dom h.wf hU
  have hline : ∀ t : Fin N → ℝ, (fun z => valueWithoutPoles φ (ez z) Q t) =
      fun z => eval φ (Function.update (point (ez z0) t) (Fin.natAdd N 0) z) (regExpr Q) := by
    intro t
    funext z
    rw [← point_ez]; rfl
  have hder : ∀ k, ∀ t ∈ oc N, iteratedDeriv k (fun z => valueWithoutPoles φ (ez z) Q t) z0 =
      (pd (Fin.natAdd N 0))^[k] (fun x => eval φ x (regExpr Q)) (point (ez z0) t) := by
    intro k t ht
    rw [hline t, iterDeriv_line hopen hAn (Fin.natAdd N 0) (point (ez z0) t) k z0
      (by rw [← point_ez]; exact point_mem_dom h.wf h.on.covers ht), ← point_ez]
  refine param_integral (r := r) (B := B) hr hBi ?_ ?_ ?_
  · refine (ae_restrict_iff' measurableSet_oc).2 (Eventually.of_forall fun t ht z hz => ?_)
    refine DifferentiableAt.differentiableWithinAt ?_
    rw [hline t]
    have hm : Function.update (point (ez z0) t) (Fin.natAdd N 0) z ∈ dom φ Q U := by
      rw [← point_ez]; exact point_mem_dom h.wf (hball (Metric.ball_subset_closedBall hz)).1 ht
    have := (hasDerivAt_pd' (hAn _ hm) (Fin.natAdd N 0)).differentiableAt
    simpa only [Function.update_idem, Function.update_self] using this
  · refine (ae_restrict_iff' measurableSet_oc).2 (Eventually.of_forall fun t ht z hz => ?_)
    have hz' := Metric.ball_subset_closedBall hz
    have hpos : ∀ i, 0 < t i := fun i => (mem_oc.1 ht i).1
    have hle : ∀ i, t i ≤ 1 := fun i => (mem_oc.1 ht i).2.le
    rw [vwp_eq h.wf hpos, norm_mul, norm_mul, norm_prod]
    have h1 : ∀ i, ‖(t i : ℂ) ^ (pw φ (ez z) Q.monos i)‖ = t i ^ (pw φ (ez z) Q.monos i).re :=
      fun i => Complex.norm_cpow_eq_rpow_re_of_pos (hpos i) _
    simp only [h1]
    have h2 := hC z hz' t ⟨fun i => (hpos i).le, hle⟩
    have h3 : ∏ i, t i ^ (pw φ (ez z) Q.monos i).re ≤ ∏ i, t i ^ ((pw φ (ez z0) Q.monos i).re - d i) :=
      Finset.prod_le_prod (fun i _ => (Real.rpow_pos_of_pos (hpos i) _).le) fun i _ =>
        Real.rpow_le_rpow_of_exponent_ge (hpos i) (hle i) ((hball hz').2.2 i)
    have h4 : 0 ≤ ∏ i, t i ^ ((pw φ (ez z0) Q.monos i).re - d i) :=
      Finset.prod_nonneg fun i _ => (Real.rpow_pos_of_pos (hpos i) _).le
    calc _ ≤ (C1 * ∏ i, t i ^ ((pw φ (ez z0) Q.monos i).re - d i)) * (C * ∏ i, t i ^ m i) :=
          mul_le_mul (mul_le_mul (hC1 z hz') h3 (Finset.prod_nonneg fun i _ => (Real.rpow_pos_of_pos (hpos i) _).le) hC10)
            h2 (norm_nonneg _) (mul_nonneg hC10 h4)
      _ = B t := by
          simp only [hB]
          rw [show ∀ a b c d : ℝ, a * b * (c * d) = a * c * (b * d) from fun a b c d => by ring, ← Finset.prod_mul_distrib]
          congr 1
          refine Finset.prod_congr rfl fun i _ => ?_
          rw [Real.rpow_add (hpos i), Real.rpow_natCast]
  · intro k
    have hcont : ContinuousOn (fun t => (pd (Fin.natAdd N 0))^[k] (fun x => eval φ x (regExpr Q)) (point (ez z0) t)) (oc N) :=
      (pdn_analytic hAn _ k).continuousOn.comp (continuous_point_right z0).continuousOn
        (fun t ht => point_mem_dom h.wf h.on.covers ht)
    refine (hcont.congr fun t ht => hder k t ht).aestronglyMeasurable measurableSet_oc

end SecDec.SectorExp
