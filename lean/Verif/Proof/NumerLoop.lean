import Verif.Proof.NumerGauss
/-
The loop integral (proof of property C50).
-/
namespace SecDec
namespace Numer
open scoped BigOperators Matrix
open Misc MeasureTheory
noncomputable section
variable {L E d : ℕ} {I : Type} [DecidableEq I]
variable {M B : Matrix (Fin L) (Fin L) ℝ} {Q : Fin d → Fin L → ℝ} {J : ℝ}

theorem sq_norm_le (k : Fin d → Fin L → ℝ) : ‖k‖ ^ 2 ≤ sqs k := by
  have h0 : 0 ≤ sqs k := Finset.sum_nonneg fun m _ => Finset.sum_nonneg fun a _ => sq_nonneg _
  rw [← Real.sqrt_le_sqrt_iff h0, Real.sqrt_sq (norm_nonneg _)]
  refine (pi_norm_le_iff_of_nonneg (Real.sqrt_nonneg _)).2 fun m => (pi_norm_le_iff_of_nonneg (Real.sqrt_nonneg _)).2 fun a => ?_
  apply Real.le_sqrt_of_sq_le
  rw [Real.norm_eq_abs, sq_abs]
  calc (k m a) ^ 2 ≤ ∑ a, (k m a) ^ 2 := Finset.single_le_sum (f := fun a => (k m a) ^ 2) (fun a _ => sq_nonneg _) (Finset.mem_univ a)
    _ ≤ sqs k := Finset.single_le_sum (f := fun m => ∑ a, (k m a) ^ 2)
        (fun m _ => Finset.sum_nonneg fun a _ => sq_nonneg _) (Finset.mem_univ m)

theorem quad_bracket (hB : M = Bᵀ * B) (hd : B.det ≠ 0) (hr : 0 < rmin M Q J) :
    ∃ c, 0 < c ∧ ∀ k : Fin d → Fin L → ℝ, c * (1 + ‖k‖) ^ 2 ≤ quad M Q J k := by
  obtain ⟨c, C, hc, h⟩ := quad_lower hB hd Q J
  set r := rmin M Q J with hrd
  set C' := max C 0 with hC'
  have hC0 : 0 ≤ C' := le_max_right _ _
  have hCC : C ≤ C' := le_max_left _ _
  set lam := r / (2 * (C' + r)) with hlam
  have hl0 : 0 < lam := by positivity
  have hl1 : lam * (C' + r) = r / 2 := by rw [hlam]; field_simp
  have hlle : lam ≤ 1 := by
    rw [hlam, div_le_one (by positivity)]; linarith
  refine ⟨min (lam * c) (r / 2) / 2, by positivity, fun k => ?_⟩
  have h1 := h k
  have h2 := rmin_le (Q := Q) (J := J) hB hd k
  rw [← hrd] at h2
  have h3 := sq_norm_le k
  have h4 := norm_nonneg k
  have h5 : (1 + ‖k‖) ^ 2 ≤ 2 * (1 + sqs k) := by nlinarith [sq_nonneg (1 - ‖k‖)]
  have hmin1 : min (lam * c) (r / 2) ≤ lam * c := min_le_left _ _
  have hmin2 : min (lam * c) (r / 2) ≤ r / 2 := min_le_right _ _
  have hmin0 : 0 < min (lam * c) (r / 2) := by positivity
  have hs0 : 0 ≤ sqs k := (sq_nonneg _).trans h3
  have h6 : lam * c * sqs k + r / 2 ≤ quad M Q J k := by
    have e1 : lam * (c * sqs k - C') ≤ lam * quad M Q J k := mul_le_mul_of_nonneg_left (by linarith) hl0.le
    have e2 : (1 - lam) * r ≤ (1 - lam) * quad M Q J k := mul_le_mul_of_nonneg_left h2 (by linarith)
    nlinarith
  calc min (lam * c) (r / 2) / 2 * (1 + ‖k‖) ^ 2 ≤ min (lam * c) (r / 2) / 2 * (2 * (1 + sqs k)) :=
        mul_le_mul_of_nonneg_left h5 (by positivity)
    _ = min (lam * c) (r / 2) * sqs k + min (lam * c) (r / 2) := by ring
    _ ≤ lam * c * sqs k + r / 2 := add_le_add (mul_le_mul_of_nonneg_right hmin1 hs0) hmin2
    _ ≤ _ := h6

theorem mon_norm (l : List (Fin L × Fin d)) (k : Fin d → Fin L → ℝ) : |mon l k| ≤ (1 + ‖k‖) ^ l.length := by
  unfold mon
  induction l with
  | nil => simp
  | cons f l ih =>
    rw [List.map_cons, List.prod_cons, abs_mul, List.length_cons, pow_succ, mul_comm]
    have h1 : |k f.2 f.1| ≤ ‖k‖ := (norm_le_pi_norm (k f.2) f.1).trans (norm_le_pi_norm k f.2)
    exact mul_le_mul ih (by linarith) (abs_nonneg _) ((abs_nonneg _).trans ih)

theorem integrable_power (hB : M = Bᵀ * B) (hd : B.det ≠ 0) (hr : 0 < rmin M Q J) (N : ℝ) (l : List (Fin L × Fin d))
    (hN : (l.length : ℝ) / 2 < N - d * L / 2) : Integrable fun k => mon l k * quad M Q J k ^ (-N) := by
  obtain ⟨c, hc, h⟩ := quad_bracket (Q := Q) (J := J) hB hd hr
  have hN0 : 0 ≤ N := by
    have h1 : (0 : ℝ) ≤ l.length := Nat.cast_nonneg _
    have h2 : (0 : ℝ) ≤ d * L := by positivity
    linarith
  have h1 : Integrable fun k : Fin d → Fin L → ℝ => c ^ (-N) * (1 + ‖k‖) ^ (-(2 * N - l.length)) := by
    refine Integrable.const_mul (integrable_one_add_norm ?_) _
    rw [Module.finrank_pi_fintype]
    simp only [Module.finrank_fintype_fun_eq_card, Fintype.card_fin, Finset.sum_const, Finset.card_univ, smul_eq_mul]
    push_cast
    linarith
  refine h1.mono' ?_ (Filter.Eventually.of_forall fun k => ?_)
  · exact ((mon_cont l).measurable.mul ((quad_cont M Q J).measurable.pow_const _)).aestronglyMeasurable
  · have hk : (0 : ℝ) < 1 + ‖k‖ := by have := norm_nonneg k; linarith
    have hq : 0 < quad M Q J k := lt_of_lt_of_le hr (rmin_le hB hd k)
    rw [norm_mul, Real.norm_eq_abs, Real.norm_of_nonneg (Real.rpow_nonneg hq.le _)]
    have e1 : quad M Q J k ^ (-N) ≤ (c * (1 + ‖k‖) ^ 2) ^ (-N) :=
      Real.rpow_le_rpow_of_nonpos (by positivity) (h k) (by linarith)
    have e2 : (c * (1 + ‖k‖) ^ 2) ^ (-N) = c ^ (-N) * (1 + ‖k‖) ^ (-(2 * N)) := by
      rw [Real.mul_rpow hc.le (by positivity), ← Real.rpow_natCast, ← Real.rpow_mul hk.le]
      congr 2; push_cast; ring
    calc |mon l k| * quad M Q J k ^ (-N) ≤ (1 + ‖k‖) ^ l.length * (c ^ (-N) * (1 + ‖k‖) ^ (-(2 * N))) :=
          mul_le_mul (mon_norm l k) (e1.trans (le_of_eq e2)) (Real.rpow_nonneg hq.le _) (by positivity)
      _ = c ^ (-N) * (1 + ‖k‖) ^ (-(2 * N - l.length)) := by
        rw [show -(2 * N - (l.length : ℝ)) = (l.length : ℝ) + -(2 * N) by ring, Real.rpow_add hk, Real.rpow_natCast]
        ring

theorem fubini_mon (hB : M = Bᵀ * B) (hd : B.det ≠ 0) (hr : 0 < rmin M Q J) (N : ℝ) (l : List (Fin L × Fin d))
    (hN : (l.length : ℝ) / 2 < N - d * L / 2) :
    IntegrableOn (fun a : ℝ => a ^ (N - 1) * momentI M Q J a l) (Set.Ioi 0) ∧
    Real.Gamma N * ∫ k, mon l k * quad M Q J k ^ (-N) = ∫ a : ℝ in Set.Ioi 0, a ^ (N - 1) * momentI M Q J a l := by
  have hN0 : 0 < N := by
    have h1 : (0 : ℝ) ≤ l.length := Nat.cast_nonneg _
    have h2 : (0 : ℝ) ≤ d * L := by positivity
    linarith
  have hG := Real.Gamma_pos_of_pos hN0
  have hq : ∀ k, 0 < quad M Q J k := fun k => lt_of_lt_of_le hr (rmin_le hB hd k)
  have hint : ∀ k, ∫ a : ℝ in Set.Ioi 0, a ^ (N - 1) * Real.exp (-a * quad M Q J k) = quad M Q J k ^ (-N) * Real.Gamma N := by
    intro k
    have := Real.integral_rpow_mul_exp_neg_mul_Ioi hN0 (hq k)
    rw [one_div, Real.inv_rpow (hq k).le, ← Real.rpow_neg (hq k).le] at this
    rw [← this]
    refine integral_congr_ae (Filter.Eventually.of_forall fun a => ?_)
    simp only
    congr 2; ring
  have hint' : ∀ k, IntegrableOn (fun a : ℝ => a ^ (N - 1) * Real.exp (-a * quad M Q J k)) (Set.Ioi 0) := by
    intro k
    by_contra hn
    have h0 := integral_undef hn
    rw [hint k] at h0
    have : 0 < quad M Q J k ^ (-N) * Real.Gamma N := mul_pos (Real.rpow_pos_of_pos (hq k) _) hG
    linarith
  have hpow := integrable_power (Q := Q) (J := J) hB hd hr N l hN
  have hprod : Integrable (Function.uncurry fun (a : ℝ) (k : Fin d → Fin L → ℝ) =>
      a ^ (N - 1) * (mon l k * Real.exp (-a * quad M Q J k))) ((volume.restrict (Set.Ioi 0)).prod volume) := by
    have hm : Measurable (Function.uncurry fun (a : ℝ) (k : Fin d → Fin L → ℝ) =>
        a ^ (N - 1) * (mon l k * Real.exp (-a * quad M Q J k))) := by
      have m1 := (mon_cont l).measurable
      have m2 := (quad_cont M Q J).measurable
      refine Measurable.mul (measurable_fst.pow_const _) (Measurable.mul (m1.comp measurable_snd) (Measurable.exp ?_))
      exact measurable_fst.neg.mul (m2.comp measurable_snd)
    rw [integrable_prod_iff' hm.aestronglyMeasurable]
    constructor
    · refine Filter.Eventually.of_forall fun k => ?_
      have := (hint' k).mul_const (mon l k)
      refine this.congr (Filter.Eventually.of_forall fun a => ?_)
      simp only [Function.uncurry]; ring
    · have h2 : (fun k => ∫ a : ℝ in Set.Ioi 0, ‖(Function.uncurry fun (a : ℝ) (k : Fin d → Fin L → ℝ) =>
          a ^ (N - 1) * (mon l k * Real.exp (-a * quad M Q J k))) (a, k)‖) =
          fun k => Real.Gamma N * |mon l k * quad M Q J k ^ (-N)| := by
        funext k
        have : ∀ a ∈ Set.Ioi (0 : ℝ), ‖(Function.uncurry fun (a : ℝ) (k : Fin d → Fin L → ℝ) =>
            a ^ (N - 1) * (mon l k * Real.exp (-a * quad M Q J k))) (a, k)‖ =
            |mon l k| * (a ^ (N - 1) * Real.exp (-a * quad M Q J k)) := by
          intro a ha
          simp only [Function.uncurry]
          rw [norm_mul, norm_mul, Real.norm_of_nonneg (Real.rpow_nonneg (le_of_lt ha) _), Real.norm_eq_abs,
            Real.norm_of_nonneg (Real.exp_pos _).le]
          ring
        rw [setIntegral_congr_fun measurableSet_Ioi this, integral_const_mul, hint k, abs_mul,
          abs_of_pos (Real.rpow_pos_of_pos (hq k) _)]
        ring
      rw [h2]
      exact hpow.abs.const_mul _
  constructor
  · have := hprod.integral_prod_left
    refine this.congr (Filter.Eventually.of_forall fun a => ?_)
    simp only [Function.uncurry]
    rw [integral_const_mul]; rfl
  · have h3 := integral_integral_swap hprod
    have h4 : ∀ a : ℝ, ∫ k : Fin d → Fin L → ℝ, a ^ (N - 1) * (mon l k * Real.exp (-a * quad M Q J k)) =
        a ^ (N - 1) * momentI M Q J a l := fun a => by rw [integral_const_mul]; rfl
    simp only [h4] at h3
    rw [h3, ← integral_const_mul]
    congr 1
    funext k
    have : (fun a : ℝ => a ^ (N - 1) * (mon l k * Real.exp (-a * quad M Q J k))) =
        fun a => mon l k * (a ^ (N - 1) * Real.exp (-a * quad M Q J k)) := by funext a; ring
    rw [this, integral_const_mul, hint k]; ring

theorem contract_integral {X : Type} [MeasurableSpace X] (μ : Measure X) (ε : Fin d → ℂ) (Js : List I)
    (g : (I → Fin d) → X → ℂ) (hg : ∀ σ, Integrable (g σ) μ) : ∀ τ,
    Integrable (fun x => contract ε Js (fun σ => g σ x) τ) μ ∧
      ∫ x, contract ε Js (fun σ => g σ x) τ ∂μ = contract ε Js (fun σ => ∫ x, g σ x ∂μ) τ := by
  induction Js with
  | nil => intro τ; exact ⟨hg τ, rfl⟩
  | cons ν Js ih =>
    intro τ
    simp only [contract, sumIndex]
    have h1 : ∀ m ∈ Finset.univ, Integrable (fun x => ε m * contract ε Js (fun σ => g σ x) (Function.update τ ν m)) μ :=
      fun m _ => (ih _).1.const_mul _
    refine ⟨integrable_finsetSum _ h1, ?_⟩
    rw [integral_finsetSum _ h1]
    refine Finset.sum_congr rfl fun m _ => ?_
    rw [integral_const_mul, (ih _).2]

theorem integral_list_sum' {X β : Type} [MeasurableSpace X] (μ : Measure X) (f : β → X → ℂ) (l : List β)
    (h : ∀ b ∈ l, Integrable (f b) μ) :
    Integrable (fun x => (l.map fun b => f b x).sum) μ ∧
      ∫ x, (l.map fun b => f b x).sum ∂μ = (l.map fun b => ∫ x, f b x ∂μ).sum := by
  induction l with
  | nil => simp
  | cons b l ih =>
    obtain ⟨i1, i2⟩ := ih fun x hx => h x (by simp [hx])
    have h0 := h b (by simp)
    simp only [List.map_cons, List.sum_cons]
    exact ⟨h0.add i1, by rw [integral_add h0 i1, i2]⟩

/-! ### The kinematics -/

def Kin.Qt (K : Kin L E d) (m : Fin d) (a : Fin L) : ℝ := K.Q a m

theorem denominator_eq (K : Kin L E d) (k : Fin d → Fin L → ℝ) : K.denominator k = quad K.M K.Qt K.J k := by
  unfold Kin.denominator quad edot
  have h1 : ∑ m, (k m ⬝ᵥ (K.M *ᵥ k m) - 2 * (K.Qt m ⬝ᵥ k m)) =
      (∑ a, ∑ b, K.M a b * ∑ m, k m a * k m b) - 2 * ∑ a, ∑ m, K.Q a m * k m a := by
    rw [Finset.sum_sub_distrib, ← Finset.mul_sum]
    congr 1
    · simp only [dotProduct, Matrix.mulVec, Finset.mul_sum]
      rw [Finset.sum_comm]
      refine Finset.sum_congr rfl fun a _ => ?_
      rw [Finset.sum_comm]
      exact Finset.sum_congr rfl fun b _ => Finset.sum_congr rfl fun m _ => by ring
    · congr 1
      simp only [dotProduct, Kin.Qt]
      rw [Finset.sum_comm]
  rw [h1]
  simp only [mul_neg, Finset.sum_neg_distrib]
  ring

theorem rmin_eq (K : Kin L E d) (hU : K.U ≠ 0) : rmin K.M K.Qt K.J = K.F / K.U := by
  unfold rmin Kin.F edot
  rw [eq_div_iff hU, sub_mul]
  have h1 : (-∑ m, K.Qt m ⬝ᵥ (K.M⁻¹ *ᵥ K.Qt m)) * K.U = ∑ a, ∑ b, K.M.adjugate a b * -∑ m, K.Q a m * K.Q b m := by
    simp only [mul_neg, Finset.sum_neg_distrib, neg_mul, neg_inj]
    have : ∀ m, K.Qt m ⬝ᵥ (K.M⁻¹ *ᵥ K.Qt m) * K.U = K.Qt m ⬝ᵥ (K.M.adjugate *ᵥ K.Qt m) := by
      intro m
      rw [Matrix.inv_def, Ring.inverse_eq_inv', Matrix.smul_mulVec, dotProduct_smul, smul_eq_mul]
      unfold Kin.U at hU ⊢
      field_simp
    rw [Finset.sum_mul, Finset.sum_congr rfl fun m _ => this m]
    simp only [dotProduct, Matrix.mulVec, Kin.Qt, Finset.mul_sum]
    rw [Finset.sum_comm]
    refine Finset.sum_congr rfl fun a _ => ?_
    rw [Finset.sum_comm]
    exact Finset.sum_congr rfl fun b _ => Finset.sum_congr rfl fun m _ => by ring
  rw [h1]; ring

theorem adj_mul (K : Kin L E d) (a c : Fin L) :
    ∑ b, K.data.aM a b * ((K.M b c : ℝ) : ℂ) = if a = c then K.data.U else 0 := by
  have h := congrFun (congrFun (Matrix.adjugate_mul K.M) a) c
  rw [Matrix.mul_apply] at h
  simp only [Kin.data, Kin.U]
  rw [← Complex.ofReal_zero, ← apply_ite Complex.ofReal]
  rw [show (if a = c then K.M.det else 0) = ∑ b, K.M.adjugate a b * K.M b c by
    rw [h]; simp [Matrix.one_apply]]
  push_cast; rfl

/-- A term integrated against the power of the denominator. -/
theorem term_integral (hB : M = Bᵀ * B) (hd : B.det ≠ 0) (hr : 0 < rmin M Q J) (N : ℝ) (p : Fin E → Fin d → ℂ)
    (τ : I → Fin d) (t : Term L E I) (hN : (t.loop.length : ℝ) / 2 < N - d * L / 2) :
    (Integrable fun k : Fin d → Fin L → ℝ => t.value eMetric p (fun a m => (k m a : ℝ)) τ * ((quad M Q J k ^ (-N) : ℝ) : ℂ)) ∧
    IntegrableOn (fun a : ℝ => ((a ^ (N - 1) * momentI M Q J a [] : ℝ) : ℂ) *
        t.mean eMetric p (fun l => ((momentI M Q J a l / momentI M Q J a [] : ℝ) : ℂ)) τ) (Set.Ioi 0) ∧
    (Real.Gamma N : ℂ) * ∫ k : Fin d → Fin L → ℝ, t.value eMetric p (fun a m => (k m a : ℝ)) τ * ((quad M Q J k ^ (-N) : ℝ) : ℂ) =
      ∫ a : ℝ in Set.Ioi 0, ((a ^ (N - 1) * momentI M Q J a [] : ℝ) : ℂ) *
        t.mean eMetric p (fun l => ((momentI M Q J a l / momentI M Q J a [] : ℝ) : ℂ)) τ := by
  have hlen : ∀ σ : I → Fin d, (t.loop.map fun f => (f.1, σ f.2)).length = t.loop.length := fun σ => by simp
  have hf : ∀ σ : I → Fin d, _ := fun σ => fubini_mon (Q := Q) (J := J) hB hd hr N (t.loop.map fun f => (f.1, σ f.2))
    (by rw [hlen]; exact hN)
  have hp : ∀ σ : I → Fin d, _ := fun σ => integrable_power (Q := Q) (J := J) hB hd hr N (t.loop.map fun f => (f.1, σ f.2))
    (by rw [hlen]; exact hN)
  have e1 : (fun k : Fin d → Fin L → ℝ => t.value eMetric p (fun a m => (k m a : ℝ)) τ * ((quad M Q J k ^ (-N) : ℝ) : ℂ)) =
      fun k => contract eMetric (repeated t.idx) (fun σ => (t.coef * (t.ext.map fun f => p f.1 (σ f.2)).prod) *
        ((mon (t.loop.map fun f => (f.1, σ f.2)) k * quad M Q J k ^ (-N) : ℝ) : ℂ)) τ := by
    funext k
    unfold Term.value einstein
    rw [mul_comm, ← congrFun (contract_smul _ _ _ _) τ]
    congr 1
    funext σ
    have : (((mon (t.loop.map fun f => (f.1, σ f.2)) k : ℝ)) : ℂ) = (t.loop.map fun f => ((k (σ f.2) f.1 : ℝ) : ℂ)).prod := by
      unfold mon
      rw [List.map_map]
      induction t.loop with
      | nil => simp
      | cons f l ih => simp only [List.map_cons, List.prod_cons, Complex.ofReal_mul, ih]; rfl
    rw [Complex.ofReal_mul, this]; ring
  have e2 : ∀ a ∈ Set.Ioi (0 : ℝ), ((a ^ (N - 1) * momentI M Q J a [] : ℝ) : ℂ) *
        t.mean eMetric p (fun l => ((momentI M Q J a l / momentI M Q J a [] : ℝ) : ℂ)) τ =
      contract eMetric (repeated t.idx) (fun σ => (t.coef * (t.ext.map fun f => p f.1 (σ f.2)).prod) *
        ((a ^ (N - 1) * momentI M Q J a (t.loop.map fun f => (f.1, σ f.2)) : ℝ) : ℂ)) τ := by
    intro a ha
    have hZ : momentI M Q J a [] ≠ 0 := by
      have : momentI M Q J a [] = ∫ k : Fin d → Fin L → ℝ, Real.exp (-a * quad M Q J k) := by simp [momentI, mon]
      rw [this, gauss_integral hB hd]
      have h1 : 0 < |B.det|⁻¹ := by positivity
      have h2 : 0 < Real.sqrt (Real.pi / a) := Real.sqrt_pos.2 (div_pos Real.pi_pos ha)
      positivity
    unfold Term.mean einstein
    rw [← congrFun (contract_smul _ _ _ _) τ]
    congr 1
    funext σ
    have hZ' : (momentI M Q J a [] : ℂ) ≠ 0 := by exact_mod_cast hZ
    push_cast
    field_simp
  have c1 := contract_integral volume (d := d) eMetric (repeated t.idx) (fun σ (k : Fin d → Fin L → ℝ) =>
    (t.coef * (t.ext.map fun f => p f.1 (σ f.2)).prod) * ((mon (t.loop.map fun f => (f.1, σ f.2)) k * quad M Q J k ^ (-N) : ℝ) : ℂ))
    (fun σ => (hp σ).ofReal.const_mul _) τ
  have c2 := contract_integral (volume.restrict (Set.Ioi 0)) (d := d) eMetric (repeated t.idx) (fun σ (a : ℝ) =>
    (t.coef * (t.ext.map fun f => p f.1 (σ f.2)).prod) * ((a ^ (N - 1) * momentI M Q J a (t.loop.map fun f => (f.1, σ f.2)) : ℝ) : ℂ))
    (fun σ => ((hf σ).1.ofReal).const_mul _) τ
  rw [e1]
  refine ⟨c1.1, ?_, ?_⟩
  · rw [integrableOn_congr_fun e2 measurableSet_Ioi]; exact c2.1
  · rw [setIntegral_congr_fun measurableSet_Ioi e2, c1.2, c2.2, ← congrFun (contract_smul _ _ _ _) τ]
    congr 1
    funext σ
    rw [integral_const_mul, integral_const_mul, integral_complex_ofReal, integral_complex_ofReal, ← (hf σ).2]
    push_cast; ring

theorem loop_integral (K : Kin L E d) (hM : K.M.PosDef) (hF : 0 < K.F) (τ : I → Fin d)
    (indices : List I) (isOne : Bool) (terms : List (Term L E I)) (hadm : ∀ t ∈ terms, t.Adm indices)
    (hone : isOne = true → terms = [⟨[], [], 1⟩])
    (R : ℕ) (hR : (terms.map fun t => t.loop.length).max? = some R) (hN : (R : ℝ) / 2 < K.N - d * L / 2) :
    ∃ out, numerator K.data indices isOne terms = some out ∧ Integrable (K.integrand terms τ) ∧
      ∫ k, K.integrand terms τ k =
        (Real.pi : ℂ) ^ ((d : ℂ) * L / 2) / Complex.Gamma K.N * Complex.Gamma (gammaArgument K.data R) *
          (K.U : ℂ) ^ exponentU K.data R * (K.F : ℂ) ^ exponentF K.data * (out.map fun S => S.value eMetric K.mom τ).sum := by
  obtain ⟨B, hB, hd⟩ := exists_root K.M hM
  have hUpos : 0 < K.U := hM.det_pos
  have hr : 0 < rmin K.M K.Qt K.J := by rw [rmin_eq K (ne_of_gt hUpos)]; exact div_pos hF hUpos
  have hN0 : 0 < K.N := by
    have h1 : (0 : ℝ) ≤ R := Nat.cast_nonneg _
    have h2 : (0 : ℝ) ≤ d * L := by positivity
    linarith
  have hGN : (Real.Gamma K.N : ℂ) ≠ 0 := by exact_mod_cast (ne_of_gt (Real.Gamma_pos_of_pos hN0))
  set r := rmin K.M K.Qt K.J with hrd
  set T : ℝ → List (Fin L × Fin d) → ℂ := fun a l => ((momentI K.M K.Qt K.J a l / momentI K.M K.Qt K.J a [] : ℝ) : ℂ) with hT
  have hQ : (fun (a : Fin L) (m : Fin d) => ((K.Qt m a : ℝ) : ℂ)) = fun a m => ∑ e, K.data.Q a e * K.mom e m := by
    funext a m; simp [Kin.Qt, Kin.Q, Kin.data, Kin.mom]
  have hUne : K.data.U ≠ 0 := by simp only [Kin.data]; exact_mod_cast (ne_of_gt hUpos)
  have hs : K.data.s = ((K.N - d * L / 2 : ℝ) : ℂ) := by simp [Data.s, Kin.data]
  obtain ⟨out, ho, hval⟩ := numerator_moments (ε := eMetric (d := d)) (fun m => by simp [eMetric]) K.data rfl
    (fun a b => ((K.M a b : ℝ) : ℂ)) hUne (adj_mul K) K.mom T
    (fun a ha => by rw [← hQ]; exact gauss_moments hB hd ha) τ indices isOne terms hadm hone R hR r hr
    (by
      simp only [Kin.data]
      rw [hrd, rmin_eq K (ne_of_gt hUpos)]
      have hU' : (K.U : ℂ) ≠ 0 := by exact_mod_cast (ne_of_gt hUpos)
      push_cast; field_simp)
    (by
      rw [hs, Complex.ofReal_re]
      have : ((R / 2 : ℕ) : ℝ) ≤ (R : ℝ) / 2 := Nat.cast_div_le
      linarith)
  have hle : ∀ t ∈ terms, (t.loop.length : ℝ) / 2 < K.N - d * L / 2 := by
    intro t ht
    have h1 : t.loop.length ≤ R := le_max hR _ (List.mem_map_of_mem ht)
    have h2 : (t.loop.length : ℝ) ≤ R := by exact_mod_cast h1
    linarith
  have hterm : ∀ t ∈ terms, _ := fun t ht => term_integral (Q := K.Qt) (J := K.J) hB hd hr K.N K.mom τ t (hle t ht)
  have e1 : K.integrand terms τ = fun k => (terms.map fun t =>
      t.value eMetric K.mom (fun a m => (k m a : ℝ)) τ * ((quad K.M K.Qt K.J k ^ (-K.N) : ℝ) : ℂ)).sum := by
    funext k
    unfold Kin.integrand
    rw [denominator_eq, List.sum_map_mul_right]
  obtain ⟨i1, i2⟩ := integral_list_sum' volume _ terms fun t ht => (hterm t ht).1
  refine ⟨out, ho, by rw [e1]; exact i1, ?_⟩
  rw [e1, i2]
  -- the integral over the scale
  have hZ : ∀ a ∈ Set.Ioi (0 : ℝ), ((a ^ (K.N - 1) * momentI K.M K.Qt K.J a [] : ℝ) : ℂ) =
      ((K.U ^ (-(d : ℝ) / 2) * Real.pi ^ ((d : ℝ) * L / 2) : ℝ) : ℂ) * ((a : ℂ) ^ (K.data.s - 1) * Complex.exp (-(r * a))) := by
    intro a ha
    have ha' : (0 : ℝ) < a := ha
    have h0 : momentI K.M K.Qt K.J a [] = ∫ k : Fin d → Fin L → ℝ, Real.exp (-a * quad K.M K.Qt K.J k) := by simp [momentI, mon]
    rw [h0, gauss_integral hB hd, ← hrd]
    have h1 : |B.det|⁻¹ ^ d = K.U ^ (-(d : ℝ) / 2) := by
      have : K.U = |B.det| ^ 2 := by
        unfold Kin.U
        rw [hB, Matrix.det_mul, Matrix.det_transpose, sq_abs, sq]
      rw [this, ← Real.rpow_natCast (|B.det|) 2, ← Real.rpow_mul (abs_nonneg _), inv_pow, ← Real.rpow_natCast,
        ← Real.rpow_neg (abs_nonneg _)]
      congr 1; push_cast; ring
    have h2 : (Real.sqrt (Real.pi / a) ^ L) ^ d = Real.pi ^ ((d : ℝ) * L / 2) * a ^ (-((d : ℝ) * L / 2)) := by
      rw [← pow_mul, Real.sqrt_eq_rpow, ← Real.rpow_natCast, ← Real.rpow_mul (div_pos Real.pi_pos ha').le,
        Real.div_rpow Real.pi_pos.le ha'.le, Real.rpow_neg ha'.le, div_eq_mul_inv]
      congr 2
      · push_cast; ring
      · push_cast; ring_nf
    rw [mul_pow, h1, h2, hs]
    have h3 : a ^ (K.N - 1) * a ^ (-((d : ℝ) * L / 2)) = a ^ (K.N - d * L / 2 - 1) := by
      rw [← Real.rpow_add ha']; congr 1; ring
    have h4 : (a : ℂ) ^ (((K.N - d * L / 2 : ℝ) : ℂ) - 1) = ((a ^ (K.N - d * L / 2 - 1) : ℝ) : ℂ) := by
      rw [Complex.ofReal_cpow ha'.le]; push_cast; rfl
    rw [h4, ← h3]
    push_cast
    rw [show -(a : ℂ) * (r : ℂ) = -((r : ℂ) * a) by ring]
    ring
  have e2 : (terms.map fun t => ∫ k : Fin d → Fin L → ℝ, t.value eMetric K.mom (fun a m => (k m a : ℝ)) τ *
      ((quad K.M K.Qt K.J k ^ (-K.N) : ℝ) : ℂ)).sum = (Real.Gamma K.N : ℂ)⁻¹ *
      ∫ a : ℝ in Set.Ioi 0, (terms.map fun t => ((a ^ (K.N - 1) * momentI K.M K.Qt K.J a [] : ℝ) : ℂ) * t.mean eMetric K.mom (T a) τ).sum := by
    rw [(integral_list_sum' (volume.restrict (Set.Ioi 0)) _ terms fun t ht => (hterm t ht).2.1).2, ← sum_map_mul']
    congr 1
    refine List.map_congr_left fun t ht => ?_
    rw [eq_inv_mul_iff_mul_eq₀ hGN]
    exact (hterm t ht).2.2
  rw [e2]
  have e3 : ∫ a : ℝ in Set.Ioi 0, (terms.map fun t => ((a ^ (K.N - 1) * momentI K.M K.Qt K.J a [] : ℝ) : ℂ) * t.mean eMetric K.mom (T a) τ).sum =
      ((K.U ^ (-(d : ℝ) / 2) * Real.pi ^ ((d : ℝ) * L / 2) : ℝ) : ℂ) * ∫ a : ℝ in Set.Ioi 0, (a : ℂ) ^ (K.data.s - 1) * Complex.exp (-(r * a)) *
        (terms.map fun t => t.mean eMetric K.mom (T a) τ).sum := by
    rw [← integral_const_mul]
    refine setIntegral_congr_fun measurableSet_Ioi fun a ha => ?_
    rw [sum_map_mul', hZ a ha]; ring
  rw [e3, hval]
  have hU' : (K.U : ℂ) ≠ 0 := by exact_mod_cast (ne_of_gt hUpos)
  have hF' : (K.F : ℂ) ≠ 0 := by exact_mod_cast (ne_of_gt hF)
  have p1 : (1 / (r : ℂ)) ^ K.data.s = (K.U : ℂ) ^ K.data.s * (K.F : ℂ) ^ (-K.data.s) := by
    have : (1 / (r : ℂ)) = ((K.U : ℝ) : ℂ) * (((K.F)⁻¹ : ℝ) : ℂ) := by
      rw [hrd, rmin_eq K (ne_of_gt hUpos)]; push_cast; field_simp
    rw [this, Complex.mul_cpow_ofReal_nonneg hUpos.le (inv_nonneg.2 hF.le)]
    congr 1
    rw [Complex.ofReal_inv, Complex.inv_cpow _ _ (by rw [Complex.arg_ofReal_of_nonneg hF.le]; exact Real.pi_pos.ne), Complex.cpow_neg]
  have p2 : exponentF K.data = -K.data.s := by simp only [exponentF, Data.s, Kin.data]; ring
  have p3 : exponentU K.data R = -((d : ℂ)) / 2 + K.data.s + -(R : ℂ) := by
    simp only [exponentU, Data.s, Kin.data]; ring
  have p4 : (K.U : ℂ) ^ (-(d : ℂ) / 2 + K.data.s + -(R : ℂ)) = ((K.U ^ (-(d : ℝ) / 2) : ℝ) : ℂ) * (K.U : ℂ) ^ K.data.s * ((K.U : ℂ) ^ R)⁻¹ := by
    rw [Complex.cpow_add _ _ hU', Complex.cpow_add _ _ hU', Complex.cpow_neg, Complex.cpow_natCast, Complex.ofReal_cpow hUpos.le]
    push_cast; rfl
  have p5 : ((Real.pi ^ ((d : ℝ) * L / 2) : ℝ) : ℂ) = (Real.pi : ℂ) ^ ((d : ℂ) * L / 2) := by
    rw [Complex.ofReal_cpow Real.pi_pos.le]; push_cast; rfl
  have p6 : (Real.Gamma K.N : ℂ) = Complex.Gamma K.N := (Complex.Gamma_ofReal K.N).symm
  rw [p1, p2, p3, p4, ← p5, p6, show K.data.U = (K.U : ℂ) from rfl]
  push_cast
  ring
end
end Numer
end SecDec
