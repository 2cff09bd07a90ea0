import Verif.Proof.AnalyticReg
import Verif.Spec.Regulated
import Mathlib.Analysis.Normed.Module.Connected
import Mathlib.LinearAlgebra.Complex.FiniteDimensional
/-
The order of the pole of an analytically regulated integral.
-/
set_option linter.unusedSectionVars false
namespace SecDec.AnalyticReg
open Set Decomp MeasureTheory Filter Topology Metric

variable {N : ℕ} {Z : Set ℂ} {G : (Fin N → ℂ) → ℂ → ℂ}

theorem cubeIntegral_oc (f : (Fin N → ℝ) → ℂ) : cubeIntegral f = ∫ t in oc N, f t := (setIntegral_congr_set oc_ae).symm

theorem cubeIntegrable_oc {f : (Fin N → ℝ) → ℂ} : CubeIntegrable f ↔ IntegrableOn f (oc N) :=
  integrableOn_congr_set_ae oc_ae.symm

/-- A half plane without a countable set is connected. -/
theorem halfPlane_diff (d : ℝ) {E : Set ℂ} (hE : E.Countable) : IsPreconnected ({s : ℂ | -d < s.re} \ E) := by
  set ψ : ℂ → ℂ := fun w => ⟨Real.exp w.re - d, w.im⟩ with hψ
  have hc : Continuous ψ := by
    have : ψ = fun w => ((Real.exp w.re - d : ℝ) : ℂ) + (w.im : ℂ) * Complex.I := by
      funext w; apply Complex.ext <;> simp [hψ, -Complex.ofReal_exp]
    rw [this]
    exact (Complex.continuous_ofReal.comp ((Real.continuous_exp.comp Complex.continuous_re).sub continuous_const)).add
      ((Complex.continuous_ofReal.comp Complex.continuous_im).mul continuous_const)
  have hinj : Function.Injective ψ := by
    intro w w' h
    have h1 := congrArg Complex.re h
    have h2 := congrArg Complex.im h
    simp only [hψ] at h1 h2
    refine Complex.ext (Real.exp_injective (by linarith)) h2
  have hcount : (ψ ⁻¹' E).Countable := hE.preimage_of_injOn hinj.injOn
  have himg : ψ '' (ψ ⁻¹' E)ᶜ = {s : ℂ | -d < s.re} \ E := by
    ext s
    constructor
    · rintro ⟨w, hw, rfl⟩
      refine ⟨?_, hw⟩
      simp only [hψ, mem_ofPred_eq]
      linarith [Real.exp_pos w.re]
    · rintro ⟨h1, h2⟩
      have h1' : 0 < s.re + d := by simp only [mem_ofPred_eq] at h1; linarith
      have he : ψ ⟨Real.log (s.re + d), s.im⟩ = s := by
        simp only [hψ, Real.exp_log h1', add_sub_cancel_right]
      exact ⟨_, by show ψ _ ∉ E; rw [he]; exact h2, he⟩
  rw [← himg]
  have hrank : 1 < Module.rank ℝ ℂ := by rw [Complex.rank_real_complex]; norm_num
  exact (hcount.isConnected_compl_of_one_lt_rank hrank).isPreconnected.image _ hc.continuousOn

theorem isOpen_half (d : ℝ) {E : Set ℂ} (hE : IsClosed E) : IsOpen ({s : ℂ | -d < s.re} \ E) :=
  (isOpen_lt continuous_const Complex.continuous_re).sdiff hE

/-- The identity theorem in this domain. -/
theorem eq_of_large {d C : ℝ} {E : Set ℂ} (hE : E.Countable) (hEc : IsClosed E) {H H' : ℂ → ℂ}
    (h : DifferentiableOn ℂ H ({s | -d < s.re} \ E)) (h' : DifferentiableOn ℂ H' ({s | -d < s.re} \ E))
    (heq : ∀ s : ℂ, C < s.re → s ∉ E → H s = H' s) {s : ℂ} (hs : s ∈ {s : ℂ | -d < s.re} \ E) : H s = H' s := by
  have hop := isOpen_half d hEc
  have hU : IsOpen {s : ℂ | max C (-d) < s.re} := isOpen_lt continuous_const Complex.continuous_re
  obtain ⟨x, hx1, hx2⟩ : ({s : ℂ | max C (-d) < s.re} ∩ Eᶜ).Nonempty := by
    refine (hE.dense_compl ℂ).inter_open_nonempty _ hU ⟨((max C (-d) + 1 : ℝ) : ℂ), ?_⟩
    simp only [mem_ofPred_eq, Complex.ofReal_re]
    linarith
  have hx1' : max C (-d) < x.re := hx1
  have hxm : x ∈ {s : ℂ | -d < s.re} \ E := ⟨lt_of_le_of_lt (le_max_right C (-d)) hx1', hx2⟩
  refine (h.analyticOnNhd hop).eqOn_of_preconnected_of_eventuallyEq (h'.analyticOnNhd hop) (halfPlane_diff d hE) hxm ?_ hs
  filter_upwards [hU.mem_nhds hx1, hEc.isOpen_compl.mem_nhds hx2] with y hy1 hy2
  exact heq y (lt_of_le_of_lt (le_max_left _ _) hy1) hy2

/-- The regulated value is unique. -/
theorem regulated_unique {f : (Fin N → ℝ) → ℂ} {v v' : ℂ} (h : Regulated f v) (h' : Regulated f v') : v = v' := by
  obtain ⟨δ, c, E, H, h1, h2, h3, h4, h5, -, h6, rfl⟩ := h
  obtain ⟨δ', c', E', H', h1', h2', h3', h4', h5', -, h6', rfl⟩ := h'
  refine eq_of_large (d := min δ δ') (C := max c c') (h2.union h2') (h3.union h3') (h5.mono ?_) (h5'.mono ?_) ?_ ⟨?_, ?_⟩
  · rintro s ⟨hs1, hs2⟩
    refine ⟨?_, fun h => hs2 (Or.inl h)⟩
    simp only [mem_ofPred_eq] at hs1 ⊢
    linarith [min_le_left δ δ']
  · rintro s ⟨hs1, hs2⟩
    refine ⟨?_, fun h => hs2 (Or.inr h)⟩
    simp only [mem_ofPred_eq] at hs1 ⊢
    linarith [min_le_right δ δ']
  · intro s hs1 hs2
    rw [h6 s (lt_of_le_of_lt (le_max_left _ _) hs1) fun h => hs2 (Or.inl h),
      h6' s (lt_of_le_of_lt (le_max_right _ _) hs1) fun h => hs2 (Or.inr h)]
  · simp only [mem_ofPred_eq, Complex.zero_re]
    linarith [lt_min h1 h1']
  · simp [h4, h4']

theorem shift_integrand (β : Fin N → ℂ) (s : ℂ) (g : ℂ) {t : Fin N → ℝ} (ht : t ∈ oc N) :
    (∏ i, (t i : ℂ) ^ s) * ((∏ i, (t i : ℂ) ^ (β i)) * g) = (∏ i, (t i : ℂ) ^ (β i + s)) * g := by
  rw [← mul_assoc, ← Finset.prod_mul_distrib]
  congr 1
  refine Finset.prod_congr rfl fun i _ => ?_
  rw [← Complex.cpow_add _ _ (by exact_mod_cast ((mem_oc.1 ht i).1).ne'), add_comm]

theorem shift_integral (β : Fin N → ℂ) (s z : ℂ) (G : (Fin N → ℂ) → ℂ → ℂ) :
    cubeIntegral (fun t : Fin N → ℝ => (∏ i, (t i : ℂ) ^ s) * ((∏ i, (t i : ℂ) ^ (β i)) * G (fun i => (t i : ℂ)) z)) = II (fun i => β i + s) G z := by
  rw [cubeIntegral_oc]
  exact setIntegral_congr_fun measurableSet_oc fun t ht => shift_integrand β s _ ht

theorem zeroOn_empty (β : Fin N → ℂ) : zeroOn ∅ β = β := by funext i; simp [zeroOn]

theorem differentiable_shift (β : Fin N → ℂ) : Differentiable ℂ (fun s : ℂ => fun i : Fin N => β i + s) :=
  differentiable_pi.2 fun i => (differentiable_const (β i)).add differentiable_id

theorem den_differentiable (m : ℕ) : Differentiable ℂ (den m) := by
  unfold den
  exact Differentiable.fun_finsetProd fun k _ => ((differentiable_id.add_const _).add_const _)

theorem listProd_differentiable {S : List (Fin N)} {f : Fin N → ℂ → ℂ} (h : ∀ i, Differentiable ℂ (f i)) :
    Differentiable ℂ (fun s => (S.map fun i => f i s).prod) := by
  induction S with
  | nil => simp
  | cons i S ih =>
    simp only [List.map_cons, List.prod_cons]
    exact (h i).mul ih

/-- The regulated value, from the continuation `M`. -/
theorem regulated_value {m : ℕ} {S : List (Fin N)} {M : (Fin N → ℂ) → ℂ → ℂ}
    (hM : Hol (fun i => if i ∈ S then -1 - (m : ℝ) else -1) Z M)
    (hMe : ∀ β z, z ∈ Z → (∀ i, -1 < (β i).re) → M β z = (S.map fun i => den m (β i)).prod * II (zeroOn ∅ β) G z)
    {z : ℂ} (hz : z ∈ Z) {β : Fin N → ℂ} {d : ℝ} (hd : 0 < d) (hβ : ∀ i, (if i ∈ S then -1 - (m : ℝ) else -1) < (β i).re - d) {v : ℂ}
    (hv : Regulated (fun t => (∏ i, (t i : ℂ) ^ (β i)) * G (fun i => (t i : ℂ)) z) v) :
    v * (S.map fun i => den m (β i)).prod = M β z := by
  obtain ⟨δ, c, E, H, h1, h2, h3, h4, h5, -, h6, rfl⟩ := hv
  have hhalf : IsOpen {s : ℂ | -d < s.re} := isOpen_lt continuous_const Complex.continuous_re
  have hMd : DifferentiableOn ℂ (fun s => M (fun i => β i + s) z) {s : ℂ | -d < s.re} := by
    refine hM _ hhalf (fun s i => β i + s) (fun _ => z) (differentiable_shift β).differentiableOn (differentiableOn_const _) ?_
    intro s hs
    refine ⟨hz, fun i => ?_⟩
    have := hβ i
    simp only [mem_ofPred_eq] at hs
    rw [Complex.add_re]
    linarith
  have hden : Differentiable ℂ (fun s => (S.map fun i => den m (β i + s)).prod) :=
    listProd_differentiable fun i => (den_differentiable m).comp ((differentiable_const (β i)).add differentiable_id)
  obtain ⟨B, hB⟩ : ∃ B : ℝ, ∀ i, -1 - (β i).re < B := by
    obtain ⟨B, hB⟩ := (finite_range fun i => -1 - (β i).re).bddAbove
    exact ⟨B + 1, fun i => by have := hB ⟨i, rfl⟩; linarith⟩
  have := eq_of_large (d := min δ d) (C := max c B) h2 h3 (H := fun s => H s * (S.map fun i => den m (β i + s)).prod)
    (H' := fun s => M (fun i => β i + s) z) ?_ ?_ ?_ (s := 0) ⟨?_, h4⟩
  · simpa using this
  · refine DifferentiableOn.mul (h5.mono ?_) hden.differentiableOn
    rintro s ⟨hs1, hs2⟩
    refine ⟨?_, hs2⟩
    simp only [mem_ofPred_eq] at hs1 ⊢
    linarith [min_le_left δ d]
  · refine hMd.mono ?_
    rintro s ⟨hs1, hs2⟩
    simp only [mem_ofPred_eq] at hs1 ⊢
    linarith [min_le_right δ d]
  · intro s hs1 hs2
    have hb : ∀ i, -1 < (β i + s).re := by
      intro i
      rw [Complex.add_re]
      linarith [hB i, le_max_right c B]
    beta_reduce
    rw [hMe _ z hz hb, h6 s (lt_of_le_of_lt (le_max_left _ _) hs1) hs2, shift_integral, zeroOn_empty]
    ring
  · simp only [mem_ofPred_eq, Complex.zero_re]
    linarith [lt_min h1 hd]

/-- One pole factor has at most a simple zero. -/
theorem den_order (m : ℕ) (a : ℝ) (c : ℂ) (h : ∀ k : ℕ, a + k + 1 = 0 → c ≠ 0) :
    ∃ u : ℂ → ℂ, AnalyticAt ℂ u 0 ∧ ∀ᶠ z in 𝓝[≠] (0 : ℂ), den m (a + c * z) ≠ 0 ∧ z / den m (a + c * z) = u z := by
  have haff : ∀ b : ℂ, AnalyticAt ℂ (fun z : ℂ => b + c * z) 0 := fun b => analyticAt_const.add (analyticAt_const.mul analyticAt_id)
  have hpr : ∀ S : Finset ℕ, AnalyticAt ℂ (fun z : ℂ => ∏ k ∈ S, ((a : ℂ) + c * z + k + 1)) 0 := by
    intro S
    refine (Finset.analyticAt_fun_prod S fun k _ => haff (a + k + 1)).congr (Eventually.of_forall fun z => ?_)
    exact Finset.prod_congr rfl fun k _ => by ring
  have hne : ∀ S : Finset ℕ, (∀ k ∈ S, a + k + 1 ≠ 0) → ∏ k ∈ S, ((a : ℂ) + c * 0 + k + 1) ≠ 0 := by
    intro S hS
    refine Finset.prod_ne_zero_iff.2 fun k hk => ?_
    rw [mul_zero, add_zero]
    exact_mod_cast hS k hk
  by_cases hex : ∃ k ∈ Finset.range m, a + k + 1 = 0
  · obtain ⟨k, hk, hk0⟩ := hex
    have hc := h k hk0
    have hD : ∀ z, den m (a + c * z) = (c * z) * ∏ k' ∈ (Finset.range m).erase k, ((a : ℂ) + c * z + k' + 1) := by
      intro z
      unfold den
      rw [← Finset.mul_prod_erase _ _ hk]
      congr 1
      have : (a : ℂ) + k + 1 = 0 := by exact_mod_cast hk0
      linear_combination this
    have h0 := hne ((Finset.range m).erase k) fun k' hk' h' => Finset.ne_of_mem_erase hk' (by
      have : (k' : ℝ) = k := by linarith
      exact_mod_cast this)
    refine ⟨fun z => (c * ∏ k' ∈ (Finset.range m).erase k, ((a : ℂ) + c * z + k' + 1))⁻¹, ?_, ?_⟩
    · exact (analyticAt_const.mul (hpr _)).inv (mul_ne_zero hc h0)
    · have hev := (hpr ((Finset.range m).erase k)).continuousAt.eventually_ne h0
      filter_upwards [nhdsWithin_le_nhds hev, self_mem_nhdsWithin] with z hz hz0
      have hz0' : z ≠ 0 := hz0
      rw [hD]
      refine ⟨mul_ne_zero (mul_ne_zero hc hz0') hz, ?_⟩
      field_simp
  · push Not at hex
    have h0 := hne (Finset.range m) hex
    refine ⟨fun z => z * (den m (a + c * z))⁻¹, analyticAt_id.mul ((hpr _).inv h0), ?_⟩
    have hev := (hpr (Finset.range m)).continuousAt.eventually_ne h0
    filter_upwards [nhdsWithin_le_nhds hev] with z hz
    exact ⟨hz, div_eq_mul_inv _ _⟩

/-- The order of the poles. -/
theorem regulated_order (hG : Ana Z G) (hZ : IsOpen Z) (h0 : (0 : ℂ) ∈ Z) (a : Fin N → ℝ) (c : Fin N → ℂ)
    (hreg : ∀ i, ∀ k : ℕ, a i + k + 1 = 0 → c i ≠ 0) {J : ℂ → ℂ}
    (hJ : ∀ᶠ z in 𝓝[≠] (0 : ℂ), Regulated (fun t => (∏ i, (t i : ℂ) ^ ((a i : ℂ) + c i * z)) * G (fun i => (t i : ℂ)) z) (J z)) :
    ∃ K, AnalyticAt ℂ K 0 ∧ ∀ᶠ z in 𝓝[≠] (0 : ℂ), J z = z ^ (-(((List.finRange N).filter fun i => a i < 0).length : ℤ)) * K z := by
  set S := (List.finRange N).filter fun i => a i < 0 with hS
  have hnd : S.Nodup := (List.nodup_finRange N).filter _
  have hmem : ∀ i, i ∈ S ↔ a i < 0 := fun i => by simp [hS]
  obtain ⟨m, hm⟩ : ∃ m : ℕ, ∀ i, -(a i) < m := by
    obtain ⟨B, hB⟩ := (finite_range fun i => -(a i)).bddAbove
    obtain ⟨m, hm⟩ := exists_nat_gt B
    exact ⟨m, fun i => lt_of_le_of_lt (hB ⟨i, rfl⟩) hm⟩
  obtain ⟨M, hM, hMe⟩ := continuation (Z := Z) m S hnd G hG ∅ (by simp)
  -- near zero
  have hnear : ∀ᶠ z in 𝓝 (0 : ℂ), z ∈ Z ∧ ∀ i, (if i ∈ S then -1 - (m : ℝ) else -1) < ((a i : ℂ) + c i * z).re - 1 / 4 := by
    refine Filter.Eventually.and (hZ.mem_nhds h0) ?_
    rw [eventually_all]
    intro i
    have hcont : ContinuousAt (fun z : ℂ => ((a i : ℂ) + c i * z).re - 1 / 4) 0 := by fun_prop
    refine hcont.eventually_const_lt ?_
    simp only [mul_zero, add_zero, Complex.ofReal_re]
    by_cases hi : i ∈ S
    · rw [if_pos hi]; linarith [hm i]
    · rw [if_neg hi]
      have := mt (hmem i).2 hi
      linarith
  have hMan : AnalyticAt ℂ (fun z => M (fun i => (a i : ℂ) + c i * z) z) 0 := by
    obtain ⟨r, hr, hball⟩ := Metric.eventually_nhds_iff_ball.1 hnear
    refine DifferentiableOn.analyticAt (s := ball 0 r) ?_ (ball_mem_nhds _ hr)
    refine hM _ isOpen_ball (fun z i => (a i : ℂ) + c i * z) id ?_ differentiableOn_id ?_
    · exact (differentiable_pi.2 fun i => (differentiable_const _).add ((differentiable_const _).mul differentiable_id)).differentiableOn
    · intro z hz
      refine ⟨(hball z hz).1, fun i => ?_⟩
      linarith [(hball z hz).2 i]
  choose u hu1 hu2 using fun i => den_order m (a i) (c i) (hreg i)
  refine ⟨fun z => M (fun i => (a i : ℂ) + c i * z) z * (S.map fun i => u i z).prod, ?_, ?_⟩
  · refine hMan.mul ?_
    clear_value S
    clear hnd hmem hM hMe hnear hS
    induction S with
    | nil => simpa using analyticAt_const
    | cons i S ih =>
      simp only [List.map_cons, List.prod_cons]
      exact (hu1 i).mul ih
  · filter_upwards [hJ, nhdsWithin_le_nhds hnear, self_mem_nhdsWithin, eventually_all.2 hu2] with z h1 h2 h3 h4
    have h3' : z ≠ 0 := h3
    have hv := regulated_value hM hMe h2.1 (d := 1 / 4) (by norm_num) h2.2 h1
    have hprod : (S.map fun i => u i z).prod * (S.map fun i => den m ((a i : ℂ) + c i * z)).prod = z ^ S.length := by
      clear_value S
      clear hnd hmem hM hMe hnear hS hv h2
      induction S with
      | nil => simp
      | cons i S ih =>
        have := (h4 i).2
        rw [div_eq_iff (h4 i).1] at this
        simp only [List.map_cons, List.prod_cons, List.length_cons, pow_succ]
        rw [← ih]
        linear_combination ((List.map (fun i => u i z) S).prod * (List.map (fun i => den m ((a i : ℂ) + c i * z)) S).prod) * (-this)
    rw [zpow_neg, zpow_natCast]
    beta_reduce
    rw [← hv, mul_assoc (J z), mul_comm (List.prod _) (List.prod _), hprod]
    field_simp

/-- The regulated value exists, unless one of the powers is a negative integer. -/
theorem regulated_exists (hG : Ana Z G) {z : ℂ} (hz : z ∈ Z) {β : Fin N → ℂ} (hβ : ∀ i, ∀ k : ℕ, β i + k + 1 ≠ 0) :
    ∃ v, Regulated (fun t => (∏ i, (t i : ℂ) ^ (β i)) * G (fun i => (t i : ℂ)) z) v := by
  obtain ⟨m, hm⟩ : ∃ m : ℕ, ∀ i, -(β i).re < m := by
    obtain ⟨B, hB⟩ := (finite_range fun i => -(β i).re).bddAbove
    obtain ⟨m, hm⟩ := exists_nat_gt B
    exact ⟨m, fun i => lt_of_le_of_lt (hB ⟨i, rfl⟩) hm⟩
  obtain ⟨B, hB⟩ : ∃ B : ℝ, ∀ i, -1 - (β i).re < B := by
    obtain ⟨B, hB⟩ := (finite_range fun i => -1 - (β i).re).bddAbove
    exact ⟨B + 1, fun i => by have := hB ⟨i, rfl⟩; linarith⟩
  obtain ⟨M, hM, hMe⟩ := continuation (Z := Z) m (List.finRange N) (List.nodup_finRange N) G hG ∅ (by simp)
  have hf : Differentiable ℂ (fun s => ((List.finRange N).map fun i => den m (β i + s)).prod) :=
    listProd_differentiable fun i => (den_differentiable m).comp ((differentiable_const (β i)).add differentiable_id)
  set D : ℂ → ℂ := fun s => ((List.finRange N).map fun i => den m (β i + s)).prod with hD
  have hDz : ∀ s, D s = 0 ↔ ∃ i, ∃ k ∈ Finset.range m, β i + s + k + 1 = 0 := by
    intro s
    simp only [hD, List.prod_eq_zero_iff, List.mem_map, List.mem_finRange, true_and, den, Finset.prod_eq_zero_iff]
  set E : Set ℂ := {s | D s = 0} with hE
  have hEfin : E.Finite := by
    refine (Set.toFinite ((fun p : Fin N × Fin m => -(β p.1 + (p.2 : ℕ) + 1)) '' univ)).subset ?_
    intro s hs
    obtain ⟨i, k, hk, h⟩ := (hDz s).1 hs
    exact ⟨(i, ⟨k, Finset.mem_range.1 hk⟩), trivial, by simp only; linear_combination -h⟩
  have hE0 : (0 : ℂ) ∉ E := by
    intro h
    obtain ⟨i, k, -, h⟩ := (hDz 0).1 h
    exact hβ i k (by simpa using h)
  refine ⟨M β z / D 0, 1, B, E, fun s => M (fun i => β i + s) z / D s, one_pos, hEfin.countable, hEfin.isClosed, hE0, ?_, ?_, ?_, by simp⟩
  · refine DifferentiableOn.div (DifferentiableOn.mono ?_ sdiff_subset) hf.differentiableOn fun s hs => hs.2
    refine hM _ (isOpen_lt continuous_const Complex.continuous_re) (fun s i => β i + s) (fun _ => z) (differentiable_shift β).differentiableOn
      (differentiableOn_const _) ?_
    intro s hs
    refine ⟨hz, fun i => ?_⟩
    beta_reduce
    rw [if_pos (List.mem_finRange i), Complex.add_re]
    simp only [mem_ofPred_eq] at hs
    linarith [hm i]
  · intro s hs
    rw [cubeIntegrable_oc]
    refine (integrable hG (β := fun i => β i + s) (fun i => ?_) hz).congr_fun (fun t ht => ?_) measurableSet_oc
    · rw [Complex.add_re]; linarith [hB i]
    · exact (shift_integrand β s _ ht).symm
  · intro s hs hsE
    have hb : ∀ i, -1 < (β i + s).re := by intro i; rw [Complex.add_re]; linarith [hB i]
    beta_reduce
    rw [hMe _ z hz hb, zeroOn_empty, shift_integral]
    exact mul_div_cancel_left₀ _ hsE

/-- A convergent integral is its regulated value. -/
theorem regulated_convergent (hG : Ana Z G) {z : ℂ} (hz : z ∈ Z) {β : Fin N → ℂ} (hβ : ∀ i, -1 < (β i).re) :
    Regulated (fun t => (∏ i, (t i : ℂ) ^ (β i)) * G (fun i => (t i : ℂ)) z)
      (cubeIntegral fun t => (∏ i, (t i : ℂ) ^ (β i)) * G (fun i => (t i : ℂ)) z) := by
  have hne : ∃ d : ℝ, 0 < d ∧ ∀ i, -1 < (β i).re - d := by
    obtain ⟨B, hB⟩ : ∃ B : ℝ, 0 < B ∧ ∀ i, B ≤ 1 + (β i).re := by
      by_cases hN : Nonempty (Fin N)
      · obtain ⟨i, hi⟩ := Finite.exists_min fun i => 1 + (β i).re
        exact ⟨1 + (β i).re, by linarith [hβ i], hi⟩
      · exact ⟨1, one_pos, fun i => (hN ⟨i⟩).elim⟩
    exact ⟨B / 2, half_pos hB.1, fun i => by linarith [hB.2 i]⟩
  obtain ⟨d, hd, hd2⟩ := hne
  refine ⟨d, 0, ∅, fun s => II (fun i => β i + s) G z, hd, countable_empty, isClosed_empty, by simp, ?_, ?_, ?_, ?_⟩
  · rw [sdiff_empty]
    refine hol_base hG _ (isOpen_lt continuous_const Complex.continuous_re) (fun s i => β i + s) (fun _ => z) (differentiable_shift β).differentiableOn
      (differentiableOn_const _) ?_
    intro s hs
    refine ⟨hz, fun i => ?_⟩
    simp only [mem_ofPred_eq] at hs
    rw [Complex.add_re]; linarith [hd2 i]
  · intro s hs
    rw [cubeIntegrable_oc]
    refine (integrable hG (β := fun i => β i + s) (fun i => ?_) hz).congr_fun (fun t ht => ?_) measurableSet_oc
    · rw [Complex.add_re]; linarith [hβ i]
    · exact (shift_integrand β s _ ht).symm
  · intro s _ _
    rw [shift_integral]
  · rw [cubeIntegral_oc]; simp [II]

end SecDec.AnalyticReg
