import Mathlib.Analysis.Calculus.FDeriv.Symmetric
import Mathlib.Analysis.Calculus.FDeriv.Analytic
import Mathlib.Analysis.Calculus.Deriv.Pi
import Mathlib.Analysis.Calculus.MeanValue
import Mathlib.Analysis.SpecialFunctions.Complex.Analytic
import Mathlib.Analysis.Complex.RealDeriv
import Verif.Spec.Subtraction
set_option linter.unusedSectionVars false
namespace SecDec.Subtraction
open Set

section general
variable {n : Nat} {f g : (Fin n → ℂ) → ℂ} {U : Set (Fin n → ℂ)}

/-- Partial derivative. -/
noncomputable def pd (j : Fin n) (f : (Fin n → ℂ) → ℂ) (x : Fin n → ℂ) : ℂ :=
  fderiv ℂ f x (Pi.single j 1)

theorem hasDerivAt_pd' {x : Fin n → ℂ} (hf : AnalyticAt ℂ f x) (j : Fin n) :
    HasDerivAt (fun s => f (Function.update x j s)) (pd j f x) (x j) := by
  have h1 : HasFDerivAt f (fderiv ℂ f x) (Function.update x j (x j)) := by
    rw [Function.update_eq_self]; exact hf.differentiableAt.hasFDerivAt
  exact h1.comp_hasDerivAt (x j) (hasDerivAt_update x j (x j))

theorem pd_eq_of_hasDerivAt {x : Fin n → ℂ} (hf : AnalyticAt ℂ f x) {j : Fin n} {d : ℂ}
    (h : HasDerivAt (fun s => f (Function.update x j s)) d (x j)) : pd j f x = d :=
  (hasDerivAt_pd' hf j).unique h

theorem pd_analytic (hf : AnalyticOnNhd ℂ f U) (j : Fin n) : AnalyticOnNhd ℂ (pd j f) U := by
  intro x hx
  have h := (hf x hx).fderiv
  exact ((ContinuousLinearMap.apply ℂ ℂ (Pi.single j (1:ℂ) : Fin n → ℂ)).analyticAt _).comp h

theorem pd_comm {x : Fin n → ℂ} (hf : AnalyticAt ℂ f x) (j k : Fin n) :
    pd k (pd j f) x = pd j (pd k f) x := by
  have hs : IsSymmSndFDerivAt ℂ f x :=
    ContDiffAt.isSymmSndFDerivAt_of_omega hf.contDiffAt
  have hd : DifferentiableAt ℂ (fderiv ℂ f) x := hf.fderiv.differentiableAt
  have key : ∀ v w : Fin n → ℂ, fderiv ℂ (fun y => fderiv ℂ f y v) x w = fderiv ℂ (fderiv ℂ f) x w v := by
    intro v w
    have h := hd.hasFDerivAt.clm_apply (hasFDerivAt_const v x)
    rw [h.fderiv]; simp
  show fderiv ℂ (fun y => fderiv ℂ f y _) x _ = fderiv ℂ (fun y => fderiv ℂ f y _) x _
  rw [key, key]
  exact hs _ _

theorem pd_congr (hU : IsOpen U) (h : EqOn f g U) (j : Fin n) : EqOn (pd j f) (pd j g) U := by
  intro x hx
  have : f =ᶠ[nhds x] g := Filter.eventuallyEq_of_mem (hU.mem_nhds hx) h
  simp only [pd, this.fderiv_eq]

theorem pdn_congr (hU : IsOpen U) (h : EqOn f g U) (j : Fin n) (q : ℕ) :
    EqOn ((pd j)^[q] f) ((pd j)^[q] g) U := by
  induction q with
  | zero => exact h
  | succ q ih => rw [Function.iterate_succ_apply', Function.iterate_succ_apply']; exact pd_congr hU ih j

theorem pdn_analytic (hf : AnalyticOnNhd ℂ f U) (j : Fin n) (q : ℕ) : AnalyticOnNhd ℂ ((pd j)^[q] f) U := by
  induction q with
  | zero => exact hf
  | succ q ih => rw [Function.iterate_succ_apply']; exact pd_analytic ih j

theorem pdn_pd_comm (hU : IsOpen U) (hf : AnalyticOnNhd ℂ f U) (j k : Fin n) (q : ℕ) :
    EqOn ((pd k)^[q] (pd j f)) (pd j ((pd k)^[q] f)) U := by
  induction q with
  | zero => exact fun x _ => rfl
  | succ q ih =>
    rw [Function.iterate_succ_apply', Function.iterate_succ_apply']
    intro x hx
    rw [pd_congr hU ih k hx]
    exact pd_comm (pdn_analytic hf k q x hx) j k

/-- Set a variable to zero. -/
def zs (j : Fin n) (f : (Fin n → ℂ) → ℂ) (x : Fin n → ℂ) : ℂ := f (Function.update x j 0)

/-- The points which are in `U` together with their projection. -/
def dom0 (j : Fin n) (U : Set (Fin n → ℂ)) : Set (Fin n → ℂ) := {x | Function.update x j 0 ∈ U}

theorem continuous_upd (j : Fin n) (c : ℂ) : Continuous (fun x : Fin n → ℂ => Function.update x j c) :=
  continuous_id.update j continuous_const

theorem isOpen_dom0 (hU : IsOpen U) (j : Fin n) : IsOpen (dom0 j U) := hU.preimage (continuous_upd j 0)

theorem analyticAt_proj (i : Fin n) (x : Fin n → ℂ) : AnalyticAt ℂ (fun y : Fin n → ℂ => y i) x :=
  (ContinuousLinearMap.proj (R := ℂ) (φ := fun _ : Fin n => ℂ) i).analyticAt x

theorem analyticAt_upd (j : Fin n) (c : ℂ) (x : Fin n → ℂ) :
    AnalyticAt ℂ (fun x : Fin n → ℂ => Function.update x j c) x := by
  apply AnalyticAt.pi
  intro i
  by_cases h : i = j
  · subst h; simp only [Function.update_self]; exact analyticAt_const
  · simp only [Function.update_of_ne h]; exact analyticAt_proj i x

theorem upd_analytic (hf : AnalyticOnNhd ℂ f U) (j : Fin n) (c : ℂ) :
    AnalyticOnNhd ℂ (fun x => f (Function.update x j c)) {x | Function.update x j c ∈ U} := by
  intro x hx
  exact AnalyticAt.comp' (hf _ hx) (analyticAt_upd j c x)

theorem zs_analytic (hf : AnalyticOnNhd ℂ f U) (j : Fin n) : AnalyticOnNhd ℂ (zs j f) (dom0 j U) :=
  upd_analytic hf j 0

theorem pd_zs (hf : AnalyticOnNhd ℂ f U) {j k : Fin n} (hkj : k ≠ j) :
    EqOn (pd k (zs j f)) (zs j (pd k f)) (dom0 j U) := by
  intro x hx
  refine pd_eq_of_hasDerivAt (zs_analytic hf j x hx) ?_
  have h := hasDerivAt_pd' (hf _ hx) k
  rw [Function.update_of_ne hkj] at h
  refine h.congr_of_eventuallyEq (Filter.Eventually.of_forall fun s => ?_)
  simp only [zs]
  rw [Function.update_comm hkj]

theorem pdn_zs (hU : IsOpen U) (hf : AnalyticOnNhd ℂ f U) {j k : Fin n} (hkj : k ≠ j) (q : ℕ) :
    EqOn ((pd k)^[q] (zs j f)) (zs j ((pd k)^[q] f)) (dom0 j U) := by
  induction q with
  | zero => exact fun x _ => rfl
  | succ q ih =>
    rw [Function.iterate_succ_apply', Function.iterate_succ_apply']
    intro x hx
    rw [pd_congr (isOpen_dom0 hU j) ih k hx]
    exact pd_zs (pdn_analytic hf k q) hkj hx

theorem pd_zs_same (hf : AnalyticOnNhd ℂ f U) (j : Fin n) :
    EqOn (pd j (zs j f)) (fun _ => 0) (dom0 j U) := by
  intro x hx
  refine pd_eq_of_hasDerivAt (zs_analytic hf j x hx) ?_
  simp only [zs, Function.update_idem]
  exact hasDerivAt_const _ _

/-- The Taylor polynomial in the variable `j` at zero, with `m` terms. -/
noncomputable def taylor (j : Fin n) (m : ℕ) (f : (Fin n → ℂ) → ℂ) (x : Fin n → ℂ) : ℂ :=
  ∑ p ∈ Finset.range m, x j ^ p / (p.factorial : ℂ) * zs j ((pd j)^[p] f) x

/-- The remainder of the Taylor expansion. -/
noncomputable def rem (j : Fin n) (m : ℕ) (f : (Fin n → ℂ) → ℂ) (x : Fin n → ℂ) : ℂ :=
  f x - taylor j m f x

theorem taylor_term_analytic (hf : AnalyticOnNhd ℂ f U) (j : Fin n) (p : ℕ) :
    AnalyticOnNhd ℂ (fun x => x j ^ p / (p.factorial : ℂ) * zs j ((pd j)^[p] f) x) (dom0 j U) := by
  intro x hx
  exact (((analyticAt_proj j x).pow p).div analyticAt_const (by exact_mod_cast p.factorial_ne_zero)).mul
    (zs_analytic (pdn_analytic hf j p) j x hx)

theorem taylor_analytic (hf : AnalyticOnNhd ℂ f U) (j : Fin n) (m : ℕ) :
    AnalyticOnNhd ℂ (taylor j m f) (dom0 j U) := by
  intro x hx
  exact Finset.analyticAt_fun_sum _ (fun p _ => taylor_term_analytic hf j p x hx)

theorem rem_analytic (hf : AnalyticOnNhd ℂ f U) (j : Fin n) (m : ℕ) :
    AnalyticOnNhd ℂ (rem j m f) (U ∩ dom0 j U) :=
  fun x hx => (hf x hx.1).sub (taylor_analytic hf j m x hx.2)

/-- Differentiating the remainder in the same variable. -/
theorem pd_rem_same (hf : AnalyticOnNhd ℂ f U) (j : Fin n) (m : ℕ) :
    EqOn (pd j (rem j (m+1) f)) (rem j m (pd j f)) (U ∩ dom0 j U) := by
  intro x hx
  refine pd_eq_of_hasDerivAt (rem_analytic hf j (m+1) x hx) ?_
  unfold rem taylor
  refine (hasDerivAt_pd' (hf x hx.1) j).sub ?_
  have h0 : ∀ s : ℂ, ∀ p, zs j ((pd j)^[p] f) (Function.update x j s) = zs j ((pd j)^[p] f) x := by
    intro s p; simp only [zs, Function.update_idem]
  simp only [Finset.sum_range_succ', h0, Function.update_self]
  rw [← add_zero (∑ k ∈ Finset.range m, _)]
  refine HasDerivAt.add ?_ ?_
  · apply HasDerivAt.fun_sum
    intro p _
    have := (((hasDerivAt_pow (p+1) (x j)).div_const ((p+1).factorial : ℂ)).mul_const
      (zs j ((pd j)^[p+1] f) x))
    refine this.congr_deriv ?_
    rw [Function.iterate_succ_apply, Nat.factorial_succ]
    have : (p.factorial : ℂ) ≠ 0 := by exact_mod_cast p.factorial_ne_zero
    have : ((p:ℂ) + 1) ≠ 0 := by exact_mod_cast Nat.succ_ne_zero p
    push_cast
    field_simp
  · simp only [pow_zero]; exact hasDerivAt_const _ _

theorem rem_at_zero (j : Fin n) (m : ℕ) (x : Fin n → ℂ) (hx : x j = 0) : rem j (m+1) f x = 0 := by
  have hz : Function.update x j 0 = x := by rw [← hx]; exact Function.update_eq_self j x
  simp [rem, taylor, Finset.sum_range_succ', hx, zs, hz]

theorem pdn_rem_same (hU : IsOpen U) (hf : AnalyticOnNhd ℂ f U) (j : Fin n) (q m : ℕ) :
    EqOn ((pd j)^[q] (rem j (m+q) f)) (rem j m ((pd j)^[q] f)) (U ∩ dom0 j U) := by
  induction q generalizing m with
  | zero => exact fun x _ => rfl
  | succ q ih =>
    rw [Function.iterate_succ_apply', Function.iterate_succ_apply']
    intro x hx
    have h2 : m + (q+1) = (m+1) + q := by omega
    rw [h2, pd_congr (hU.inter (isOpen_dom0 hU j)) (ih (m+1)) j hx]
    exact pd_rem_same (pdn_analytic hf j q) j m hx

/-- Differentiating the remainder in another variable. -/
theorem pd_rem_other (hU : IsOpen U) (hf : AnalyticOnNhd ℂ f U) {j k : Fin n} (hkj : k ≠ j) (m : ℕ) :
    EqOn (pd k (rem j m f)) (rem j m (pd k f)) (U ∩ dom0 j U) := by
  intro x hx
  refine pd_eq_of_hasDerivAt (rem_analytic hf j m x hx) ?_
  unfold rem taylor
  refine (hasDerivAt_pd' (hf x hx.1) k).sub ?_
  apply HasDerivAt.fun_sum
  intro p _
  have h1 := hasDerivAt_pd' (zs_analytic (pdn_analytic hf j p) j x hx.2) k
  simp only [Function.update_of_ne (Ne.symm hkj)]
  refine (h1.const_mul _).congr_deriv ?_
  rw [pd_zs (pdn_analytic hf j p) hkj hx.2]
  simp only [zs]
  rw [pdn_pd_comm hU hf k j p hx.2]

theorem pdn_rem_other (hU : IsOpen U) (hf : AnalyticOnNhd ℂ f U) {j k : Fin n} (hkj : k ≠ j) (m q : ℕ) :
    EqOn ((pd k)^[q] (rem j m f)) (rem j m ((pd k)^[q] f)) (U ∩ dom0 j U) := by
  induction q with
  | zero => exact fun x _ => rfl
  | succ q ih =>
    rw [Function.iterate_succ_apply', Function.iterate_succ_apply']
    intro x hx
    rw [pd_congr (hU.inter (isOpen_dom0 hU j)) ih k hx]
    exact pd_rem_other hU (pdn_analytic hf k q) hkj m hx

end general

section cube
variable {N R : Nat} {ε : Fin R → ℂ} {f g : (Fin (N + R) → ℂ) → ℂ}

/-- The point `x` is a point of the closed cube. -/
def Covers (ε : Fin R → ℂ) (U : Set (Fin (N + R) → ℂ)) : Prop :=
  ∀ t ∈ Icc (0 : Fin N → ℝ) 1, point ε t ∈ U

theorem point_castAdd (t : Fin N → ℝ) (j : Fin N) : point ε t (Fin.castAdd R j) = (t j : ℂ) := by
  simp [point]

theorem point_natAdd (t : Fin N → ℝ) (j : Fin R) : point ε t (Fin.natAdd N j) = ε j := by
  simp [point]

theorem point_update (t : Fin N → ℝ) (j : Fin N) (s : ℝ) :
    point ε (Function.update t j s) = Function.update (point ε t) (Fin.castAdd R j) (s : ℂ) := by
  funext i
  refine Fin.addCases (fun i => ?_) (fun i => ?_) i
  · rw [point_castAdd]
    by_cases h : i = j
    · subst h; simp
    · rw [Function.update_of_ne h, Function.update_of_ne (by
        intro hh; exact h (Fin.castAdd_injective N R hh)), point_castAdd]
  · rw [point_natAdd, Function.update_of_ne (by
      intro hh
      have := congrArg Fin.val hh
      simp at this; omega), point_natAdd]

theorem update_mem_cube {t : Fin N → ℝ} (ht : t ∈ Icc (0 : Fin N → ℝ) 1) (j : Fin N) {s : ℝ}
    (hs : s ∈ Icc (0:ℝ) 1) : Function.update t j s ∈ Icc (0 : Fin N → ℝ) 1 := by
  constructor <;> intro i <;> by_cases h : i = j
  · subst h; simpa using hs.1
  · simpa [Function.update_of_ne h] using ht.1 i
  · subst h; simpa using hs.2
  · simpa [Function.update_of_ne h] using ht.2 i

theorem Covers.dom0 {U : Set (Fin (N + R) → ℂ)} (h : Covers ε U) (j : Fin N) :
    Covers ε (dom0 (Fin.castAdd R j) U) := by
  intro t ht
  have := h _ (update_mem_cube ht j (s := 0) ⟨le_refl _, zero_le_one⟩)
  rw [point_update] at this
  simpa [Subtraction.dom0] using this

theorem Covers.inter {U V : Set (Fin (N + R) → ℂ)} (h : Covers ε U) (h' : Covers ε V) : Covers ε (U ∩ V) :=
  fun t ht => ⟨h t ht, h' t ht⟩

/-- Analytic on a neighbourhood of the closed cube. -/
def An (ε : Fin R → ℂ) (f : (Fin (N + R) → ℂ) → ℂ) : Prop :=
  ∃ U, IsOpen U ∧ Covers ε U ∧ AnalyticOnNhd ℂ f U

/-- The derivatives in the variable `k` of order less than `m` vanish at `x_k = 0`. -/
def Van (ε : Fin R → ℂ) (f : (Fin (N + R) → ℂ) → ℂ) (k : Fin N) (m : ℕ) : Prop :=
  ∀ q < m, ∀ t ∈ Icc (0 : Fin N → ℝ) 1, t k = 0 → (pd (Fin.castAdd R k))^[q] f (point ε t) = 0

theorem castAdd_ne {j k : Fin N} (h : j ≠ k) : Fin.castAdd R j ≠ Fin.castAdd R k :=
  fun hh => h (Fin.castAdd_injective N R hh)

theorem Van.congr {U : Set (Fin (N + R) → ℂ)} (hU : IsOpen U) (hc : Covers ε U) (h : EqOn f g U) {k : Fin N} {m : ℕ}
    (hv : Van ε f k m) : Van ε g k m := by
  intro q hq t ht htk
  rw [← pdn_congr hU h _ q (hc t ht)]
  exact hv q hq t ht htk

/-- A holomorphic function vanishing on the unit interval has vanishing derivative there. -/
theorem deriv_zero_of_zero_on {h : ℂ → ℂ} {d : ℂ} {a : ℝ} (ha : a ∈ Icc (0:ℝ) 1)
    (hd : HasDerivAt h d (a : ℂ)) (h0 : ∀ s ∈ Icc (0:ℝ) 1, h (s : ℂ) = 0) : d = 0 := by
  have h1 : HasDerivWithinAt (fun s : ℝ => h s) d (Icc 0 1) a := hd.comp_ofReal.hasDerivWithinAt
  have h2 : HasDerivWithinAt (fun s : ℝ => h s) 0 (Icc 0 1) a :=
    (hasDerivWithinAt_const a (Icc (0:ℝ) 1) (0:ℂ)).congr (fun s hs => h0 s hs) (h0 a ha)
  exact UniqueDiffWithinAt.eq_deriv _ (uniqueDiffOn_Icc zero_lt_one a ha) h1 h2

theorem Van.pd {U : Set (Fin (N + R) → ℂ)} (hU : IsOpen U) (hc : Covers ε U) (hf : AnalyticOnNhd ℂ f U)
    {j k : Fin N} (hjk : j ≠ k) {m : ℕ} (hv : Van ε f k m) : Van ε (pd (Fin.castAdd R j) f) k m := by
  intro q hq t ht htk
  rw [pdn_pd_comm hU hf _ _ q (hc t ht)]
  have hd := hasDerivAt_pd' (pdn_analytic hf (Fin.castAdd R k) q _ (hc t ht)) (Fin.castAdd R j)
  rw [point_castAdd] at hd
  refine deriv_zero_of_zero_on ⟨ht.1 j, ht.2 j⟩ hd ?_
  intro s hs
  rw [← point_update]
  refine hv q hq _ (update_mem_cube ht j hs) ?_
  rw [Function.update_of_ne (Ne.symm hjk)]; exact htk

theorem Van.pdn {U : Set (Fin (N + R) → ℂ)} (hU : IsOpen U) (hc : Covers ε U) (hf : AnalyticOnNhd ℂ f U)
    {j k : Fin N} (hjk : j ≠ k) {m : ℕ} (hv : Van ε f k m) (p : ℕ) :
    Van ε ((Subtraction.pd (Fin.castAdd R j))^[p] f) k m := by
  induction p with
  | zero => exact hv
  | succ p ih => rw [Function.iterate_succ_apply']; exact ih.pd hU hc (pdn_analytic hf _ p) hjk

theorem Van.zs {U : Set (Fin (N + R) → ℂ)} (hU : IsOpen U) (hc : Covers ε U) (hf : AnalyticOnNhd ℂ f U)
    {j k : Fin N} (hjk : j ≠ k) {m : ℕ} (hv : Van ε f k m) : Van ε (zs (Fin.castAdd R j) f) k m := by
  intro q hq t ht htk
  rw [pdn_zs hU hf (castAdd_ne (Ne.symm hjk)) q (hc.dom0 j t ht)]
  simp only [Subtraction.zs]
  have := hv q hq (Function.update t j 0) (update_mem_cube ht j ⟨le_refl _, zero_le_one⟩)
    (by rw [Function.update_of_ne (Ne.symm hjk)]; exact htk)
  rw [point_update] at this
  simpa using this

theorem Van.rem_same {U : Set (Fin (N + R) → ℂ)} (hU : IsOpen U) (hc : Covers ε U) (hf : AnalyticOnNhd ℂ f U)
    (j : Fin N) (m : ℕ) : Van ε (rem (Fin.castAdd R j) m f) j m := by
  intro q hq t ht htk
  obtain ⟨r, rfl⟩ : ∃ r, m = (r + 1) + q := ⟨m - q - 1, by omega⟩
  rw [pdn_rem_same hU hf _ q (r+1) ⟨hc t ht, hc.dom0 j t ht⟩]
  exact rem_at_zero _ _ _ (by rw [point_castAdd, htk]; simp)

theorem Van.rem_other {U : Set (Fin (N + R) → ℂ)} (hU : IsOpen U) (hc : Covers ε U) (hf : AnalyticOnNhd ℂ f U)
    {j k : Fin N} (hjk : j ≠ k) {m : ℕ} (hv : Van ε f k m) (r : ℕ) :
    Van ε (rem (Fin.castAdd R j) r f) k m := by
  intro q hq t ht htk
  rw [pdn_rem_other hU hf (castAdd_ne (Ne.symm hjk)) r q ⟨hc t ht, hc.dom0 j t ht⟩]
  unfold rem taylor
  rw [hv q hq t ht htk]
  rw [Finset.sum_eq_zero]
  · simp
  intro p hp
  clear hp
  have h1 := hv.pdn hU hc hf hjk p q hq (Function.update t j 0)
    (update_mem_cube ht j ⟨le_refl _, zero_le_one⟩) (by rw [Function.update_of_ne (Ne.symm hjk)]; exact htk)
  have hpt : point ε (Function.update t j 0) ∈ U := hc _ (update_mem_cube ht j ⟨le_refl _, zero_le_one⟩)
  -- exchange the derivatives
  have hex : EqOn ((Subtraction.pd (Fin.castAdd R k))^[q] ((Subtraction.pd (Fin.castAdd R j))^[p] f))
      ((Subtraction.pd (Fin.castAdd R j))^[p] ((Subtraction.pd (Fin.castAdd R k))^[q] f)) U := by
    clear h1
    induction p with
    | zero => exact fun x _ => rfl
    | succ p ih =>
      rw [Function.iterate_succ_apply', Function.iterate_succ_apply']
      intro x hx
      rw [pdn_pd_comm hU (pdn_analytic hf _ p) _ _ q hx]
      exact pd_congr hU ih _ hx
  rw [hex hpt, point_update] at h1
  simp only [Subtraction.zs]
  rw [Complex.ofReal_zero] at h1
  rw [h1]; simp

/-- Repeated remainder in the same variable keeps the vanishing order. -/
theorem Van.rem_same' {U : Set (Fin (N + R) → ℂ)} (hU : IsOpen U) (hc : Covers ε U) (hf : AnalyticOnNhd ℂ f U)
    {j : Fin N} {m : ℕ} (hv : Van ε f j m) (r : ℕ) (hr : r ≤ m) : EqOn (rem (Fin.castAdd R j) r f) f
      {x | ∃ t ∈ Icc (0 : Fin N → ℝ) 1, x = point ε t} := by
  rintro x ⟨t, ht, rfl⟩
  unfold rem taylor
  rw [Finset.sum_eq_zero]
  · simp
  intro p hp
  have := hv p (by have := Finset.mem_range.1 hp; omega) (Function.update t j 0)
    (update_mem_cube ht j ⟨le_refl _, zero_le_one⟩) (by simp)
  rw [point_update] at this
  simp only [Subtraction.zs]
  rw [Complex.ofReal_zero] at this
  rw [this]; simp

/-! ### The bound -/

theorem taylor_bound {m : ℕ} (G : ℕ → ℝ → ℂ) {C b : ℝ} (hb : 0 ≤ b)
    (hd : ∀ q, q < m → ∀ s ∈ Icc (0:ℝ) b, HasDerivWithinAt (G q) (G (q+1) s) (Icc 0 b) s)
    (h0 : ∀ q, q < m → G q 0 = 0) (hC : ∀ s ∈ Icc (0:ℝ) b, ‖G m s‖ ≤ C) :
    ∀ s ∈ Icc (0:ℝ) b, ‖G 0 s‖ ≤ C * s ^ m := by
  induction m generalizing G with
  | zero => intro s hs; simpa using hC s hs
  | succ m ih =>
    have h1 := ih (fun q => G (q+1)) (fun q hq s hs => hd (q+1) (by omega) s hs)
      (fun q hq => h0 (q+1) (by omega)) hC
    intro s hs
    have hsub : Icc (0:ℝ) s ⊆ Icc 0 b := Icc_subset_Icc_right hs.2
    have hC0 : 0 ≤ C := le_trans (norm_nonneg _) (hC s hs)
    have := Convex.norm_image_sub_le_of_norm_hasDerivWithin_le (f := G 0) (f' := G 1) (C := C * s ^ m)
      (s := Icc (0:ℝ) s) (x := 0) (y := s)
      (fun u hu => (hd 0 (by omega) u (hsub hu)).mono hsub)
      (fun u hu => (h1 u (hsub hu)).trans (mul_le_mul_of_nonneg_left (pow_le_pow_left₀ hu.1 hu.2 m) hC0))
      (convex_Icc 0 s) ⟨le_refl _, hs.1⟩ ⟨hs.1, le_refl _⟩
    rw [h0 0 (by omega), sub_zero, sub_zero, Real.norm_of_nonneg hs.1] at this
    rw [pow_succ]; linarith

theorem An.continuousOn_cube {U : Set (Fin (N + R) → ℂ)} (hc : Covers ε U) (hf : ContinuousOn f U) :
    ContinuousOn (fun t : Fin N → ℝ => f (point ε t)) (Icc 0 1) := by
  refine hf.comp (Continuous.continuousOn ?_) hc
  refine continuous_pi fun i => ?_
  refine Fin.addCases (fun i => ?_) (fun i => ?_) i
  · simp only [point_castAdd]; exact Complex.continuous_ofReal.comp (continuous_apply i)
  · simp only [point_natAdd]; exact continuous_const

theorem bound {U : Set (Fin (N + R) → ℂ)} (hU : IsOpen U) (hc : Covers ε U) (m : Fin N → ℕ) (S : Finset (Fin N)) :
    ∀ f : (Fin (N + R) → ℂ) → ℂ, AnalyticOnNhd ℂ f U → (∀ k ∈ S, Van ε f k (m k)) →
    ∃ C : ℝ, 0 ≤ C ∧ ∀ t ∈ Icc (0 : Fin N → ℝ) 1, ‖f (point ε t)‖ ≤ C * ∏ k ∈ S, t k ^ m k := by
  induction S using Finset.induction_on with
  | empty =>
    intro f hf _
    obtain ⟨C, hC⟩ := (isCompact_Icc (a := (0 : Fin N → ℝ)) (b := 1)).exists_bound_of_continuousOn
      (An.continuousOn_cube (ε := ε) hc hf.continuousOn)
    refine ⟨max C 0, le_max_right _ _, fun t ht => ?_⟩
    simpa using Or.inl (hC t ht)
  | insert k S hk ih =>
    intro f hf hv
    obtain ⟨C, hC0, hC⟩ := ih ((pd (Fin.castAdd R k))^[m k] f) (pdn_analytic hf _ _) (by
      intro i hi
      exact (hv i (Finset.mem_insert_of_mem hi)).pdn hU hc hf (by rintro rfl; exact hk hi) _)
    refine ⟨C, hC0, fun t ht => ?_⟩
    rw [Finset.prod_insert hk]
    have key := taylor_bound (m := m k) (fun q s => (pd (Fin.castAdd R k))^[q] f (point ε (Function.update t k s)))
      (C := C * ∏ i ∈ S, t i ^ m i) (b := 1) zero_le_one ?_ ?_ ?_ (t k) ⟨ht.1 k, ht.2 k⟩
    · simp only [Function.iterate_zero, id_eq, Function.update_eq_self] at key
      calc _ ≤ _ := key
        _ = _ := by ring
    · intro q hq s hs
      have hm := update_mem_cube ht k hs
      have hd := hasDerivAt_pd' (pdn_analytic hf (Fin.castAdd R k) q _ (hc _ hm)) (Fin.castAdd R k)
      rw [point_castAdd, Function.update_self] at hd
      have h2 := hd.comp_ofReal.hasDerivWithinAt (s := Icc (0:ℝ) 1)
      rw [← Function.iterate_succ_apply' (pd (Fin.castAdd R k))] at h2
      refine h2.congr_of_mem (fun u hu => ?_) hs
      simp only [point_update, Function.update_idem]
    · intro q hq
      refine hv k (Finset.mem_insert_self k S) q hq _ (update_mem_cube ht k ⟨le_refl _, zero_le_one⟩) (by simp)
    · intro s hs
      refine (hC _ (update_mem_cube ht k hs)).trans (le_of_eq ?_)
      congr 1
      refine Finset.prod_congr rfl fun i hi => ?_
      rw [Function.update_of_ne (by rintro rfl; exact hk hi)]

end cube
end SecDec.Subtraction
