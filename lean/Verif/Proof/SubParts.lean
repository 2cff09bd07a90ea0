import Verif.Proof.SubOrder
import Verif.Proof.ExprNonint
/-
Integration by parts: one step, and the integral identity.
-/
set_option linter.unusedSectionVars false
namespace SecDec.Subtraction
open Expr Set Decomp MeasureTheory

variable {N R : Nat} {F : Type} [Field F] [DecidableEq F] {φ : F →+* ℂ} {ε : Fin R → ℂ}

/-! ### The integral identity -/

/-- Integration by parts in one dimension. -/
theorem parts_1d {b : ℂ} (hb : -1 < b.re) (h h' : ℝ → ℂ) (hd : ∀ s ∈ Icc (0:ℝ) 1, HasDerivWithinAt h (h' s) (Icc 0 1) s)
    (hc : ContinuousOn h' (Icc 0 1)) :
    ∫ s in Ioo (0:ℝ) 1, (s : ℂ) ^ b * ((b + 1) * h s + s * h' s) = h 1 := by
  have hb1 : b + 1 ≠ 0 := by
    intro h0
    have := congrArg Complex.re h0
    simp at this; linarith
  have hre : 0 < (b + 1).re := by simp; linarith
  have hcont : ContinuousOn h (Icc 0 1) := fun s hs => (hd s hs).continuousWithinAt
  rw [← integral_Ioc_eq_integral_Ioo, ← intervalIntegral.integral_of_le zero_le_one]
  have hF : ∀ s ∈ Ioo (0:ℝ) 1, HasDerivAt (fun s : ℝ => (s : ℂ) ^ (b + 1) * h s)
      ((s : ℂ) ^ b * ((b + 1) * h s + s * h' s)) s := by
    intro s hs
    have hs0 : s ≠ 0 := hs.1.ne'
    have h1 : HasDerivAt (fun s : ℝ => (s : ℂ) ^ (b + 1)) ((b + 1) * (s : ℂ) ^ b) s := by
      have h0 := hasDerivAt_ofReal_cpow_const' (x := s) hs0 (r := b) (by intro h0; apply hb1; rw [h0]; ring)
      have h2 := h0.const_mul (b + 1)
      refine (h2.congr_of_eventuallyEq (Filter.Eventually.of_forall fun y => ?_))
      show (y : ℂ) ^ (b + 1) = (b + 1) * ((y : ℂ) ^ (b + 1) / (b + 1))
      field_simp
    have h2 : HasDerivAt h (h' s) s := (hd s ⟨hs.1.le, hs.2.le⟩).hasDerivAt (Icc_mem_nhds hs.1 hs.2)
    refine (h1.mul h2).congr_deriv ?_
    rw [Complex.cpow_add _ _ (by exact_mod_cast hs0), Complex.cpow_one]
    ring
  have hci : ContinuousOn (fun s : ℝ => (s : ℂ) ^ (b + 1) * h s) (Icc 0 1) := by
    refine ContinuousOn.mul ?_ hcont
    exact (Complex.continuous_ofReal_cpow_const hre).continuousOn
  have hint : IntervalIntegrable (fun s : ℝ => (s : ℂ) ^ b * ((b + 1) * h s + s * h' s)) volume 0 1 := by
    have h1 : IntervalIntegrable (fun s : ℝ => (s : ℂ) ^ b) volume 0 1 :=
      intervalIntegral.intervalIntegrable_cpow' hb
    refine h1.mul_continuousOn ?_
    rw [uIcc_of_le zero_le_one]
    exact (continuousOn_const.mul hcont).add (Complex.continuous_ofReal.continuousOn.mul hc)
  rw [intervalIntegral.integral_eq_sub_of_hasDerivAt_of_le zero_le_one hci hF hint]
  simp [Complex.zero_cpow hb1]

/-- Integrability on the cube after splitting off one coordinate. -/
theorem oc_fubini_integrable {M : ℕ} (j : Fin (M+1)) (f : (Fin (M+1) → ℝ) → ℂ) (hf : IntegrableOn f (oc (M+1))) :
    IntegrableOn (fun z : ℝ × (Fin M → ℝ) => f (j.insertNth z.1 z.2)) ((Ioo (0:ℝ) 1) ×ˢ (oc M)) := by
  set e : ℝ × (Fin M → ℝ) ≃ᵐ (Fin (M+1) → ℝ) := (MeasurableEquiv.piFinSuccAbove (fun _ => ℝ) j).symm
  have hem : MeasurePreserving e :=
    (volume_preserving_piFinSuccAbove (fun _ : Fin (M + 1) => ℝ) j).symm _
  have hpre : e ⁻¹' (oc (M+1)) = (Ioo (0:ℝ) 1) ×ˢ (oc M) := by
    ext z
    simp only [mem_preimage, mem_oc, mem_prod, mem_Ioo]
    have he : e z = j.insertNth z.1 z.2 := rfl
    rw [he]
    constructor
    · intro h
      refine ⟨by simpa using h j, fun i => by simpa using h (j.succAbove i)⟩
    · rintro ⟨h1, h2⟩ i
      refine Fin.succAboveCases j ?_ (fun i => ?_) i
      · simpa using h1
      · simpa using h2 i
  rw [← hpre]
  exact (hem.integrableOn_comp_preimage e.measurableEmbedding).2 hf

theorem insertNth_update {M : ℕ} (j : Fin (M+1)) (s s' : ℝ) (y : Fin M → ℝ) :
    Function.update (j.insertNth s y : Fin (M+1) → ℝ) j s' = j.insertNth s' y := by simp

theorem prod_insertNth {M : ℕ} (j : Fin (M+1)) (s : ℝ) (y : Fin M → ℝ) (A : Fin (M+1) → ℂ) :
    ∏ i, (((j.insertNth s y : Fin (M+1) → ℝ) i : ℝ) : ℂ) ^ (A i)
      = (s : ℂ) ^ (A j) * ∏ i, (y i : ℂ) ^ (A (j.succAbove i)) := by
  rw [Fin.prod_univ_succAbove _ j]; simp

/-- Integration by parts on the cube. -/
theorem parts_cube (A : Fin N → ℂ) (hA : ∀ i, -1 < (A i).re) (j : Fin N) (g g' : (Fin N → ℝ) → ℂ)
    (hg : ContinuousOn g (Icc 0 1)) (hg' : ContinuousOn g' (Icc 0 1))
    (hd : ∀ t ∈ Icc (0 : Fin N → ℝ) 1, HasDerivAt (fun s : ℝ => g (Function.update t j s)) (g' t) (t j)) :
    ∫ t in oc N, (∏ i, (t i : ℂ) ^ (A i)) * ((A j + 1) * g t + t j * g' t)
      = ∫ t in oc N, (∏ i, (t i : ℂ) ^ (if i = j then 0 else A i)) * g (Function.update t j 1) := by
  cases N with
  | zero => exact j.elim0
  | succ M =>
  have bdd : ∀ h : (Fin (M+1) → ℝ) → ℂ, ContinuousOn h (Icc 0 1) → ∃ C, ∀ t ∈ Icc (0 : Fin (M+1) → ℝ) 1, ‖h t‖ ≤ C * ∏ i, t i ^ (0:ℕ) := by
    intro h hh
    obtain ⟨C, hC⟩ := (isCompact_Icc (a := (0 : Fin (M+1) → ℝ)) (b := 1)).exists_bound_of_continuousOn hh
    exact ⟨C, fun t ht => by simpa using hC t ht⟩
  have hupd1 : ContinuousOn (fun t : Fin (M+1) → ℝ => g (Function.update t j 1)) (Icc 0 1) := by
    refine hg.comp (Continuous.continuousOn ?_) ?_
    · exact continuous_id.update j continuous_const
    · intro t ht; exact update_mem_cube ht j ⟨zero_le_one, le_refl _⟩
  have hL : IntegrableOn (fun t : Fin (M+1) → ℝ => (∏ i, (t i : ℂ) ^ (A i)) * ((A j + 1) * g t + t j * g' t)) (oc (M+1)) := by
    have hc : ContinuousOn (fun t : Fin (M+1) → ℝ => (A j + 1) * g t + t j * g' t) (Icc 0 1) := by
      refine (continuousOn_const.mul hg).add (ContinuousOn.mul ?_ hg')
      exact (Complex.continuous_ofReal.comp (continuous_apply j)).continuousOn
    obtain ⟨C, hC⟩ := bdd _ hc
    exact integrableOn_powers A (fun _ => 0) (by simpa using hA) _ hc C hC
  have hR : IntegrableOn (fun t : Fin (M+1) → ℝ => (∏ i, (t i : ℂ) ^ (if i = j then 0 else A i)) * g (Function.update t j 1)) (oc (M+1)) := by
    obtain ⟨C, hC⟩ := bdd _ hupd1
    refine integrableOn_powers (fun i => if i = j then 0 else A i) (fun _ => 0) ?_ _ hupd1 C hC
    intro i
    by_cases h : i = j
    · simp [h]
    · simpa [h] using hA i
  have hms : MeasurableSet ((Ioo (0:ℝ) 1) ×ˢ (oc M)) := measurableSet_Ioo.prod measurableSet_oc
  have hr : (volume : Measure (ℝ × (Fin M → ℝ))).restrict ((Ioo (0:ℝ) 1) ×ˢ (oc M))
      = (volume.restrict (Ioo (0:ℝ) 1)).prod (volume.restrict (oc M)) := by
    rw [Measure.volume_eq_prod, Measure.prod_restrict]
  have hL' := oc_fubini_integrable j _ hL
  have hR' := oc_fubini_integrable j _ hR
  rw [oc_fubini j, oc_fubini j]
  unfold IntegrableOn at hL' hR'
  rw [hr] at hL' hR' ⊢
  rw [integral_prod_symm _ hL', integral_prod_symm _ hR']
  refine setIntegral_congr_fun measurableSet_oc fun y hy => ?_
  have hmem : ∀ s ∈ Icc (0:ℝ) 1, (j.insertNth s y : Fin (M+1) → ℝ) ∈ Icc (0 : Fin (M+1) → ℝ) 1 := by
    intro s hs
    constructor <;> intro i
    · refine Fin.succAboveCases j ?_ (fun i => ?_) i
      · simpa using hs.1
      · simpa using ((mem_oc.1 hy) i).1.le
    · refine Fin.succAboveCases j ?_ (fun i => ?_) i
      · simpa using hs.2
      · simpa using ((mem_oc.1 hy) i).2.le
  have hcI : Continuous fun s : ℝ => (j.insertNth s y : Fin (M+1) → ℝ) := by
    have : (fun s : ℝ => (j.insertNth s y : Fin (M+1) → ℝ)) = fun s => Function.update (j.insertNth (0:ℝ) y : Fin (M+1) → ℝ) j s := by
      funext s; rw [insertNth_update]
    rw [this]
    exact continuous_const.update j continuous_id
  have h1 := parts_1d (hA j) (fun s => g (j.insertNth s y)) (fun s => g' (j.insertNth s y))
    (fun s hs => by
      have := hd _ (hmem s hs)
      simp only [insertNth_update, Fin.insertNth_apply_same] at this
      exact this.hasDerivWithinAt)
    (hg'.comp hcI.continuousOn hmem)
  show ∫ s in Ioo (0:ℝ) 1, _ = ∫ s in Ioo (0:ℝ) 1, _
  have l1 : ∀ s ∈ Ioo (0:ℝ) 1, (∏ i, (((j.insertNth s y : Fin (M+1) → ℝ) i : ℝ) : ℂ) ^ (A i)) * ((A j + 1) * g (j.insertNth s y)
        + ((j.insertNth s y : Fin (M+1) → ℝ) j : ℝ) * g' (j.insertNth s y))
      = (∏ i, (y i : ℂ) ^ (A (j.succAbove i))) * ((s : ℂ) ^ (A j) * ((A j + 1) * g (j.insertNth s y) + s * g' (j.insertNth s y))) := by
    intro s _
    rw [prod_insertNth]
    simp only [Fin.insertNth_apply_same]
    ring
  have l2 : ∀ s ∈ Ioo (0:ℝ) 1, (∏ i, (((j.insertNth s y : Fin (M+1) → ℝ) i : ℝ) : ℂ) ^ (if i = j then 0 else A i)) * g (Function.update (j.insertNth s y) j 1)
      = (∏ i, (y i : ℂ) ^ (A (j.succAbove i))) * g (j.insertNth 1 y) := by
    intro s _
    rw [prod_insertNth j s y (fun i => if i = j then 0 else A i), insertNth_update]
    simp
  rw [setIntegral_congr_fun measurableSet_Ioo l1, setIntegral_congr_fun measurableSet_Ioo l2,
    integral_const_mul, h1]
  simp

/-! ### The monomials -/

/-- A constant exponent is written as one term. -/
def CM (m : Monomial (N + R) F) : Prop := suitable m = true → m.exponent.terms.length = 1

theorem cleanExponents_iff (P : PolyProd (N + R) F) : CleanExponents P ↔ ∀ m ∈ P.monos, CM m := by
  unfold CleanExponents CM suitable
  constructor <;> intro h m hm h1 <;> refine h m hm ?_
  · simp only [Bool.and_eq_true, List.all_eq_true, decide_eq_true_eq] at h1
    exact fun t ht => ⟨h1.1 t ht, h1.2 t ht⟩
  · simp only [Bool.and_eq_true, List.all_eq_true, decide_eq_true_eq]
    exact ⟨fun t ht => (h1 t ht).1, fun t ht => (h1 t ht).2⟩

theorem suitable_terms {m : Monomial (N + R) F} (h : suitable m = true) (hc : CM m) :
    m.exponent.terms = [((fun _ => 0), 1)] := by
  have h1 := hc h
  obtain ⟨t, ht⟩ := List.length_eq_one_iff.1 h1
  simp only [suitable, Bool.and_eq_true, List.all_eq_true, decide_eq_true_eq] at h
  have a := h.1 t (by rw [ht]; simp)
  have b := h.2 t (by rw [ht]; simp)
  rw [ht, ← a, ← b]

/-- The result of `increase_monomial_power_by_one`: what changes is the column `j` of one monomial with
exponent one. -/
structure Incr (φ : F →+* ℂ) (j : Fin N) (ms ms' : List (Monomial (N + R) F)) : Prop where
  wm : ∀ m ∈ ms', WM φ m
  cm : ∀ m ∈ ms', CM m
  kappa : ∀ ε : Fin R → ℂ, kappa φ ε ms' = kappa φ ε ms
  pw : ∀ (ε : Fin R → ℂ) (i : Fin N), pw φ ε ms' i = pw φ ε ms i + if i = j then 1 else 0
  coef : ∀ (i : Fin N) (e : Expo (N + R)),
    (ms'.map (fun m => m.exponent.coeffOf e * ((m.expo (Fin.castAdd R i) : Int) : F))).sum
    = (ms.map (fun m => m.exponent.coeffOf e * ((m.expo (Fin.castAdd R i) : Int) : F))).sum
      + if i = j ∧ e = (fun _ => 0) then 1 else 0
  col : ∀ i : Fin N, i ≠ j → (∀ m ∈ ms, m.expo (Fin.castAdd R i) = 0) → ∀ m ∈ ms', m.expo (Fin.castAdd R i) = 0

theorem natAdd_ne_castAdd (i : Fin R) (j : Fin N) : Fin.natAdd N i ≠ Fin.castAdd R j := by
  intro h
  have := congrArg Fin.val h
  simp at this
  omega

theorem pev_one (x : Fin (N + R) → ℂ) : pev φ x (⟨[((fun _ => 0), 1)]⟩ : Poly (N + R) F) = 1 := by
  unfold pev; simp [mono_zero']

theorem coeffOf_one (e : Expo (N + R)) : (⟨[((fun _ => 0), 1)]⟩ : Poly (N + R) F).coeffOf e = if e = (fun _ => 0) then 1 else 0 := by
  unfold Poly.coeffOf
  by_cases h : e = fun _ => 0
  · subst h; simp
  · have h' : ¬ ((fun _ => 0 : Expo (N + R)) = e) := fun h' => h h'.symm
    simp [h, h']

theorem increaseFirst_spec {j : Fin N} : ∀ (ms ms' : List (Monomial (N + R) F)), (∀ m ∈ ms, WM φ m) → (∀ m ∈ ms, CM m) →
    increaseFirst (Fin.castAdd R j) ms = some ms' → Incr φ j ms ms' := by
  intro ms
  induction ms with
  | nil => intro ms' _ _ h; simp [increaseFirst] at h
  | cons m ms ih =>
    intro ms' hw hc h
    rw [increaseFirst] at h
    split at h
    · rename_i hs
      simp at h
      subst h
      have ht := suitable_terms hs (hc m (by simp))
      have he : m.exponent = ⟨[((fun _ => 0), 1)]⟩ := by
        cases hm : m.exponent with
        | mk l => rw [hm] at ht; simp at ht; rw [ht]
      have hW := hw m (by simp)
      refine ⟨?_, ?_, ?_, ?_, ?_, ?_⟩
      · intro m' hm'
        rcases List.mem_cons.1 hm' with rfl | hm'
        · refine ⟨hW.coeff, fun i => ?_, hW.exponent⟩
          show Function.update m.expo _ _ _ = 0
          rw [Function.update_of_ne (natAdd_ne_castAdd i j)]; exact hW.monomial i
        · exact hw m' (by simp [hm'])
      · intro m' hm'
        rcases List.mem_cons.1 hm' with rfl | hm'
        · intro _; show m.exponent.terms.length = 1; rw [ht]; rfl
        · exact hc m' (by simp [hm'])
      · intro ε; simp [Subtraction.kappa]
      · intro ε i
        simp only [Subtraction.pw, List.map_cons, List.sum_cons]
        by_cases hij : i = j
        · subst hij; simp [he, pev_one]; ring
        · rw [Function.update_of_ne (castAdd_ne hij)]; simp [hij]
      · intro i e
        simp only [List.map_cons, List.sum_cons]
        by_cases hij : i = j
        · subst hij; simp [he, coeffOf_one]
          split <;> ring
        · rw [Function.update_of_ne (castAdd_ne hij)]; simp [hij]
      · intro i hij h0 m' hm'
        rcases List.mem_cons.1 hm' with rfl | hm'
        · show Function.update m.expo _ _ _ = 0
          rw [Function.update_of_ne (castAdd_ne hij)]; exact h0 m (by simp)
        · exact h0 m' (by simp [hm'])
    · cases hms : increaseFirst (Fin.castAdd R j) ms with
      | none => rw [hms] at h; simp at h
      | some l =>
        rw [hms] at h; simp at h; subst h
        have I := ih l (fun m hm => hw m (by simp [hm])) (fun m hm => hc m (by simp [hm])) hms
        refine ⟨?_, ?_, ?_, ?_, ?_, ?_⟩
        · intro m' hm'
          rcases List.mem_cons.1 hm' with rfl | hm'
          · exact hw _ (by simp)
          · exact I.wm m' hm'
        · intro m' hm'
          rcases List.mem_cons.1 hm' with rfl | hm'
          · exact hc _ (by simp)
          · exact I.cm m' hm'
        · intro ε
          have := I.kappa ε
          simp only [Subtraction.kappa] at this
          simp [Subtraction.kappa, this]
        · intro ε i
          have := I.pw ε i
          simp only [Subtraction.pw] at this
          simp only [Subtraction.pw, List.map_cons, List.sum_cons, this]; ring
        · intro i e
          have := I.coef i e
          simp only [List.map_cons, List.sum_cons, this]; ring
        · intro i hij h0 m' hm'
          rcases List.mem_cons.1 hm' with rfl | hm'
          · exact h0 _ (by simp)
          · exact I.col i hij (fun m hm => h0 m (by simp [hm])) m' hm'

theorem increasePower_spec {j : Fin N} (ms : List (Monomial (N + R) F)) (hw : ∀ m ∈ ms, WM φ m) (hc : ∀ m ∈ ms, CM m) :
    Incr φ j ms (increasePower (Fin.castAdd R j) ms) := by
  unfold increasePower
  split
  · rename_i l hl; exact increaseFirst_spec ms l hw hc hl
  · refine ⟨?_, ?_, ?_, ?_, ?_, ?_⟩
    · intro m hm
      rcases List.mem_cons.1 hm with rfl | hm
      · refine ⟨⟨1, one_pos, by simp⟩, fun i => ?_, ?_⟩
        · show Function.update (fun _ : Fin (N + R) => (0:ℤ)) _ _ _ = 0
          rw [Function.update_of_ne (natAdd_ne_castAdd i j)]
        · intro t ht; simp at ht; subst ht; exact ⟨fun _ => le_refl _, fun _ => rfl⟩
      · exact hw m hm
    · intro m hm
      rcases List.mem_cons.1 hm with rfl | hm
      · intro _; rfl
      · exact hc m hm
    · intro ε; simp [Subtraction.kappa]
    · intro ε i
      simp only [Subtraction.pw, List.map_cons, List.sum_cons, pev_one]
      by_cases hij : i = j
      · subst hij; simp; ring
      · rw [Function.update_of_ne (castAdd_ne hij)]; simp [hij]
    · intro i e
      simp only [List.map_cons, List.sum_cons, coeffOf_one]
      by_cases hij : i = j
      · subst hij; simp; ring
      · rw [Function.update_of_ne (castAdd_ne hij)]; simp [hij]
    · intro i hij h0 m hm
      rcases List.mem_cons.1 hm with rfl | hm
      · show Function.update (fun _ : Fin (N + R) => (0:ℤ)) _ _ _ = 0
        rw [Function.update_of_ne (castAdd_ne hij)]
      · exact h0 m hm

/-! ### One step -/

/-- The regulators. -/
def isReg (i : Fin (N + R)) : Prop := ∃ r : Fin R, i = Fin.natAdd N r

theorem not_isReg (j : Fin N) : ¬ isReg (R := R) (Fin.castAdd R j) := by
  rintro ⟨r, hr⟩
  exact natAdd_ne_castAdd r j hr.symm

/-- `cal_I` is admissible on `U`. -/
structure OnP (φ : F →+* ℂ) (ε : Fin R → ℂ) (P : PolyProd (N + R) F) (U : Set (Fin (N + R) → ℂ)) : Prop where
  isOpen : IsOpen U
  covers : Covers ε U
  adm : ∀ e ∈ P.calI, Adm (Mode.nonint φ isReg) φ U e

theorem OnP.analytic {P : PolyProd (N + R) F} {U : Set (Fin (N + R) → ℂ)} (h : OnP φ ε P U) :
    AnalyticOnNhd ℂ (fI φ P) U := Adm.analytic (Adm.prod P.calI h.adm)

theorem fI_single {P : PolyProd (N + R) F} {e : Expr (N + R) F} (h : P.calI = [e]) : fI φ P = fun x => Expr.eval φ x e := by
  funext x
  rw [fI, h, eval_prod]; simp

theorem Covers.dom1 {U : Set (Fin (N + R) → ℂ)} (h : Covers ε U) (j : Fin N) :
    Covers ε {x | Function.update x (Fin.castAdd R j) 1 ∈ U} := by
  intro t ht
  have := h _ (update_mem_cube ht j (s := 1) ⟨zero_le_one, le_refl _⟩)
  rw [point_update] at this
  simpa using this

/-- The boundary term. -/
structure IsBdry (φ : F →+* ℂ) (ε : Fin R → ℂ) (P : PolyProd (N + R) F) (U : Set (Fin (N + R) → ℂ)) (j : Fin N)
    (Q : PolyProd (N + R) F) : Prop where
  monos : Q.monos = P.monos.map (Monomial.setOne (Fin.castAdd R j))
  base : Q.regBase = P.regBase.mul ((fullExponent (Fin.castAdd R j) P.monos).addScalar 1)
  exp : Q.regExp = P.regExp
  on : OnP φ ε Q {x | Function.update x (Fin.castAdd R j) 1 ∈ U}
  fn : ∀ x, Function.update x (Fin.castAdd R j) 1 ∈ U → fI φ Q x = fI φ P (Function.update x (Fin.castAdd R j) 1)

/-- The remaining integral. -/
structure IsInt (φ : F →+* ℂ) (ε : Fin R → ℂ) (P : PolyProd (N + R) F) (U : Set (Fin (N + R) → ℂ)) (j : Fin N)
    (T : PolyProd (N + R) F) : Prop where
  monos : T.monos = increasePower (Fin.castAdd R j) P.monos
  base : T.regBase = P.regBase.mul ((fullExponent (Fin.castAdd R j) P.monos).addScalar 1)
  exp : T.regExp = P.regExp
  on : OnP φ ε T U
  fn : ∀ x ∈ U, fI φ T x = - pd (Fin.castAdd R j) (fI φ P) x

theorem adm_minus_one {M : Mode (N + R) F} [M.Laws] {U : Set (Fin (N + R) → ℂ)} : Adm M φ U (const (-1) : Expr (N + R) F) := by
  unfold const
  refine Adm.poly _ ?_ ?_ ?_ <;> intro t ht <;> simp at ht <;> subst ht
  · intro x _ i _; simp
  · exact Adm.num _
  · exact Mode.Laws.numc _

theorem eval_minus_one (x : Fin (N + R) → ℂ) : Expr.eval φ x (const (-1) : Expr (N + R) F) = -1 := by
  unfold const
  rw [eval_poly]; simp [eval_num, mono_zero']

/-- The unfolding of one step. -/
theorem ibpSingle_succ {fuel steps : ℕ} {val : F → Option ℚ} {goal : ℚ} {j : Fin N} {P : PolyProd (N + R) F}
    {U : Set (Fin (N + R) → ℂ)} (hU : OnP φ ε P U) {outs : List (PolyProd (N + R) F)}
    (h : ibpSingle fuel val goal (Fin.castAdd R j) (steps + 1) P = .ok outs) :
    ∃ q, val (ect (Fin.castAdd R j) P.monos) = some q ∧ ¬ (q < 0 ∧ Unregulated P j) ∧
      ((goal ≤ q ∧ outs = [P]) ∨ (q < goal ∧ ∃ Q T rest, outs = Q :: rest ∧ IsBdry φ ε P U j Q ∧ IsInt φ ε P U j T ∧
        ibpSingle fuel val goal (Fin.castAdd R j) steps T = .ok rest)) := by
  simp only [ibpSingle] at h
  split at h
  · simp at h
  rename_i q hq
  refine ⟨q, hq, ?_⟩
  split at h
  · simp at h
  rename_i hn
  refine ⟨fun hh => hn ⟨hh.1, (noRegulator_iff j P).2 hh.2⟩, ?_⟩
  split at h
  · rename_i hg
    simp at h
    exact Or.inl ⟨hg, h.symm⟩
  rename_i hg
  refine Or.inr ⟨not_le.1 hg, ?_⟩
  obtain ⟨c1, hc1, h⟩ := bind_ok h
  obtain ⟨c1s, hc1s, h⟩ := bind_ok h
  obtain ⟨d, hd, h⟩ := bind_ok h
  obtain ⟨ds, hds, h⟩ := bind_ok h
  obtain ⟨rest, hrest, h⟩ := bind_ok h
  simp at h
  have hP : Adm (Mode.nonint φ isReg) φ U (.prod P.calI) := Adm.prod _ hU.adm
  have k1 := replace_one_adm (Fin.castAdd R j) (not_isReg j) fuel _ _ hP (lift_ok hc1)
  have v1 := replace_val (M := Mode.nonint φ isReg) (φ := φ) (U := U) 1 (fun _ => 1) (Fin.castAdd R j)
    (by intro _ k; simp) (by intro _ c hc; exact hc) fuel _ _ hP (lift_ok hc1)
  have k2 := ((simplify_ok (M := Mode.nonint φ isReg) (φ := φ) (U := {x | Function.update x (Fin.castAdd R j) 1 ∈ U}) fuel).simp _ _ k1 (lift_ok hc1s)).1
  have k3 := derive_ok hU.isOpen fuel _ _ hP (lift_ok hd)
  have k4 := ((simplify_ok (M := Mode.nonint φ isReg) (φ := φ) (U := U) fuel).simp _ _ (Adm.prod [const (-1), d] (by
    intro e he; simp at he; rcases he with rfl | rfl
    · exact adm_minus_one
    · exact k3.1)) (lift_ok hds)).1
  refine ⟨_, { monos := increasePower (Fin.castAdd R j) P.monos, regBase := P.regBase.mul ((fullExponent (Fin.castAdd R j) P.monos).addScalar 1), regExp := P.regExp, calI := [ds] }, rest, h.symm, ⟨rfl, rfl, rfl, ⟨?_, hU.covers.dom1 j, ?_⟩, ?_⟩, ⟨rfl, rfl, rfl, ⟨hU.isOpen, hU.covers, ?_⟩, ?_⟩, hrest⟩
  · exact hU.isOpen.preimage (continuous_upd _ _)
  · intro e he; simp at he; subst he; exact k2.1
  · intro x hx
    rw [fI_single rfl, fI]
    simp only
    rw [k2.2 x hx]
    show Expr.eval φ x c1 = _
    rw [v1, map_one]
  · intro e he; simp at he; subst he; exact k4.1
  · intro x hx
    rw [fI_single rfl]
    simp only
    rw [k4.2 x hx]
    show Expr.eval φ x (.prod [const (-1), d]) = _
    rw [eval_prod]
    simp only [List.map_cons, List.map_nil, List.prod_cons, List.prod_nil, mul_one, eval_minus_one]
    have := pd_eq_of_hasDerivAt (Adm.analytic hP x hx) (k3.2 x hx)
    rw [← this, neg_one_mul]; rfl

theorem den_one {ms : List (Monomial (N + R) F)} (h : ∀ m ∈ ms, WM φ m) (j : Fin N) :
    RegulatorPoly ((fullExponent (Fin.castAdd R j) ms).addScalar 1) ∧
      ∀ ε : Fin R → ℂ, pev φ (rpt N ε) ((fullExponent (Fin.castAdd R j) ms).addScalar 1) = pw φ ε ms j + 1 := by
  obtain ⟨h1, h2⟩ := fullExponent_spec h j
  exact ⟨h1.addScalar 1, fun ε => by rw [pev_addScalar, h2, map_one]⟩

theorem wf_of {P Q : PolyProd (N + R) F} (hW : WellFormed φ P) (hm : ∀ m ∈ Q.monos, WM φ m) {j : Fin N}
    (hb : Q.regBase = P.regBase.mul ((fullExponent (Fin.castAdd R j) P.monos).addScalar 1)) (he : Q.regExp = P.regExp) :
    WellFormed φ Q := by
  refine ⟨fun m h => (hm m h).coeff, fun m h => (hm m h).monomial, fun m h => (hm m h).exponent, ?_, he.trans hW.exp⟩
  rw [hb]
  exact hW.base.mul (den_one hW.wm j).1

theorem IsBdry.wf {P Q : PolyProd (N + R) F} {U : Set (Fin (N + R) → ℂ)} {j : Fin N} (hW : WellFormed φ P)
    (h : IsBdry φ ε P U j Q) : WellFormed φ Q := by
  refine wf_of hW ?_ h.base h.exp
  rw [h.monos]
  intro m hm
  obtain ⟨m', hm', rfl⟩ := List.mem_map.1 hm
  exact setOne_wm (hW.wm m' hm') j

theorem IsBdry.cm {P Q : PolyProd (N + R) F} {U : Set (Fin (N + R) → ℂ)} {j : Fin N} (hW : WellFormed φ P)
    (hc : ∀ m ∈ P.monos, CM m) (h : IsBdry φ ε P U j Q) : ∀ m ∈ Q.monos, CM m := by
  rw [h.monos]
  intro m hm
  obtain ⟨m', hm', rfl⟩ := List.mem_map.1 hm
  rw [setOne_eq (hW.wm m' hm')]
  exact hc m' hm'

theorem IsInt.incr {P T : PolyProd (N + R) F} {U : Set (Fin (N + R) → ℂ)} {j : Fin N} (hW : WellFormed φ P)
    (hc : ∀ m ∈ P.monos, CM m) (h : IsInt φ ε P U j T) : Incr φ j P.monos T.monos := by
  rw [h.monos]; exact increasePower_spec P.monos hW.wm hc

theorem IsInt.wf {P T : PolyProd (N + R) F} {U : Set (Fin (N + R) → ℂ)} {j : Fin N} (hW : WellFormed φ P)
    (hc : ∀ m ∈ P.monos, CM m) (h : IsInt φ ε P U j T) : WellFormed φ T :=
  wf_of hW (h.incr hW hc).wm h.base h.exp

theorem bdd_cube {h : (Fin N → ℝ) → ℂ} (hh : ContinuousOn h (Icc 0 1)) :
    ∃ C, ∀ t ∈ Icc (0 : Fin N → ℝ) 1, ‖h t‖ ≤ C * ∏ i, t i ^ (0:ℕ) := by
  obtain ⟨C, hC⟩ := (isCompact_Icc (a := (0 : Fin N → ℝ)) (b := 1)).exists_bound_of_continuousOn hh
  exact ⟨C, fun t ht => by simpa using hC t ht⟩

theorem integrableOn_onP {P : PolyProd (N + R) F} (hW : WellFormed φ P) {U : Set (Fin (N + R) → ℂ)}
    (hU : OnP φ ε P U) (hA : ∀ i, -1 < (pw φ ε P.monos i).re) : IntegrableOn (value φ ε P) (oc N) := by
  have hc := An.continuousOn_cube hU.covers hU.analytic.continuousOn
  obtain ⟨C, hC⟩ := bdd_cube hc
  have h := (integrableOn_powers (fun i => pw φ ε P.monos i) (fun _ => 0) (by simpa using hA) (fun t => fI φ P (point ε t))
    hc C hC).const_mul (cst φ ε P)
  refine IntegrableOn.congr_fun h (fun t ht => ?_) measurableSet_oc
  rw [value_eq hW (oc_pos ht)]; ring

/-- The integral of one step. -/
theorem step_integral {P Q T : PolyProd (N + R) F} (hW : WellFormed φ P) (hc : ∀ m ∈ P.monos, CM m)
    {U : Set (Fin (N + R) → ℂ)} (hU : OnP φ ε P U) (hA : ∀ i, -1 < (pw φ ε P.monos i).re) {j : Fin N}
    (hQ : IsBdry φ ε P U j Q) (hT : IsInt φ ε P U j T) :
    ∫ t in oc N, value φ ε P t = (∫ t in oc N, value φ ε Q t) + ∫ t in oc N, value φ ε T t := by
  have hI := hT.incr hW hc
  set A := pw φ ε P.monos with hAdef
  have hA1 : A j + 1 ≠ 0 := by
    intro h0
    have := congrArg Complex.re h0
    have := hA j
    simp at *; linarith
  have hTre : ∀ i, -1 < (pw φ ε T.monos i).re := by
    intro i
    rw [hI.pw ε i]
    have := hA i
    split <;> simp <;> linarith
  have hQre : ∀ i, -1 < (pw φ ε Q.monos i).re := by
    intro i
    rw [hQ.monos, pw_setOne hW.wm]
    split
    · simp
    · exact hA i
  have iP := integrableOn_onP hW hU hA
  have iT := integrableOn_onP (hT.wf hW hc) hT.on hTre
  have hpb : ∀ S : PolyProd (N + R) F, S.regBase = P.regBase.mul ((fullExponent (Fin.castAdd R j) P.monos).addScalar 1) →
      pev φ (rpt N ε) S.regBase = pev φ (rpt N ε) P.regBase * (A j + 1) := by
    intro S hS
    rw [hS, pev_mul _ hW.base.nonneg (den_one hW.wm j).1.nonneg, (den_one hW.wm j).2]
  have cQ : cst φ ε Q = cst φ ε P * (A j + 1)⁻¹ := by
    rw [cst, cst, hpb Q hQ.base, hQ.monos, kappa_setOne hW.wm, mul_inv]; ring
  have cT : cst φ ε T = cst φ ε P * (A j + 1)⁻¹ := by
    rw [cst, cst, hpb T hT.base, hI.kappa ε, mul_inv]; ring
  have hcube : ∀ t ∈ Icc (0 : Fin N → ℝ) 1, point ε t ∈ U := hU.covers
  have hparts := parts_cube A hA j (fun t => fI φ P (point ε t)) (fun t => pd (Fin.castAdd R j) (fI φ P) (point ε t))
    (An.continuousOn_cube hU.covers hU.analytic.continuousOn)
    (An.continuousOn_cube hU.covers (pd_analytic hU.analytic _).continuousOn)
    (fun t ht => by
      have h1 := hasDerivAt_pd' (hU.analytic _ (hcube t ht)) (Fin.castAdd R j)
      rw [point_castAdd] at h1
      have h2 := h1.comp_ofReal
      refine h2.congr_of_eventuallyEq (Filter.Eventually.of_forall fun s => ?_)
      simp only [point_update])
  have e1 : (∫ t in oc N, value φ ε Q t) = cst φ ε P * (A j + 1)⁻¹ *
      ∫ t in oc N, (∏ i, (t i : ℂ) ^ (if i = j then 0 else A i)) * fI φ P (point ε (Function.update t j 1)) := by
    rw [← integral_const_mul]
    refine setIntegral_congr_fun measurableSet_oc fun t ht => ?_
    rw [value_eq (hQ.wf hW) (oc_pos ht), cQ]
    have hx : Function.update (point ε t) (Fin.castAdd R j) 1 ∈ U := by
      have := hcube _ (update_mem_cube (oc_sub ht) j (s := 1) ⟨zero_le_one, le_refl _⟩)
      rw [point_update] at this; simpa using this
    rw [hQ.fn _ hx, point_update]
    have : ∀ i, pw φ ε Q.monos i = if i = j then 0 else A i := by
      intro i; rw [hQ.monos, pw_setOne hW.wm]
    simp only [this]
    push_cast
    ring
  have e2 : (∫ t in oc N, value φ ε P t) - ∫ t in oc N, value φ ε T t = cst φ ε P * (A j + 1)⁻¹ *
      ∫ t in oc N, (∏ i, (t i : ℂ) ^ (A i)) * ((A j + 1) * fI φ P (point ε t) + t j * pd (Fin.castAdd R j) (fI φ P) (point ε t)) := by
    rw [← integral_sub iP iT, ← integral_const_mul]
    refine setIntegral_congr_fun measurableSet_oc fun t ht => ?_
    rw [value_eq hW (oc_pos ht), value_eq (hT.wf hW hc) (oc_pos ht), cT, hT.fn _ (hcube t (oc_sub ht))]
    have hpow : ∏ i, (t i : ℂ) ^ (pw φ ε T.monos i) = (∏ i, (t i : ℂ) ^ (A i)) * t j := by
      have : ∀ i, (t i : ℂ) ^ (pw φ ε T.monos i) = (t i : ℂ) ^ (A i) * (if i = j then (t i : ℂ) else 1) := by
        intro i
        rw [hI.pw ε i]
        split
        · rw [Complex.cpow_add _ _ (by exact_mod_cast (oc_pos ht i).ne'), Complex.cpow_one]
        · rw [add_zero, mul_one]
      simp only [this, Finset.prod_mul_distrib]
      congr 1
      simp
    rw [hpow]
    field_simp
    ring
  rw [hparts] at e2
  rw [e1]
  linear_combination e2

/-- Everything needed for convergence. -/
structure ConvP (φ : F →+* ℂ) (ε : Fin R → ℂ) (P : PolyProd (N + R) F) : Prop where
  wf : WellFormed φ P
  cm : ∀ m ∈ P.monos, CM m
  sm : ∃ U, OnP φ ε P U
  re : ∀ i, -1 < (pw φ ε P.monos i).re

theorem ibpSingle_conv {fuel : ℕ} {val : F → Option ℚ} {goal : ℚ} {j : Fin N} (steps : ℕ) :
    ∀ (P : PolyProd (N + R) F) (outs : List (PolyProd (N + R) F)), ConvP φ ε P →
      ibpSingle fuel val goal (Fin.castAdd R j) steps P = .ok outs →
      (∀ Q ∈ outs, ConvP φ ε Q) ∧
        (outs.map (fun Q => ∫ t in oc N, value φ ε Q t)).sum = ∫ t in oc N, value φ ε P t := by
  induction steps with
  | zero => intro P outs _ h; simp [ibpSingle] at h
  | succ steps ih =>
    intro P outs hP h
    obtain ⟨U, hU⟩ := hP.sm
    obtain ⟨q, _, _, ⟨_, rfl⟩ | ⟨_, Q, T, rest, rfl, hQ, hT, hr⟩⟩ := ibpSingle_succ hU h
    · simpa using hP
    · have hI := hT.incr hP.wf hP.cm
      have hTc : ConvP φ ε T := by
        refine ⟨hT.wf hP.wf hP.cm, hI.cm, ⟨U, hT.on⟩, fun i => ?_⟩
        rw [hI.pw ε i]
        have := hP.re i
        split <;> simp <;> linarith
      have hQc : ConvP φ ε Q := by
        refine ⟨hQ.wf hP.wf, hQ.cm hP.wf hP.cm, ⟨_, hQ.on⟩, fun i => ?_⟩
        rw [hQ.monos, pw_setOne hP.wf.wm]
        split
        · simp
        · exact hP.re i
      obtain ⟨r1, r2⟩ := ih T rest hTc hr
      refine ⟨?_, ?_⟩
      · intro S hS
        rcases List.mem_cons.1 hS with rfl | hS
        · exact hQc
        · exact r1 S hS
      · rw [List.map_cons, List.sum_cons, r2, step_integral hP.wf hP.cm hU hP.re hQ hT]

theorem extendAll_sum {p : PolyProd (N + R) F → Prop} {v : PolyProd (N + R) F → ℂ}
    {f : PolyProd (N + R) F → Except Err (List (PolyProd (N + R) F))}
    (hf : ∀ P outs, p P → f P = .ok outs → (∀ Q ∈ outs, p Q) ∧ (outs.map v).sum = v P) :
    ∀ (l outs : List (PolyProd (N + R) F)), (∀ P ∈ l, p P) → extendAll f l = .ok outs →
      (∀ Q ∈ outs, p Q) ∧ (outs.map v).sum = (l.map v).sum := by
  intro l
  induction l with
  | nil => intro outs _ h; simp [extendAll] at h; subst h; simp
  | cons P l ih =>
    intro outs hl h
    simp only [extendAll] at h
    obtain ⟨a, ha, h⟩ := bind_ok h
    obtain ⟨b, hb, h⟩ := bind_ok h
    simp at h; subst h
    obtain ⟨a1, a2⟩ := hf P a (hl P (by simp)) ha
    obtain ⟨b1, b2⟩ := ih b (fun P hP => hl P (by simp [hP])) hb
    refine ⟨?_, by simp [a2, b2]⟩
    intro Q hQ
    rcases List.mem_append.1 hQ with h' | h'
    · exact a1 Q h'
    · exact b1 Q h'

/-- Power goals with indices of Feynman parameters. -/
def castGoals (gs : List (ℚ × Fin N)) : List (ℚ × Fin (N + R)) := gs.map (fun g => (g.1, Fin.castAdd R g.2))

theorem ibpLoopIdx_conv {fuel : ℕ} {val : F → Option ℚ} (gs : List (ℚ × Fin N)) :
    ∀ (l outs : List (PolyProd (N + R) F)), (∀ P ∈ l, ConvP φ ε P) →
      ibpLoopIdx fuel val (castGoals gs) l = .ok outs →
      (∀ Q ∈ outs, ConvP φ ε Q) ∧ (outs.map (fun Q => ∫ t in oc N, value φ ε Q t)).sum
        = (l.map (fun Q => ∫ t in oc N, value φ ε Q t)).sum := by
  induction gs with
  | nil => intro l outs hl h; simp [castGoals, ibpLoopIdx] at h; subst h; exact ⟨hl, rfl⟩
  | cons g gs ih =>
    intro l outs hl h
    simp only [castGoals, List.map_cons, ibpLoopIdx] at h
    obtain ⟨l', hl', h⟩ := bind_ok h
    obtain ⟨a1, a2⟩ := extendAll_sum (p := ConvP φ ε) (v := fun Q => ∫ t in oc N, value φ ε Q t)
      (fun P outs hP ho => ibpSingle_conv fuel P outs hP ho) l l' hl hl'
    obtain ⟨b1, b2⟩ := ih l' outs a1 h
    exact ⟨b1, b2.trans a2⟩

/-! ### The goals are reached -/

/-- `cal_I` does not depend on the parameter `j`. -/
def IndF (φ : F →+* ℂ) (ε : Fin R → ℂ) (P : PolyProd (N + R) F) (j : Fin N) : Prop :=
  ∀ t ∈ Icc (0 : Fin N → ℝ) 1, ∀ s ∈ Icc (0:ℝ) 1, fI φ P (point ε (Function.update t j s)) = fI φ P (point ε t)

theorem update_comm' {t : Fin N → ℝ} {i j : Fin N} (h : i ≠ j) (a b : ℝ) :
    Function.update (Function.update t i a) j b = Function.update (Function.update t j b) i a :=
  (Function.update_comm h.symm _ _ _).symm

theorem IsBdry.ind {P Q : PolyProd (N + R) F} {U : Set (Fin (N + R) → ℂ)} (hU : OnP φ ε P U) {j i : Fin N} (h : IsBdry φ ε P U j Q)
    (hi : i = j ∨ IndF φ ε P i) : IndF φ ε Q i := by
  have key : ∀ t ∈ Icc (0 : Fin N → ℝ) 1, fI φ Q (point ε t) = fI φ P (point ε (Function.update t j 1)) := by
    intro t ht
    have h1 := hU.covers _ (update_mem_cube ht j (s := 1) ⟨zero_le_one, le_refl _⟩)
    rw [point_update] at h1 ⊢
    simp only [Complex.ofReal_one] at h1 ⊢
    exact h.fn _ h1
  intro t ht s hs
  rw [key _ (update_mem_cube ht i hs), key t ht]
  rcases eq_or_ne i j with rfl | hij
  · simp
  · rcases hi with hi | hi
    · exact absurd hi hij
    · rw [update_comm' hij]
      exact hi _ (update_mem_cube ht j ⟨zero_le_one, le_refl _⟩) s hs

theorem IsInt.ind {P T : PolyProd (N + R) F} {U : Set (Fin (N + R) → ℂ)} (hU : OnP φ ε P U) {j i : Fin N} (hij : i ≠ j) (h : IsInt φ ε P U j T)
    (hi : IndF φ ε P i) : IndF φ ε T i := by
  intro t ht s hs
  have hm := update_mem_cube ht i hs
  rw [h.fn _ (hU.covers _ hm), h.fn _ (hU.covers _ ht)]
  congr 1
  have h1 := hasDerivAt_pd' (hU.analytic _ (hU.covers _ hm)) (Fin.castAdd R j)
  have h2 := hasDerivAt_pd' (hU.analytic _ (hU.covers _ ht)) (Fin.castAdd R j)
  rw [point_castAdd] at h1 h2
  rw [Function.update_of_ne hij.symm] at h1
  have h3 := h1.sub h2
  have h4 := deriv_zero_of_zero_on (a := t j) ⟨ht.1 j, ht.2 j⟩ h3 (by
    intro r hr
    simp only [Pi.sub_apply]
    rw [← point_update, ← point_update, update_comm' hij, hi _ (update_mem_cube ht j hr) s hs, sub_self])
  exact sub_eq_zero.1 h4

/-- State while the goals `D` have been treated. -/
structure GInv (φ : F →+* ℂ) (ε : Fin R → ℂ) (val : F → Option ℚ) (D : List (ℚ × Fin N)) (Q : PolyProd (N + R) F) : Prop where
  wf : WellFormed φ Q
  cm : ∀ m ∈ Q.monos, CM m
  sm : ∃ U, OnP φ ε Q U
  goals : ∀ g ∈ D, ((∀ m ∈ Q.monos, m.expo (Fin.castAdd R g.2) = 0) ∧ IndF φ ε Q g.2) ∨
    ∃ q, val (ect (Fin.castAdd R g.2) Q.monos) = some q ∧ g.1 ≤ q

theorem ect_incr {j : Fin N} {P Q : PolyProd (N + R) F} (h : Incr φ j P.monos Q.monos) (i : Fin N) :
    ect (Fin.castAdd R i) Q.monos = ect (Fin.castAdd R i) P.monos + if i = j then 1 else 0 := by
  rw [ect_eq_powerCoeff, ect_eq_powerCoeff, powerCoeff, h.coef]
  simp [powerCoeff]

theorem ibpSingle_ginv {fuel : ℕ} {val : F → Option ℚ} {goal : ℚ} {j : Fin N} {D : List (ℚ × Fin N)}
    (hD : ∀ g ∈ D, g.2 ≠ j) (steps : ℕ) :
    ∀ (P : PolyProd (N + R) F) (outs : List (PolyProd (N + R) F)), GInv φ ε val D P →
      ibpSingle fuel val goal (Fin.castAdd R j) steps P = .ok outs →
      ∀ Q ∈ outs, GInv φ ε val ((goal, j) :: D) Q := by
  induction steps with
  | zero => intro P outs _ h; simp [ibpSingle] at h
  | succ steps ih =>
    intro P outs hP h
    obtain ⟨U, hU⟩ := hP.sm
    obtain ⟨q, hq, _, ⟨hg, rfl⟩ | ⟨_, Q, T, rest, rfl, hQ, hT, hr⟩⟩ := ibpSingle_succ hU h
    · intro Q hQ
      simp at hQ; subst hQ
      refine ⟨hP.wf, hP.cm, hP.sm, ?_⟩
      intro g hgD
      rcases List.mem_cons.1 hgD with rfl | hgD
      · exact Or.inr ⟨q, hq, hg⟩
      · exact hP.goals g hgD
    · have hI := hT.incr hP.wf hP.cm
      intro S hS
      rcases List.mem_cons.1 hS with rfl | hS
      · refine ⟨hQ.wf hP.wf, hQ.cm hP.wf hP.cm, ⟨_, hQ.on⟩, ?_⟩
        have hcol : ∀ i : Fin N, (i = j ∨ ∀ m ∈ P.monos, m.expo (Fin.castAdd R i) = 0) →
            ∀ m ∈ S.monos, m.expo (Fin.castAdd R i) = 0 := by
          intro i hi m hm
          rw [hQ.monos] at hm
          obtain ⟨m', hm', rfl⟩ := List.mem_map.1 hm
          rw [setOne_eq (hP.wf.wm m' hm')]
          rcases eq_or_ne i j with rfl | hij
          · simp
          · simp only
            rw [Function.update_of_ne (castAdd_ne hij)]
            rcases hi with hi | hi
            · exact absurd hi hij
            · exact hi m' hm'
        intro g hgD
        rcases List.mem_cons.1 hgD with rfl | hgD
        · exact Or.inl ⟨hcol _ (Or.inl rfl), hQ.ind hU (Or.inl rfl)⟩
        · rcases hP.goals g hgD with ⟨c1, c2⟩ | ⟨q', c1, c2⟩
          · exact Or.inl ⟨hcol _ (Or.inr c1), hQ.ind hU (Or.inr c2)⟩
          · refine Or.inr ⟨q', ?_, c2⟩
            rw [hQ.monos, ect_setOne hP.wf.wm (hD g hgD)]; exact c1
      · refine ih T rest ⟨hT.wf hP.wf hP.cm, hI.cm, ⟨U, hT.on⟩, ?_⟩ hr S hS
        intro g hgD
        rcases hP.goals g hgD with ⟨c1, c2⟩ | ⟨q', c1, c2⟩
        · exact Or.inl ⟨hI.col _ (hD g hgD) c1, hT.ind hU (hD g hgD) c2⟩
        · refine Or.inr ⟨q', ?_, c2⟩
          rw [ect_incr hI, if_neg (hD g hgD), add_zero]; exact c1

theorem ibpLoopIdx_ginv {fuel : ℕ} {val : F → Option ℚ} (gs : List (ℚ × Fin N)) :
    ∀ (D : List (ℚ × Fin N)) (l outs : List (PolyProd (N + R) F)), (∀ P ∈ l, GInv φ ε val D P) →
      (∀ g ∈ D, ∀ h ∈ gs, g.2 ≠ h.2) → (gs.map (·.2)).Nodup →
      ibpLoopIdx fuel val (castGoals gs) l = .ok outs → ∀ Q ∈ outs, ∃ D', (∀ g, g ∈ D ∨ g ∈ gs → g ∈ D') ∧ GInv φ ε val D' Q := by
  induction gs with
  | nil => intro D l outs hl _ _ h; simp [castGoals, ibpLoopIdx] at h; subst h; exact fun Q hQ => ⟨D, by simp, hl Q hQ⟩
  | cons g gs ih =>
    intro D l outs hl hD hnd h
    simp only [castGoals, List.map_cons, ibpLoopIdx] at h
    obtain ⟨l', hl', h⟩ := bind_ok h
    simp only [List.map_cons, List.nodup_cons] at hnd
    have a1 := extendAll_all (p := GInv φ ε val D) (r := GInv φ ε val (g :: D))
      (fun P outs hP ho => ibpSingle_ginv (fun g' hg' => hD g' hg' g (by simp)) fuel P outs hP ho) l l' hl hl'
    intro Q hQ
    obtain ⟨D', h1, h2⟩ := ih (g :: D) l' outs a1 (by
      intro g' hg' h' hh'
      rcases List.mem_cons.1 hg' with rfl | hg'
      · intro hh
        exact hnd.1 (List.mem_map.2 ⟨h', hh', hh.symm⟩)
      · exact hD g' hg' h' (by simp [hh'])) hnd.2 h Q hQ
    refine ⟨D', ?_, h2⟩
    intro g' hg'
    rcases hg' with hg' | hg'
    · exact h1 g' (Or.inl (by simp [hg']))
    · rcases List.mem_cons.1 hg' with rfl | hg'
      · exact h1 _ (Or.inl (by simp))
      · exact h1 _ (Or.inr hg')

end SecDec.Subtraction
