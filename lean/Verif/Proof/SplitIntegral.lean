import Verif.Proof.PrimaryIntegral
/- Splitting the unit cube in one variable. -/
namespace SecDec.Splitting
open MeasureTheory SecDec.Decomp

variable {n : Nat} {V : Type} [NormedAddCommGroup V] [NormedSpace ℝ V]

noncomputable def aff (i : Fin n) (a b : ℝ) (x : Fin n → ℝ) : Fin n → ℝ := Function.update x i (a + b * x i)

noncomputable def aff' (i : Fin n) (b : ℝ) : (Fin n → ℝ) →L[ℝ] (Fin n → ℝ) :=
  ContinuousLinearMap.pi (fun k => (if k = i then b else 1) • ContinuousLinearMap.proj k)

theorem hasFDerivAt_aff (i : Fin n) (a b : ℝ) (x : Fin n → ℝ) : HasFDerivAt (aff i a b) (aff' i b) x := by
  rw [hasFDerivAt_pi']
  intro k
  by_cases h : k = i
  · subst h
    have h1 : (fun x => aff k a b x k) = fun x : Fin n → ℝ => a + b * x k := by
      funext y; simp [aff]
    have h2 : (ContinuousLinearMap.proj k).comp (aff' k b) =
        b • (ContinuousLinearMap.proj k : (Fin n → ℝ) →L[ℝ] ℝ) := by
      ext v; simp [aff']
    rw [h1, h2]
    exact ((hasFDerivAt_apply (𝕜 := ℝ) k x).const_mul b).const_add a
  · have h1 : (fun x => aff i a b x k) = fun x : Fin n → ℝ => x k := by
      funext y; simp [aff, h]
    have h2 : (ContinuousLinearMap.proj k).comp (aff' i b) =
        (ContinuousLinearMap.proj k : (Fin n → ℝ) →L[ℝ] ℝ) := by
      ext v; simp [aff', h]
    rw [h1, h2]
    exact hasFDerivAt_apply (𝕜 := ℝ) k x

theorem det_aff' (i : Fin n) (b : ℝ) : (aff' i b).det = b := by
  have hlin : ((aff' i b : (Fin n → ℝ) →L[ℝ] (Fin n → ℝ)) : (Fin n → ℝ) →ₗ[ℝ] (Fin n → ℝ)) =
      Matrix.toLin' (Matrix.diagonal (fun k => if k = i then b else 1)) := by
    apply LinearMap.ext
    intro v
    funext k
    rw [Matrix.toLin'_apply, Matrix.mulVec_diagonal]
    by_cases h : k = i <;> simp [aff', h]
  show LinearMap.det _ = _
  rw [hlin, LinearMap.det_toLin', Matrix.det_diagonal]
  simp

theorem aff_injective (i : Fin n) (a b : ℝ) (hb : b ≠ 0) : Function.Injective (aff i a b) := by
  intro x y h
  funext k
  have := congrFun h k
  by_cases hk : k = i
  · subst hk
    simp only [aff, Function.update_self, add_right_inj] at this
    exact mul_left_cancel₀ hb this
  · simpa [aff, hk] using this

theorem aff_integral (i : Fin n) (a b : ℝ) (hb : b ≠ 0) (f : (Fin n → ℝ) → V) :
    (∫ x in aff i a b '' oc n, f x = ∫ x in oc n, |b| • f (aff i a b x)) ∧
    (IntegrableOn f (aff i a b '' oc n) ↔ IntegrableOn (fun x => |b| • f (aff i a b x)) (oc n)) := by
  constructor
  · rw [integral_image_eq_integral_abs_det_fderiv_smul volume measurableSet_oc
      (fun y _ => (hasFDerivAt_aff i a b y).hasFDerivWithinAt) ((aff_injective i a b hb).injOn)]
    simp only [det_aff']
  · rw [integrableOn_image_iff_integrableOn_abs_det_fderiv_smul volume measurableSet_oc
      (fun y _ => (hasFDerivAt_aff i a b y).hasFDerivWithinAt) ((aff_injective i a b hb).injOn)]
    simp only [det_aff']

theorem aff_image_low (i : Fin n) (c : ℝ) (h0 : 0 < c) (h1 : c < 1) :
    aff i 0 c '' oc n = {x | x ∈ oc n ∧ x i < c} := by
  ext x
  constructor
  · rintro ⟨y, hy, rfl⟩
    rw [mem_oc] at hy
    have hi := hy i
    refine ⟨mem_oc.2 fun k => ?_, ?_⟩
    · by_cases hk : k = i
      · subst hk
        simp only [aff, Function.update_self]
        exact ⟨by nlinarith [mul_pos h0 hi.1], by nlinarith⟩
      · simpa [aff, hk] using hy k
    · simp only [aff, Function.update_self]; nlinarith
  · rintro ⟨hx, hlt⟩
    rw [mem_oc] at hx
    refine ⟨Function.update x i (x i / c), mem_oc.2 fun k => ?_, ?_⟩
    · by_cases hk : k = i
      · subst hk
        simp only [Function.update_self]
        exact ⟨div_pos (hx k).1 h0, (div_lt_one h0).2 hlt⟩
      · simpa [hk] using hx k
    · funext k
      by_cases hk : k = i
      · subst hk; simp [aff, mul_div_cancel₀ _ h0.ne']
      · simp [aff, hk]

theorem aff_image_high (i : Fin n) (c : ℝ) (h0 : 0 < c) (h1 : c < 1) :
    aff i 1 (-(1 - c)) '' oc n = {x | x ∈ oc n ∧ c < x i} := by
  have hd : 0 < 1 - c := by linarith
  ext x
  constructor
  · rintro ⟨y, hy, rfl⟩
    rw [mem_oc] at hy
    have hi := hy i
    refine ⟨mem_oc.2 fun k => ?_, ?_⟩
    · by_cases hk : k = i
      · subst hk
        simp only [aff, Function.update_self]
        exact ⟨by nlinarith, by nlinarith [mul_pos hd hi.1]⟩
      · simpa [aff, hk] using hy k
    · simp only [aff, Function.update_self]; nlinarith
  · rintro ⟨hx, hlt⟩
    rw [mem_oc] at hx
    refine ⟨Function.update x i ((1 - x i) / (1 - c)), mem_oc.2 fun k => ?_, ?_⟩
    · by_cases hk : k = i
      · subst hk
        simp only [Function.update_self]
        exact ⟨div_pos (by linarith [(hx k).2]) hd, (div_lt_one hd).2 (by linarith)⟩
      · simpa [hk] using hx k
    · funext k
      by_cases hk : k = i
      · subst hk
        simp only [aff, Function.update_self]
        field_simp
        ring
      · simp [aff, hk]

theorem eq_null (a : Fin n) (c : ℝ) : volume {x : Fin n → ℝ | x a = c} = 0 := by
  have h : {x : Fin n → ℝ | x a = c} = (Function.eval a : (Fin n → ℝ) → ℝ) ⁻¹' {c} := by ext; simp
  rw [h, volume_pi]
  exact Measure.pi_hyperplane (fun _ : Fin n => (volume : Measure ℝ)) a c

/-- splitting at `x_i = c` -/
theorem cube_split_at (i : Fin n) (c : ℝ) (h0 : 0 < c) (h1 : c < 1) (f : (Fin n → ℝ) → V)
    (hf : IntegrableOn f (oc n)) :
    IntegrableOn (fun x => c • f (aff i 0 c x)) (oc n) ∧
    IntegrableOn (fun x => (1 - c) • f (aff i 1 (-(1 - c)) x)) (oc n) ∧
    (∫ x in oc n, c • f (aff i 0 c x)) + ∫ x in oc n, (1 - c) • f (aff i 1 (-(1 - c)) x) =
      ∫ x in oc n, f x := by
  have hd : 0 < 1 - c := by linarith
  obtain ⟨a1, a2⟩ := aff_integral i 0 c h0.ne' f
  obtain ⟨b1, b2⟩ := aff_integral i 1 (-(1 - c)) (by linarith) f
  rw [abs_of_pos h0] at a1 a2
  rw [abs_neg, abs_of_pos hd] at b1 b2
  have i1 : IntegrableOn f (aff i 0 c '' oc n) := by
    rw [aff_image_low i c h0 h1]; exact hf.mono_set (fun x hx => hx.1)
  have i2 : IntegrableOn f (aff i 1 (-(1 - c)) '' oc n) := by
    rw [aff_image_high i c h0 h1]; exact hf.mono_set (fun x hx => hx.1)
  refine ⟨a2.1 i1, b2.1 i2, ?_⟩
  rw [← a1, ← b1]
  have hdisj : Disjoint (aff i 0 c '' oc n) (aff i 1 (-(1 - c)) '' oc n) := by
    rw [aff_image_low i c h0 h1, aff_image_high i c h0 h1, Set.disjoint_left]
    rintro x ⟨_, hx⟩ ⟨_, hx'⟩
    exact lt_asymm hx hx'
  have hms : MeasurableSet (aff i 1 (-(1 - c)) '' oc n) := by
    rw [aff_image_high i c h0 h1]
    exact measurableSet_oc.inter (measurableSet_lt measurable_const (measurable_pi_apply i))
  rw [← setIntegral_union hdisj hms i1 i2]
  apply setIntegral_congr_set
  have hsub : (aff i 0 c '' oc n) ∪ (aff i 1 (-(1 - c)) '' oc n) ⊆ oc n := by
    rw [aff_image_low i c h0 h1, aff_image_high i c h0 h1]
    rintro x (hx | hx)
    · exact hx.1
    · exact hx.1
  refine Filter.EventuallyLE.antisymm hsub.eventuallyLE ?_
  rw [ae_le_set]
  refine measure_mono_null ?_ (eq_null i c)
  rintro x ⟨hx, hn⟩
  rw [aff_image_low i c h0 h1, aff_image_high i c h0 h1] at hn
  by_contra hne
  apply hn
  rcases lt_or_gt_of_ne hne with h | h
  · exact Or.inl ⟨hx, h⟩
  · exact Or.inr ⟨hx, h⟩

end SecDec.Splitting
