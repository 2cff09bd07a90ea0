import Verif.Model.Deform
import Mathlib.Tactic
/-
C41: the choice and the reduction of the deformation parameters (sector_container.hpp, amplitude.hpp).
-/
namespace SecDec
namespace Deform
open Refine

/-! ### optimize_deformation_parameters -/

theorem foldl_presample {n : ℕ} {X : Type} {mn mx : ℝ} (hm : mn ≤ mx) (allowed : X → Fin n → ℝ) (samples : List X) :
    ∀ opt : Fin n → ℝ, (∀ j, mn ≤ opt j ∧ opt j ≤ mx) → ∀ j,
      mn ≤ samples.foldl (fun opt x => presample mn mx opt (allowed x)) opt j ∧
      samples.foldl (fun opt x => presample mn mx opt (allowed x)) opt j ≤ opt j ∧
      (∀ x ∈ samples, samples.foldl (fun opt x => presample mn mx opt (allowed x)) opt j ≤ max mn (allowed x j)) ∧
      (samples.foldl (fun opt x => presample mn mx opt (allowed x)) opt j = opt j ∨
        ∃ x ∈ samples, samples.foldl (fun opt x => presample mn mx opt (allowed x)) opt j = max mn (allowed x j)) := by
  induction samples with
  | nil => intro opt h j; exact ⟨(h j).1, le_rfl, by simp, Or.inl rfl⟩
  | cons x l ih =>
    intro opt h j
    have hstep : ∀ i, mn ≤ presample mn mx opt (allowed x) i ∧ presample mn mx opt (allowed x) i ≤ opt i ∧
        presample mn mx opt (allowed x) i ≤ max mn (allowed x i) ∧
        (presample mn mx opt (allowed x) i = opt i ∨ presample mn mx opt (allowed x) i = max mn (allowed x i)) := by
      intro i
      have := h i
      unfold presample
      split
      · rename_i h1
        have e : max mn (allowed x i) = allowed x i := max_eq_right h1.1
        rw [e]
        split
        · rename_i h2; exact ⟨h1.1, h2.le, le_rfl, Or.inr rfl⟩
        · rename_i h2; exact ⟨this.1, le_rfl, not_lt.1 h2, Or.inl rfl⟩
      · rename_i h1
        split
        · rename_i h2
          exact ⟨le_rfl, this.1, le_max_left _ _, Or.inr (max_eq_left h2.le).symm⟩
        · rename_i h2
          have h3 : mx < allowed x i := by
            by_contra hc
            exact h1 ⟨not_lt.1 h2, not_lt.1 hc⟩
          exact ⟨this.1, le_rfl, (this.2.trans h3.le).trans (le_max_right _ _), Or.inl rfl⟩
    obtain ⟨a1, a2, a3, a4⟩ := ih (presample mn mx opt (allowed x))
      (fun i => ⟨(hstep i).1, (hstep i).2.1.trans (h i).2⟩) j
    obtain ⟨b1, b2, b3, b4⟩ := hstep j
    simp only [List.foldl_cons]
    refine ⟨a1, a2.trans b2, fun y hy => ?_, ?_⟩
    · rcases List.mem_cons.1 hy with rfl | hy
      · exact a2.trans b3
      · exact a3 y hy
    · rcases a4 with a4 | ⟨y, hy, a4⟩
      · rcases b4 with b4 | b4
        · exact Or.inl (a4.trans b4)
        · exact Or.inr ⟨x, List.mem_cons_self .., a4.trans b4⟩
      · exact Or.inr ⟨y, List.mem_cons_of_mem _ hy, a4⟩

theorem shrink_spec {n : ℕ} {passes : (Fin n → ℝ) → Bool} {factor : ℝ} (fuel : ℕ) :
    ∀ {opt opt' : Fin n → ℝ}, shrink passes factor fuel opt = some opt' →
      passes opt' = true ∧ ∃ k : ℕ, opt' = (fun j => opt j * factor ^ k) ∧ ∀ i < k, passes (fun j => opt j * factor ^ i) = false := by
  induction fuel with
  | zero => intro opt opt' h; simp [shrink] at h
  | succ m ih =>
    intro opt opt' h
    unfold shrink at h
    split at h
    · rename_i h1
      simp only [Option.some.injEq] at h
      subst h
      exact ⟨h1, 0, by simp, fun i hi => by omega⟩
    · rename_i h1
      obtain ⟨h2, k, h3, h4⟩ := ih h
      refine ⟨h2, k + 1, by rw [h3]; funext j; ring, fun i hi => ?_⟩
      cases i with
      | zero => simpa using h1
      | succ i =>
        have := h4 i (by omega)
        rw [← this]
        congr 1
        funext j; ring

theorem shrink_some {n : ℕ} {passes : (Fin n → ℝ) → Bool} {factor : ℝ} (k : ℕ) :
    ∀ {opt : Fin n → ℝ}, passes (fun j => opt j * factor ^ k) = true → ∀ fuel > k, ∃ opt', shrink passes factor fuel opt = some opt' := by
  induction k with
  | zero =>
    intro opt h fuel hf
    obtain ⟨m, rfl⟩ : ∃ m, fuel = m + 1 := ⟨fuel - 1, by omega⟩
    unfold shrink
    have : passes opt = true := by simpa using h
    rw [if_pos this]
    exact ⟨_, rfl⟩
  | succ k ih =>
    intro opt h fuel hf
    obtain ⟨m, rfl⟩ : ∃ m, fuel = m + 1 := ⟨fuel - 1, by omega⟩
    unfold shrink
    split
    · exact ⟨_, rfl⟩
    · refine ih ?_ m (by omega)
      rw [← h]
      congr 1
      funext j; ring

/-- C41: the deformation parameters chosen from the samples.  They are a common multiple (a power of the decrease factor) of
numbers `lam` which are the largest ones between the minimum and the maximum that no sample forbids: they do not exceed what a
sample allows, except that a sample cannot force them below the minimum, and if they are less than the maximum then there is a
sample which forbids more.  The last sample passes the sign check.  All samples pass it if the check cannot fail for smaller parameters
once it passed. -/
theorem C41_optimize {n : ℕ} {X : Type} {mn mx factor : ℝ} (hm : mn ≤ mx) (allowed : X → Fin n → ℝ) (passes : X → (Fin n → ℝ) → Bool)
    (samples : List X) (fuel : ℕ) {opt : Fin n → ℝ} (h : optimize mn mx factor allowed passes samples fuel = some opt) :
    (∃ (lam : Fin n → ℝ) (k : ℕ), opt = (fun j => lam j * factor ^ k) ∧ ∀ j, mn ≤ lam j ∧ lam j ≤ mx ∧
      (∀ x ∈ samples, lam j ≤ max mn (allowed x j)) ∧ (lam j = mx ∨ ∃ x ∈ samples, lam j = max mn (allowed x j))) ∧
    (∀ x, samples.getLast? = some x → passes x opt = true) ∧
    ((∀ x ∈ samples, ∀ o, passes x o = true → passes x (fun j => o j * factor) = true) → ∀ x ∈ samples, passes x opt = true) := by
  unfold optimize at h
  by_cases h0 : samples.length = 0
  · rw [if_pos h0] at h
    simp only [Option.some.injEq] at h
    have hnil : samples = [] := List.length_eq_zero_iff.1 h0
    subst hnil
    subst h
    exact ⟨⟨fun _ => mx, 0, by simp, fun j => ⟨hm, le_rfl, by simp, Or.inl rfl⟩⟩, by simp, by simp⟩
  rw [if_neg h0] at h
  have hph := fun j => foldl_presample hm allowed samples (fun _ => mx) (fun _ => ⟨hm, le_rfl⟩) j
  have hfold : ∀ (l : List X) (o o' : Fin n → ℝ), l.foldlM (fun opt x => shrink (passes x) factor fuel opt) o = some o' →
      (∃ k : ℕ, o' = fun j => o j * factor ^ k) ∧ (∀ x, l.getLast? = some x → passes x o' = true) ∧
      ((∀ x ∈ l, ∀ o, passes x o = true → passes x (fun j => o j * factor) = true) → ∀ x ∈ l, passes x o' = true) := by
    intro l
    induction l with
    | nil =>
      intro o o' h
      simp only [List.foldlM_nil, pure, Option.some.injEq] at h
      exact ⟨⟨0, by simp [h]⟩, by simp, by simp⟩
    | cons x l ih =>
      intro o o' h
      rw [List.foldlM_cons] at h
      obtain ⟨o1, h1, h2⟩ := Option.bind_eq_some_iff.1 h
      obtain ⟨p1, k1, e1, -⟩ := shrink_spec fuel h1
      obtain ⟨⟨k2, e2⟩, q2, q3⟩ := ih o1 o' h2
      refine ⟨⟨k1 + k2, ?_⟩, ?_, ?_⟩
      · rw [e2, e1]; funext j; ring
      · intro y hy
        cases l with
        | nil =>
          simp only [List.getLast?_singleton, Option.some.injEq] at hy
          subst hy
          simp only [List.foldlM_nil, pure, Option.some.injEq] at h2
          rw [← h2]; exact p1
        | cons z l => exact q2 y (by simpa [List.getLast?_cons_cons] using hy)
      · intro hst y hy
        rcases List.mem_cons.1 hy with rfl | hy
        · have : ∀ k : ℕ, passes y (fun j => o1 j * factor ^ k) = true := by
            intro k
            induction k with
            | zero => simpa using p1
            | succ k ihk =>
              have := hst y (List.mem_cons_self ..) _ ihk
              simpa [pow_succ, mul_assoc] using this
          rw [e2]; exact this k2
        · exact q3 (fun x hx => hst x (List.mem_cons_of_mem _ hx)) y hy
  obtain ⟨⟨k, e⟩, p2, p3⟩ := hfold samples _ _ h
  exact ⟨⟨_, k, e, fun j => ⟨(hph j).1, (hph j).2.1, (hph j).2.2.1, (hph j).2.2.2⟩⟩, p2, p3⟩

/-- C41: the sign check that is used in the search: with the chosen parameters the contour deformation does not raise the imaginary part of the
deformation polynomial at the last sample, and at no sample if smaller parameters can only lower it further. -/
theorem C41_sign_check {n : ℕ} {X : Type} {mn mx factor : ℝ} (hm : mn ≤ mx) (allowed : X → Fin n → ℝ) (poly : X → (Fin n → ℝ) → ℂ)
    (samples : List X) (fuel : ℕ) {opt : Fin n → ℝ} (h : optimize mn mx factor allowed (passesSignCheck poly) samples fuel = some opt) :
    (∀ x, samples.getLast? = some x → (poly x opt).im ≤ (poly x 0).im) ∧
    ((∀ x ∈ samples, ∀ o, (poly x o).im ≤ (poly x 0).im → (poly x fun j => o j * factor).im ≤ (poly x 0).im) →
      ∀ x ∈ samples, (poly x opt).im ≤ (poly x 0).im) := by
  obtain ⟨-, h2, h3⟩ := C41_optimize hm allowed (passesSignCheck poly) samples fuel h
  simp only [passesSignCheck, decide_eq_true_eq] at h2 h3
  exact ⟨h2, h3⟩

/-- C41: the sign check rejects nothing that is acceptable: parameters that pass at all samples are kept. -/
theorem C41_sign_check_keeps {n : ℕ} {X : Type} {mn mx factor : ℝ} (allowed : X → Fin n → ℝ) (poly : X → (Fin n → ℝ) → ℂ)
    (samples : List X) (fuel : ℕ)
    (h : ∀ x ∈ samples, (poly x (phase1 mn mx allowed samples)).im ≤ (poly x 0).im) :
    optimize mn mx factor allowed (passesSignCheck poly) samples (fuel + 1) =
      some (if samples.length = 0 then fun _ => mx else phase1 mn mx allowed samples) := by
  unfold optimize
  split
  · rfl
  · generalize phase1 mn mx allowed samples = o at h
    have : ∀ l : List X, (∀ x ∈ l, (poly x o).im ≤ (poly x 0).im) →
        l.foldlM (fun opt x => shrink (passesSignCheck poly x) factor (fuel + 1) opt) o = some o := by
      intro l
      induction l with
      | nil => intro _; rfl
      | cons x l ih =>
        intro hl
        have hx : shrink (passesSignCheck poly x) factor (fuel + 1) o = some o := by
          unfold shrink
          simp [passesSignCheck, hl x (by simp)]
        rw [List.foldlM_cons, hx]
        exact ih fun y hy => hl y (by simp [hy])
    exact this samples h

/-- C41: the search for the deformation parameters ends, for decrease factors between zero and one, if for every sample the sign check
passes for all sufficiently small parameters. -/
theorem C41_optimize_terminates {n : ℕ} {X : Type} {mn mx factor : ℝ} (hm : mn ≤ mx) (hmn : 0 ≤ mn) (hf0 : 0 ≤ factor) (hf1 : factor < 1)
    (allowed : X → Fin n → ℝ) (passes : X → (Fin n → ℝ) → Bool) (samples : List X)
    (hsmall : ∀ x ∈ samples, ∃ ε > 0, ∀ o : Fin n → ℝ, (∀ j, 0 ≤ o j ∧ o j < ε) → passes x o = true) :
    ∃ fuel opt, optimize mn mx factor allowed passes samples fuel = some opt := by
  by_cases h0 : samples.length = 0
  · exact ⟨0, _, by unfold optimize; rw [if_pos h0]⟩
  have hmx : 0 ≤ mx := hmn.trans hm
  obtain ⟨ε, hε, hall⟩ : ∃ ε > 0, ∀ x ∈ samples, ∀ o : Fin n → ℝ, (∀ j, 0 ≤ o j ∧ o j < ε) → passes x o = true := by
    clear h0
    induction samples with
    | nil => exact ⟨1, one_pos, by simp⟩
    | cons x l ih =>
      obtain ⟨e1, h1, h1'⟩ := ih fun y hy => hsmall y (List.mem_cons_of_mem _ hy)
      obtain ⟨e2, h2, h2'⟩ := hsmall x (List.mem_cons_self ..)
      refine ⟨min e1 e2, lt_min h1 h2, fun y hy o ho => ?_⟩
      rcases List.mem_cons.1 hy with rfl | hy
      · exact h2' o fun j => ⟨(ho j).1, lt_of_lt_of_le (ho j).2 (min_le_right _ _)⟩
      · exact h1' y hy o fun j => ⟨(ho j).1, lt_of_lt_of_le (ho j).2 (min_le_left _ _)⟩
  obtain ⟨k, hk⟩ : ∃ k : ℕ, (mx + 1) * factor ^ k < ε := by
    obtain ⟨k, hk⟩ := exists_pow_lt_of_lt_one (div_pos hε (by linarith : 0 < mx + 1)) hf1
    exact ⟨k, by rw [lt_div_iff₀ (by linarith)] at hk; linarith⟩
  have hpk : (0 : ℝ) ≤ factor ^ k := pow_nonneg hf0 k
  have hfold : ∀ (l : List X), (∀ x ∈ l, x ∈ samples) → ∀ o : Fin n → ℝ, (∀ j, 0 ≤ o j ∧ o j ≤ mx) →
      ∃ o', l.foldlM (fun opt x => shrink (passes x) factor (k+1) opt) o = some o' := by
    intro l
    induction l with
    | nil => intro _ o _; exact ⟨o, rfl⟩
    | cons x l ih =>
      intro hl o ho
      obtain ⟨o1, h1⟩ := shrink_some (passes := passes x) (factor := factor) k (opt := o)
        (hall x (hl x (List.mem_cons_self ..)) _ fun j => ⟨mul_nonneg (ho j).1 hpk, by
          refine lt_of_le_of_lt ?_ hk
          exact mul_le_mul_of_nonneg_right (by linarith [(ho j).2]) hpk⟩) (k+1) (Nat.lt_succ_self k)
      obtain ⟨-, m, e1, -⟩ := shrink_spec _ h1
      have hpm : (0 : ℝ) ≤ factor ^ m := pow_nonneg hf0 m
      have hpm1 : factor ^ m ≤ 1 := pow_le_one₀ hf0 hf1.le
      obtain ⟨o', h2⟩ := ih (fun y hy => hl y (List.mem_cons_of_mem _ hy)) o1 fun j => by
        rw [e1]
        exact ⟨mul_nonneg (ho j).1 hpm, by
          have := mul_le_mul_of_nonneg_left hpm1 (ho j).1
          linarith [(ho j).2]⟩
      exact ⟨o', by rw [List.foldlM_cons, h1]; exact h2⟩
  obtain ⟨o', h'⟩ := hfold samples (fun x hx => hx) (phase1 mn mx allowed samples) fun j => by
    have := foldl_presample hm allowed samples (fun _ => mx) (fun _ => ⟨hm, le_rfl⟩) j
    exact ⟨hmn.trans this.1, this.2.1⟩
  exact ⟨k+1, o', by unfold optimize; rw [if_neg h0]; exact h'⟩

/-- C41: the minimum is not respected by the sign check, and a sample is not checked again after the parameters changed: here the
result is 1/4 although the minimum is 1/2, and the first sample fails the sign check for it. -/
theorem C41_minimum_defect :
    let allowed : Bool → Fin 1 → ℝ := fun _ _ => 1
    let passes : Bool → (Fin 1 → ℝ) → Bool := fun x o => if x then decide (1 ≤ o 0) else decide (o 0 ≤ 1 / 4)
    optimize (1 / 2) 1 (1 / 2) allowed passes [true, false] 3 = some (fun _ => 1 * (1 / 2) * (1 / 2)) ∧
    passes true (fun _ => 1 * (1 / 2) * (1 / 2)) = false := by
  intro allowed passes
  have h1 : phase1 (1 / 2) 1 allowed [true, false] = fun _ => 1 := by
    funext j; norm_num [phase1, presample, allowed]
  refine ⟨?_, by norm_num [passes]⟩
  unfold optimize
  rw [h1, if_neg (by simp)]
  simp only [List.foldlM_cons, List.foldlM_nil]
  have e1 : shrink (passes true) (1 / 2) 3 (fun _ => 1) = some fun _ => 1 := by
    norm_num [shrink, passes]
  have e2 : shrink (passes false) (1 / 2) 3 (fun _ => 1) = some fun _ => 1 * (1 / 2) * (1 / 2) := by
    norm_num [shrink, passes]
  rw [e1]
  simp only [Option.bind_eq_bind, Option.bind_some, e2]
  rfl

/-! ### the loop of evaluate_integrals -/

/-- One parameter after some reductions. -/
theorem reduceValue_le {mn f x : ℝ} (hf : f ≤ 1) (hmn : 0 ≤ mn) :
    reduceValue mn f x ≤ x ∧ min x mn ≤ reduceValue mn f x ∧ reduceValue mn f x ≤ max mn (x * f) := by
  unfold reduceValue
  split
  · rename_i h
    have hx : 0 ≤ x := hmn.trans h.le
    split
    · rename_i h2; exact ⟨h.le, min_le_right _ _, le_max_left _ _⟩
    · rename_i h2
      exact ⟨by nlinarith, (min_le_right _ _).trans (not_lt.1 h2), le_max_right _ _⟩
  · rename_i h; exact ⟨le_rfl, min_le_left _ _, (not_lt.1 h).trans (le_max_left _ _)⟩

/-- The value of a parameter after `k` failed attempts: multiplied by the `k`th power of the decrease factor, but not below the
minimum; parameters at or below the minimum are not changed. -/
noncomputable def valueAfter (mn f : ℝ) (k : ℕ) (x : ℝ) : ℝ := if x ≤ mn then x else max mn (x * f ^ k)

/-- The parameters after `k` failed attempts. -/
noncomputable def setsAfter (k : ℕ) (ps : List ParSet) : List ParSet :=
  ps.map fun P => ⟨P.values.map (valueAfter P.minimum P.factor k), P.minimum, P.factor⟩

/-- The minima are positive and the decrease factors are positive and less than one. -/
def Sensible (ps : List ParSet) : Prop := ∀ P ∈ ps, 0 < P.minimum ∧ 0 < P.factor ∧ P.factor < 1

theorem valueAfter_succ {mn f x : ℝ} (hmn : 0 < mn) (hf : 0 < f) (hf1 : f < 1) (k : ℕ) :
    reduceValue mn f (valueAfter mn f k x) = valueAfter mn f (k+1) x := by
  unfold valueAfter
  by_cases h : x ≤ mn
  · rw [if_pos h, if_pos h]
    unfold reduceValue
    rw [if_neg (not_lt.2 h)]
  · rw [if_neg h, if_neg h]
    have hx : 0 < x := hmn.trans (not_le.1 h)
    have hp : 0 < f ^ k := pow_pos hf k
    unfold reduceValue
    by_cases h2 : x * f ^ k ≤ mn
    · rw [max_eq_left h2, if_neg (lt_irrefl _), pow_succ, ← mul_assoc, max_eq_left]
      nlinarith [mul_pos hx hp]
    · push Not at h2
      rw [max_eq_right h2.le, if_pos h2, pow_succ, ← mul_assoc]
      split
      · rename_i h3; rw [max_eq_left h3.le]
      · rename_i h3; rw [max_eq_right (not_lt.1 h3)]

theorem reduce_setsAfter {ps : List ParSet} (h : Sensible ps) (k : ℕ) : reduce (setsAfter k ps) = setsAfter (k+1) ps := by
  unfold reduce setsAfter
  rw [List.map_map]
  refine List.map_congr_left fun P hP => ?_
  obtain ⟨h1, h2, h3⟩ := h P hP
  simp only [Function.comp, List.map_map, ParSet.mk.injEq, and_true]
  exact List.map_congr_left fun x _ => valueAfter_succ h1 h2 h3 k

theorem setsAfter_zero {ps : List ParSet} : setsAfter 0 ps = ps := by
  unfold setsAfter
  conv_rhs => rw [← List.map_id ps]
  refine List.map_congr_left fun P _ => ?_
  have : P.values.map (valueAfter P.minimum P.factor 0) = P.values := by
    conv_rhs => rw [← List.map_id P.values]
    refine List.map_congr_left fun x _ => ?_
    unfold valueAfter
    split
    · rfl
    · rename_i h; simp only [pow_zero, mul_one, id]; exact max_eq_right (not_le.1 h).le
  rw [this]; rfl

theorem changes_false {ps : List ParSet} : changes ps = false ↔ ∀ P ∈ ps, ∀ x ∈ P.values, x ≤ P.minimum := by
  simp [changes]

/-- After finitely many reductions all parameters are at their minimum. -/
theorem setsAfter_minimum {ps : List ParSet} (h : Sensible ps) : ∃ K, ∀ k ≥ K, changes (setsAfter k ps) = false := by
  induction ps with
  | nil => exact ⟨0, fun k _ => rfl⟩
  | cons P ps ih =>
    obtain ⟨K1, h1⟩ := ih fun Q hQ => h Q (List.mem_cons_of_mem _ hQ)
    obtain ⟨hmn, hf, hf1⟩ := h P (List.mem_cons_self ..)
    have : ∀ l : List ℝ, ∃ K, ∀ k ≥ K, ∀ x ∈ l, valueAfter P.minimum P.factor k x ≤ P.minimum := by
      intro l
      induction l with
      | nil => exact ⟨0, by simp⟩
      | cons x l ihl =>
        obtain ⟨K2, h2⟩ := ihl
        by_cases hx : x ≤ P.minimum
        · refine ⟨K2, fun k hk y hy => ?_⟩
          rcases List.mem_cons.1 hy with rfl | hy
          · unfold valueAfter; rw [if_pos hx]; exact hx
          · exact h2 k hk y hy
        · have hx0 : 0 < x := hmn.trans (not_le.1 hx)
          obtain ⟨K3, h3⟩ := exists_pow_lt_of_lt_one (div_pos hmn hx0) hf1
          refine ⟨max K2 K3, fun k hk y hy => ?_⟩
          rcases List.mem_cons.1 hy with rfl | hy
          · unfold valueAfter
            rw [if_neg hx]
            refine max_le le_rfl ?_
            have h4 : P.factor ^ k ≤ P.factor ^ K3 := pow_le_pow_of_le_one hf.le hf1.le (le_trans (le_max_right _ _) hk)
            have h5 : P.factor ^ k < P.minimum / y := lt_of_le_of_lt h4 h3
            rw [lt_div_iff₀ hx0] at h5
            linarith
          · exact h2 k (le_trans (le_max_left _ _) hk) y hy
    obtain ⟨K2, h2⟩ := this P.values
    refine ⟨max K1 K2, fun k hk => ?_⟩
    rw [changes_false]
    intro Q hQ x hx
    simp only [setsAfter, List.map_cons, List.mem_cons] at hQ
    rcases hQ with rfl | hQ
    · simp only [List.mem_map] at hx
      obtain ⟨y, hy, rfl⟩ := hx
      exact h2 k (le_trans (le_max_right _ _) hk) y hy
    · exact changes_false.1 (h1 k (le_trans (le_max_left _ _) hk)) Q hQ x hx

/-- The integral can be evaluated again after a failure: the integrator is not one of those which are used only once, and there is a
large enough lattice. -/
def Repeatable (k : Kind) : Prop :=
  match k with
  | .qmc g => ∀ m, m ≤ g m
  | .cuba divonne => divonne = false
  | .single => False

/-- The number of points with which the integrator is called. -/
def asked (k : Kind) (m : ℕ) : ℕ :=
  match k with
  | .qmc g => g m
  | _ => m

theorem tryCompute_eq (k : Kind) (integrate : ℕ → Option Answer) (I : Integral) (h : I.allowRefine = true ∧ I.next > I.n) :
    tryCompute k integrate I = match integrate (asked k I.next) with
      | some a => (compute k (fun _ => a) I, true)
      | none => (failedImpl k I, false) := by
  unfold tryCompute
  rw [if_pos h]
  cases k <;> rfl

theorem failed_repeat {k : Kind} (hk : Repeatable k) {I : Integral} (h : I.allowRefine = true ∧ I.next > I.n) :
    (failedImpl k I).allowRefine = true ∧ (failedImpl k I).next > (failedImpl k I).n ∧ (failedImpl k I).n = I.n ∧
    (failedImpl k I).result = I.result ∧ (failedImpl k I).time = I.time ∧ (failedImpl k I).next = asked k I.next := by
  rcases k with g | b | _
  · have h1 : ¬ g I.next < I.next := not_lt.2 (hk I.next)
    have h2 : I.n < g I.next := lt_of_lt_of_le h.2 (hk I.next)
    simp only [failedImpl, h1, if_false, Integral.setNext, if_true, asked, max_eq_left h2.le]
    exact ⟨h.1, h2, trivial, trivial, trivial, trivial⟩
  · have hb : b = false := hk
    subst hb
    simp only [failedImpl, Bool.false_eq_true, if_false, asked]
    exact ⟨h.1, h.2, trivial, trivial, trivial, trivial⟩
  · exact absurd hk (by simp [Repeatable])

/-- What a successful evaluation leaves. -/
theorem compute_repeat {k : Kind} (hk : Repeatable k) (hidem : asked k (asked k m) = asked k m) {I J : Integral} (a : Answer)
    (h : I.allowRefine = true ∧ I.next > I.n) (hI : I.next = m)
    (hJ : J = I ∨ (J.n = I.n ∧ J.allowRefine = true ∧ J.result = I.result ∧ J.next = asked k m ∧ J.next > J.n)) :
    compute k (fun _ => a) J = compute k (fun _ => a) I := by
  rcases hJ with rfl | ⟨j1, j2, j3, j4, j5⟩
  · rfl
  unfold compute
  rw [if_pos ⟨j2, j5⟩, if_pos h]
  obtain ⟨In, Inext, Ia, Ir, It⟩ := I
  obtain ⟨Jn, Jnext, Ja, Jr, Jt⟩ := J
  simp only at *
  subst j1 j2 j3 j4 hI
  obtain ⟨h1, h2⟩ := h
  subst h1
  rcases k with g | b | _
  · simp only [asked] at *
    have e1 : ¬ g Inext < Inext := not_lt.2 (hk Inext)
    simp only [computeImpl, hidem, lt_irrefl, e1, if_false, Integral.setNext, if_true]
    split
    · rfl
    · split <;> rfl
  · have hb : b = false := hk
    subst hb
    simp [computeImpl, Integral.setNext]
  · exact absurd hk (by simp [Repeatable])

/-- Repeated attempts, seen from the start. -/
theorem retry_spec {k : Kind} (hk : Repeatable k) (hidem : ∀ m, asked k (asked k m) = asked k m)
    (integrate : List ParSet → ℕ → Option Answer) {ps : List ParSet} (hps : Sensible ps) {I : Integral}
    (hI : I.allowRefine = true ∧ I.next > I.n) (fuel : ℕ) :
    ∀ (j : ℕ) (J : Integral), (J = I ∨ (J.n = I.n ∧ J.allowRefine = true ∧ J.result = I.result ∧ J.next = asked k I.next ∧ J.next > J.n)) →
      (∀ i < j, integrate (setsAfter i ps) (asked k I.next) = none) → ∀ {r}, retry k integrate fuel (setsAfter j ps) J = some r →
      ∃ j', (∀ i < j', integrate (setsAfter i ps) (asked k I.next) = none) ∧
        ((∃ a, integrate (setsAfter j' ps) (asked k I.next) = some a ∧ r = .ok (compute k (fun _ => a) I) (setsAfter j' ps)) ∨
         (integrate (setsAfter j' ps) (asked k I.next) = none ∧ changes (setsAfter j' ps) = false ∧ r = .error)) := by
  induction fuel with
  | zero => intro j J _ _ r h; simp [retry] at h
  | succ f ih =>
    intro j J hJ hfail r h
    have hJr : J.allowRefine = true ∧ J.next > J.n := by
      rcases hJ with rfl | h1
      · exact hI
      · exact ⟨h1.2.1, h1.2.2.2.2⟩
    have hask : asked k J.next = asked k I.next := by
      rcases hJ with rfl | h1
      · rfl
      · rw [h1.2.2.2.1, hidem]
    unfold retry at h
    rw [tryCompute_eq k _ J hJr, hask] at h
    rcases hint : integrate (setsAfter j ps) (asked k I.next) with _ | a
    · rw [hint] at h
      simp only at h
      split at h
      · rw [reduce_setsAfter hps] at h
        obtain ⟨g1, g2, g3, g4, g5, g6⟩ := failed_repeat hk hJr
        refine ih (j+1) (failedImpl k J) (Or.inr ⟨?_, g1, ?_, by rw [g6, hask], g2⟩) ?_ h
        · rw [g3]; rcases hJ with rfl | h1; exacts [rfl, h1.1]
        · rw [g4]; rcases hJ with rfl | h1; exacts [rfl, h1.2.2.1]
        · intro i hi
          rcases Nat.lt_succ_iff_lt_or_eq.1 hi with hi | rfl
          · exact hfail i hi
          · exact hint
      · rename_i h1
        simp only [Option.some.injEq] at h
        exact ⟨j, hfail, Or.inr ⟨hint, by simpa using h1, h.symm⟩⟩
    · rw [hint] at h
      simp only [Option.some.injEq] at h
      refine ⟨j, hfail, Or.inl ⟨a, hint, ?_⟩⟩
      rw [← h, compute_repeat hk (hidem I.next) a hI rfl hJ]

/-- C41: reducing the deformation parameters after failed sign checks.  For the integrators that can be called again: the loop ends;
it returns the result of the first successful integration, with the parameters that were used for it, which are the
original ones multiplied by a power of the decrease factor but not reduced below the minimum; or it reports an error, and then the integration
failed for all these parameters, down to the minimum. -/
theorem C41_retry {k : Kind} (hk : Repeatable k) (hidem : ∀ m, asked k (asked k m) = asked k m)
    (integrate : List ParSet → ℕ → Option Answer) {ps : List ParSet} (hps : Sensible ps) {I : Integral}
    (hI : I.allowRefine = true ∧ I.next > I.n) :
    ∃ fuel r, (∀ fuel' ≥ fuel, retry k integrate fuel' ps I = some r) ∧
      ∃ j, (∀ i < j, integrate (setsAfter i ps) (asked k I.next) = none) ∧
        ((∃ a, integrate (setsAfter j ps) (asked k I.next) = some a ∧ r = .ok (compute k (fun _ => a) I) (setsAfter j ps)) ∨
         (integrate (setsAfter j ps) (asked k I.next) = none ∧
          (∀ P ∈ setsAfter j ps, ∀ x ∈ P.values, x ≤ P.minimum) ∧ r = .error)) := by
  obtain ⟨K, hK⟩ := setsAfter_minimum hps
  have hmore : ∀ fuel ps I r, retry k integrate fuel ps I = some r → ∀ fuel' ≥ fuel, retry k integrate fuel' ps I = some r := by
    intro fuel
    induction fuel with
    | zero => intro ps I r h; simp [retry] at h
    | succ f ih =>
      intro ps I r h fuel' hf
      obtain ⟨m, rfl⟩ : ∃ m, fuel' = m + 1 := ⟨fuel' - 1, by omega⟩
      unfold retry at h ⊢
      split
      · rename_i e; rw [e] at h; exact h
      · rename_i e
        rw [e] at h
        simp only at h
        split
        · rename_i h1; rw [if_pos h1] at h; exact ih _ _ _ h m (by omega)
        · rename_i h1; rw [if_neg h1] at h; exact h
  have hend : ∀ d j J, K - j ≤ d → ∃ r, retry k integrate (d + 1) (setsAfter j ps) J = some r := by
    intro d
    induction d with
    | zero =>
      intro j J hj
      unfold retry
      split
      · exact ⟨_, rfl⟩
      · rw [if_neg (by rw [hK j (by omega)]; simp)]
        exact ⟨_, rfl⟩
    | succ d ih =>
      intro j J hj
      unfold retry
      split
      · exact ⟨_, rfl⟩
      · split
        · rw [reduce_setsAfter hps]
          exact ih (j+1) _ (by omega)
        · exact ⟨_, rfl⟩
  obtain ⟨r, hr⟩ := hend K 0 I (by omega)
  rw [setsAfter_zero] at hr
  refine ⟨K+1, r, hmore _ _ _ _ hr, ?_⟩
  obtain ⟨j, h1, h2⟩ := retry_spec hk hidem integrate hps hI (K+1) 0 I (Or.inl rfl) (by simp) (by rw [setsAfter_zero]; exact hr)
  refine ⟨j, h1, ?_⟩
  rcases h2 with h2 | ⟨h2, h3, h4⟩
  · exact Or.inl h2
  · exact Or.inr ⟨h2, changes_false.1 h3, h4⟩

/-- C41 fails for Divonne, CQuad, and a lattice that is smaller than asked for: the flag `allow_refine` is cleared before
the integration, so after a failed sign check the second attempt does nothing and counts as a success.  The integral is not computed
(`n` and the result are as before), and will not be computed later. -/
theorem C41_once_defect {k : Kind} {I : Integral} (hI : I.allowRefine = true ∧ I.next > I.n)
    (hk : k = .cuba true ∨ k = .single ∨ ∃ g, k = .qmc g ∧ g I.next < I.next)
    (integrate : List ParSet → ℕ → Option Answer) {ps : List ParSet} (hfail : integrate ps (asked k I.next) = none)
    (hps : changes ps = true) (fuel : ℕ) (hf : 2 ≤ fuel) :
    ∃ J, retry k integrate fuel ps I = some (.ok J (reduce ps)) ∧ J.n = I.n ∧ J.result = I.result ∧ J.allowRefine = false := by
  obtain ⟨m, rfl⟩ : ∃ m, fuel = m + 2 := ⟨fuel - 2, by omega⟩
  have hJ : (failedImpl k I).allowRefine = false ∧ (failedImpl k I).n = I.n ∧ (failedImpl k I).result = I.result := by
    rcases hk with rfl | rfl | ⟨g, rfl, hg⟩
    · simp [failedImpl]
    · simp [failedImpl]
    · simp [failedImpl, hg, Integral.setNext]
  refine ⟨failedImpl k I, ?_, hJ.2.1, hJ.2.2, hJ.1⟩
  unfold retry
  rw [tryCompute_eq k _ I hI, hfail]
  simp only [hps, if_true]
  unfold retry tryCompute
  rw [if_neg (by rw [hJ.1]; simp)]

/-! ### the hypotheses can be met -/

example : Sensible [⟨[1, 0.5], 1e-5, 0.9⟩, ⟨[2], 1e-5, 0.9⟩] := by
  intro P hP
  simp only [List.mem_cons, List.not_mem_nil, or_false] at hP
  rcases hP with rfl | rfl <;> norm_num

/-- A failing attempt followed by a successful one: the parameter is reduced from 1 to 1/2 and the result belongs to 1/2. -/
example : ∃ fuel J, retry (.cuba false) (fun ps m => if ps.any (fun P => P.values.any fun x => decide (x > 1 / 2)) then none else
    some ⟨⟨7, 0⟩, 3, m⟩) fuel [⟨[1], 1e-5, 1 / 2⟩] ⟨0, 100, true, ⟨0, 0⟩, 0⟩ = some (.ok J [⟨[1 * (1 / 2)], 1e-5, 1 / 2⟩]) ∧ J.n = 100 ∧
      J.result = ⟨7, 0⟩ := by
  refine ⟨2, ⟨100, 100, true, ⟨7, 0⟩, 3⟩, ?_, rfl, rfl⟩
  simp only [retry]
  rw [tryCompute_eq _ _ _ ⟨rfl, by norm_num⟩]
  have h1 : ([⟨[1], 1e-5, 1 / 2⟩] : List ParSet).any (fun P => P.values.any fun x => decide (x > 1 / 2)) = true := by
    norm_num
  have h2 : changes [⟨[1], 1e-5, 1 / 2⟩] = true := by norm_num [changes]
  have h3 : reduce [⟨[1], 1e-5, 1 / 2⟩] = [⟨[1 * (1 / 2)], 1e-5, 1 / 2⟩] := by norm_num [reduce, reduceValue]
  have h4 : ([⟨[1 * (1 / 2)], 1e-5, 1 / 2⟩] : List ParSet).any (fun P => P.values.any fun x => decide (x > 1 / 2)) = false := by
    norm_num
  simp only [asked, h1, if_true, failedImpl, Bool.false_eq_true, if_false, h2, h3]
  rw [tryCompute_eq _ _ _ ⟨rfl, by norm_num⟩]
  simp only [asked, h4, Bool.false_eq_true, if_false]
  simp [compute, computeImpl, Integral.setNext]

/-- The sign check of the deformed polynomial `x - i lam` passes for all parameters. -/
example : ∀ o : Fin 1 → ℝ, (∀ j, 0 ≤ o j ∧ o j < 1) → passesSignCheck (fun (x : ℝ) o => (⟨x, -o 0⟩ : ℂ)) 3 o = true := by
  intro o ho
  have := (ho 0).1
  simp [passesSignCheck, this]

end Deform
end SecDec
