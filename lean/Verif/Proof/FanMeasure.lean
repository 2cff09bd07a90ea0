import Verif.Proof.Fan
import Mathlib.LinearAlgebra.Dimension.Constructions
/- Simplicial cones, null sets and refactorization: helper lemmas for C60 and C61. -/
set_option linter.unusedSectionVars false
namespace SecDec.Geometric
open SecDec SecDec.Squash SecDec.Decomp MeasureTheory

variable {n : Nat}

/-! ### null sets -/

theorem null_log (p : Submodule ℝ (Fin n → ℝ)) (hp : p ≠ ⊤) :
    ∀ᵐ x : Fin n → ℝ, (∀ i, 0 < x i) → (fun i => Real.log (x i)) ∉ p := by
  have h0 : volume ((fun (v : Fin n → ℝ) i => Real.exp (v i)) '' (p : Set (Fin n → ℝ))) = 0 := by
    apply addHaar_image_eq_zero_of_differentiableOn_of_addHaar_eq_zero
    · apply Differentiable.differentiableOn
      rw [differentiable_pi]
      intro i
      exact (differentiable_apply i).exp
    · exact Measure.addHaar_submodule volume p hp
  rw [ae_iff]
  refine measure_mono_null ?_ h0
  intro x hx
  simp only [Set.mem_ofPred_eq, not_forall, not_not] at hx
  obtain ⟨h1, h2⟩ := hx
  exact ⟨_, h2, funext fun i => Real.exp_log (h1 i)⟩

theorem null_log_list (P : List (Submodule ℝ (Fin n → ℝ))) (hp : ∀ p ∈ P, p ≠ ⊤) :
    ∀ᵐ x : Fin n → ℝ, (∀ i, 0 < x i) → ∀ p ∈ P, (fun i => Real.log (x i)) ∉ p := by
  induction P with
  | nil => simp
  | cons p P ih =>
    filter_upwards [ih (fun q hq => hp q (by simp [hq])), null_log p (hp p (by simp))] with x h1 h2 hx q hq
    rcases List.mem_cons.1 hq with rfl | hq
    · exact h2 hx
    · exact h1 hx q hq

/-- the wall of an inequality -/
noncomputable def wall (h : Expo n) : Submodule ℝ (Fin n → ℝ) :=
  LinearMap.ker (∑ i, (h i : ℝ) • (LinearMap.proj i : (Fin n → ℝ) →ₗ[ℝ] ℝ))

theorem mem_wall {h : Expo n} {y : Fin n → ℝ} : y ∈ wall h ↔ pair h y = 0 := by
  unfold wall pair
  rw [LinearMap.mem_ker]
  simp [LinearMap.sum_apply]

theorem wall_ne_top {h : Expo n} (hh : h ≠ 0) : wall h ≠ ⊤ := by
  intro ht
  apply hh
  funext i
  have : (fun j => if j = i then (1:ℝ) else 0) ∈ wall h := by rw [ht]; trivial
  rw [mem_wall] at this
  simpa [pair] using this

/-- the span of the rays except number `j` -/
noncomputable def faceSpan (t : List (Expo n)) (j : Fin t.length) : Submodule ℝ (Fin n → ℝ) :=
  Submodule.span ℝ ((fun (k : Fin t.length) (i : Fin n) => ((t.get k i : Int) : ℝ)) '' {j}ᶜ)

/-- the span of all rays -/
noncomputable def fullSpan (t : List (Expo n)) : Submodule ℝ (Fin n → ℝ) :=
  Submodule.span ℝ (Set.range (fun (k : Fin t.length) (i : Fin n) => ((t.get k i : Int) : ℝ)))

theorem span_image_ne_top {ι : Type} (s : Finset ι) (v : ι → Fin n → ℝ) (h : s.card < n) :
    Submodule.span ℝ (v '' (s : Set ι)) ≠ ⊤ := by
  classical
  intro ht
  have h1 := finrank_span_le_card (R := ℝ) (v '' (s : Set ι))
  rw [ht, finrank_top, Module.finrank_fin_fun] at h1
  have h2 : (v '' (s : Set ι)).toFinset.card ≤ s.card := by
    have : (v '' (s : Set ι)).toFinset = s.image v := by ext; simp
    rw [this]; exact Finset.card_image_le
  omega

theorem faceSpan_ne_top (t : List (Expo n)) (j : Fin t.length) (h : t.length ≤ n) : faceSpan t j ≠ ⊤ := by
  unfold faceSpan
  have := span_image_ne_top (Finset.univ.erase j)
    (fun (k : Fin t.length) (i : Fin n) => ((t.get k i : Int) : ℝ)) (by
      rw [Finset.card_erase_of_mem (Finset.mem_univ _), Finset.card_univ, Fintype.card_fin]
      have := j.pos; omega)
  have he : ((Finset.univ.erase j : Finset (Fin t.length)) : Set (Fin t.length)) = {j}ᶜ := by
    ext k; simp
  rwa [he] at this

theorem fullSpan_ne_top (t : List (Expo n)) (h : t.length < n) : fullSpan t ≠ ⊤ := by
  unfold fullSpan
  have := span_image_ne_top (Finset.univ : Finset (Fin t.length))
    (fun (k : Fin t.length) (i : Fin n) => ((t.get k i : Int) : ℝ)) (by simpa using h)
  simpa using this

theorem combine_eq_sum (t : List (Expo n)) (c : Fin t.length → ℝ) :
    combine t c = ∑ j, c j • (fun (i : Fin n) => ((t.get j i : Int) : ℝ)) := by
  funext i
  unfold combine
  rw [Finset.sum_apply]
  rfl

theorem combine_mem_fullSpan (t : List (Expo n)) (c : Fin t.length → ℝ) : combine t c ∈ fullSpan t := by
  rw [combine_eq_sum]
  exact Submodule.sum_mem _ (fun j _ => Submodule.smul_mem _ _ (Submodule.subset_span ⟨j, rfl⟩))

theorem combine_mem_faceSpan (t : List (Expo n)) (c : Fin t.length → ℝ) (j : Fin t.length) (h : c j = 0) :
    combine t c ∈ faceSpan t j := by
  rw [combine_eq_sum]
  refine Submodule.sum_mem _ (fun k _ => ?_)
  by_cases hk : k = j
  · subst hk; rw [h, zero_smul]; exact Submodule.zero_mem _
  · exact Submodule.smul_mem _ _ (Submodule.subset_span ⟨k, hk, rfl⟩)

theorem length_le_of_independent {t : List (Expo n)}
    (h : LinearIndependent ℝ (fun (j : Fin t.length) (i : Fin n) => ((t.get j i : Int) : ℝ))) : t.length ≤ n := by
  have := h.fintype_card_le_finrank
  simpa using this

/-! ### full dimensional simplicial cones -/

theorem rayMatrix_some {t : List (Expo n)} {T : Matrix (Fin n) (Fin n) Int} (h : rayMatrix t = some T) :
    ∃ hl : t.length = n, ∀ i j, T i j = t.get (Fin.cast hl.symm j) i := by
  unfold rayMatrix at h
  split at h
  · rename_i hl
    refine ⟨hl, fun i j => ?_⟩
    injection h with h
    subst h
    rw [Matrix.of_apply]
    have : (j : Nat) < t.length := by rw [hl]; exact j.2
    rw [List.getD_eq_getElem _ _ this]
    rfl
  · exact absurd h (by simp)

theorem rayMatrix_total {t : List (Expo n)} (h : t.length = n) : ∃ T, rayMatrix t = some T := by
  unfold rayMatrix; rw [if_pos h]; exact ⟨_, rfl⟩

theorem det_ne_zero_of_rays {t : List (Expo n)} {T : Matrix (Fin n) (Fin n) Int} (h : rayMatrix t = some T)
    (hi : LinearIndependent ℝ (fun (j : Fin t.length) (i : Fin n) => ((t.get j i : Int) : ℝ))) : T.det ≠ 0 := by
  obtain ⟨hl, hT⟩ := rayMatrix_some h
  have h2 : LinearIndependent ℝ (fun j : Fin n => (T.map (Int.cast : Int → ℝ)).transpose j) := by
    have := hi.comp (Fin.cast hl.symm) (Fin.cast_injective _)
    convert this using 2
    funext i
    simp [hT]
  have h3 : IsUnit (T.map (Int.cast : Int → ℝ)).transpose := Matrix.linearIndependent_rows_iff_isUnit.1 h2
  rw [Matrix.isUnit_iff_isUnit_det, Matrix.det_transpose] at h3
  intro h0
  have h4 : (T.map (Int.cast : Int → ℝ)).det = ((T.det : Int) : ℝ) := by
    have := (Int.castRingHom ℝ).map_det T
    exact this.symm
  rw [h4, h0] at h3
  simp at h3

theorem mem_coneRegion_iff {t : List (Expo n)} {T : Matrix (Fin n) (Fin n) Int} (h : rayMatrix t = some T)
    {x : Fin n → ℝ} : x ∈ coneRegion T ↔
      (∀ i, 0 < x i) ∧ ∃ c : Fin t.length → ℝ, (∀ j, 0 < c j) ∧ combine t c = fun i => -Real.log (x i) := by
  obtain ⟨hl, hT⟩ := rayMatrix_some h
  unfold coneRegion
  simp only [Set.mem_ofPred_eq]
  refine and_congr_right fun hx => ?_
  constructor
  · rintro ⟨u, hu, h2⟩
    refine ⟨fun j => - u (Fin.cast hl j), fun j => by have := hu (Fin.cast hl j); linarith, ?_⟩
    funext i
    unfold combine
    rw [h2 i, ← Finset.sum_neg_distrib]
    refine Fintype.sum_equiv (finCongr hl) _ _ (fun j => ?_)
    rw [hT]
    simp
    ring
  · rintro ⟨c, hc, h2⟩
    refine ⟨fun j => - c (Fin.cast hl.symm j), fun j => by have := hc (Fin.cast hl.symm j); linarith, ?_⟩
    intro i
    have h3 := congrFun h2 i
    simp only [combine] at h3
    have h4 : Real.log (x i) = - ∑ j, c j * ((t.get j i : Int) : ℝ) := by rw [h3]; ring
    rw [h4, ← Finset.sum_neg_distrib]
    refine Fintype.sum_equiv (finCongr hl) _ _ (fun j => ?_)
    rw [hT]
    simp
    ring

theorem pair_combine (h : Expo n) (t : List (Expo n)) (c : Fin t.length → ℝ) :
    pair h (combine t c) = ∑ j, c j * ((∑ i, h i * t.get j i : Int) : ℝ) := by
  unfold pair combine
  simp only [Finset.mul_sum]
  rw [Finset.sum_comm]
  refine Finset.sum_congr rfl fun j _ => ?_
  push_cast
  rw [Finset.mul_sum]
  exact Finset.sum_congr rfl fun i _ => by ring

/-- interior points of a full dimensional simplicial cone are strictly inside -/
theorem combine_strict {t : List (Expo n)} {T : Matrix (Fin n) (Fin n) Int} (h : rayMatrix t = some T)
    (hdet : T.det ≠ 0) {e : Expo n} (he : e ≠ 0) (hr : ∀ r ∈ t, 0 ≤ ∑ i, e i * r i)
    {c : Fin t.length → ℝ} (hc : ∀ j, 0 < c j) : 0 < pair e (combine t c) := by
  rw [pair_combine]
  have hn : ∀ j ∈ Finset.univ, 0 ≤ c j * ((∑ i, e i * t.get j i : Int) : ℝ) := fun j _ =>
    mul_nonneg (hc j).le (by exact_mod_cast hr _ (List.get_mem t j))
  refine lt_of_le_of_ne (Finset.sum_nonneg hn) (fun h0 => he ?_)
  rw [eq_comm, Finset.sum_eq_zero_iff_of_nonneg hn] at h0
  obtain ⟨hl, hT⟩ := rayMatrix_some h
  apply Matrix.eq_zero_of_vecMul_eq_zero hdet
  funext j
  have := h0 (Fin.cast hl.symm j) (Finset.mem_univ _)
  rcases mul_eq_zero.1 this with h1 | h1
  · exact absurd h1 (hc _).ne'
  · have h2 : (∑ i, e i * t.get (Fin.cast hl.symm j) i : Int) = 0 := by exact_mod_cast h1
    unfold Matrix.vecMul dotProduct
    simpa [hT] using h2

/-! ### refactorization -/

theorem refactorizeAt_shape {E R : Type} {i : Fin n} {p q : SProd n R E} (h : refactorizeAt i p = some q) :
    ∃ k : Int, q.poly.terms = p.poly.terms.map (fun t => (Function.update t.1 i (t.1 i - k), t.2)) ∧
      (∀ t ∈ p.poly.terms, k ≤ t.1 i) ∧ ∃ t ∈ p.poly.terms, t.1 i = k := by
  unfold refactorizeAt at h
  rw [Option.map_eq_some_iff] at h
  obtain ⟨k, hk, rfl⟩ := h
  have h1 := List.min?_mem hk
  have h2 := (List.min?_eq_some_iff.1 hk).2
  refine ⟨k, rfl, fun t ht => h2 _ (List.mem_map.2 ⟨t, ht, rfl⟩), ?_⟩
  obtain ⟨t, ht, h3⟩ := List.mem_map.1 h1
  exact ⟨t, ht, h3⟩

theorem refactorize_fold {E R : Type} {l : List (Fin n)} (hl : l.Nodup) {p q : SProd n R E}
    (h : l.foldlM (fun p i => refactorizeAt i p) p = some q) :
    ∃ k : Expo n, (∀ i, i ∉ l → k i = 0) ∧ q.poly.terms = p.poly.terms.map (fun t => (t.1 - k, t.2)) ∧
      ∀ i ∈ l, (∀ t ∈ p.poly.terms, k i ≤ t.1 i) ∧ ∃ t ∈ p.poly.terms, t.1 i = k i := by
  induction l generalizing p with
  | nil =>
    simp at h; subst h
    exact ⟨0, fun _ _ => rfl, by simp, by simp⟩
  | cons i l ih =>
    rw [List.foldlM_cons, Option.bind_eq_bind, Option.bind_eq_some_iff] at h
    obtain ⟨r, hr, h⟩ := h
    obtain ⟨m, hm, hmin, t0, ht0, hm0⟩ := refactorizeAt_shape hr
    obtain ⟨hil, hl⟩ := List.nodup_cons.1 hl
    obtain ⟨k, hk0, hkt, hk⟩ := ih hl h
    refine ⟨Function.update k i m, ?_, ?_, ?_⟩
    · intro j hj
      simp only [List.mem_cons, not_or] at hj
      rw [Function.update_of_ne hj.1, hk0 j hj.2]
    · rw [hkt, hm, List.map_map]
      refine List.map_congr_left fun t _ => ?_
      simp only [Function.comp]
      refine Prod.ext ?_ rfl
      funext j
      by_cases hj : j = i
      · subst hj; simp [hk0 j hil]
      · simp [hj]
    · intro j hj
      by_cases hji : j = i
      · subst hji
        simp only [Function.update_self]
        exact ⟨hmin, t0, ht0, hm0⟩
      · rw [Function.update_of_ne hji]
        obtain ⟨a, t, ht, b⟩ := hk j ((List.mem_cons.1 hj).resolve_left hji)
        rw [hm] at a ht
        constructor
        · intro t ht
          have := a _ (List.mem_map.2 ⟨t, ht, rfl⟩)
          simpa [hji] using this
        · obtain ⟨u, hu, rfl⟩ := List.mem_map.1 ht
          exact ⟨u, hu, by simpa [hji] using b⟩

theorem refactorizeProd_shape {E R : Type} {p q : SProd n R E} (h : refactorizeProd p = some q) :
    ∃ k : Expo n, q.poly.terms = p.poly.terms.map (fun t => (t.1 - k, t.2)) ∧
      ∀ i, (∀ t ∈ p.poly.terms, k i ≤ t.1 i) ∧ ∃ t ∈ p.poly.terms, t.1 i = k i := by
  obtain ⟨k, _, h1, h2⟩ := refactorize_fold (List.nodup_finRange n) h
  exact ⟨k, h1, fun i => h2 i (List.mem_finRange i)⟩

/-- A sector of a cone on which one exponent of each polynomial is minimal has the standard form. -/
theorem makeSectorKu_standard {E R : Type} [CommRing R] {s t : Sector n R E} {T : Matrix (Fin n) (Fin n) Int}
    (h : makeSectorKu s T = some t) (hne : ∀ p ∈ s.cast, p.poly.terms ≠ [])
    (hmin : ∀ p ∈ s.cast, ∃ f ∈ p.poly.terms, ∀ e ∈ p.poly.terms, ∀ j, 0 ≤ ∑ i, (e.1 - f.1) i * T i j) :
    Refactorized t ∧ StandardForm (List.finRange n) t := by
  unfold makeSectorKu at h
  simp only [Option.map_eq_some_iff] at h
  obtain ⟨cast, hc, rfl⟩ := h
  replace hc := mapM_option_forall₂ hc
  have key : ∀ q ∈ cast, ∃ p ∈ s.cast, refactorizeProd (R := R) (E := E)
      ⟨(transformExpo T p.mono.1, p.mono.2), ⟨p.poly.terms.map (fun t => (transformExpo T t.1, t.2)), p.poly.exponent⟩⟩ = some q := by
    intro q hq
    obtain ⟨i, hi, rfl⟩ := List.mem_iff_getElem.1 hq
    have hlen : s.cast.length = cast.length := by rw [← hc.length_eq]; simp [Sector.mapExpo]
    have h1 := hc.get (i := i) (by simp only [Sector.mapExpo, List.length_map]; omega) hi
    refine ⟨s.cast[i]'(by omega), List.getElem_mem _, ?_⟩
    simpa [Sector.mapExpo] using h1
  constructor
  · intro q hq
    obtain ⟨p, hp, h2⟩ := key q hq
    obtain ⟨k, hk, hk2⟩ := refactorizeProd_shape h2
    simp only at hk hk2
    refine ⟨by rw [hk]; simpa using hne p hp, fun i => ⟨?_, ?_⟩⟩
    · intro t ht
      rw [hk] at ht
      obtain ⟨u, hu, rfl⟩ := List.mem_map.1 ht
      have := (hk2 i).1 u hu
      simp only [Pi.sub_apply]; omega
    · obtain ⟨u, hu, hu2⟩ := (hk2 i).2
      exact ⟨(u.1 - k, u.2), by rw [hk]; exact List.mem_map.2 ⟨u, hu, rfl⟩, by simp [hu2]⟩
  · intro q hq
    obtain ⟨p, hp, h2⟩ := key q hq
    obtain ⟨k, hk, hk2⟩ := refactorizeProd_shape h2
    simp only at hk hk2
    obtain ⟨f, hf, hm⟩ := hmin p hp
    refine ⟨(transformExpo T f.1 - k, f.2), by rw [hk, List.map_map]; exact List.mem_map.2 ⟨f, hf, rfl⟩, ?_⟩
    intro j _
    obtain ⟨a, u, hu, b⟩ := hk2 j
    obtain ⟨e, he, rfl⟩ := List.mem_map.1 hu
    have h3 := a _ (List.mem_map.2 ⟨f, hf, rfl⟩)
    have h4 := hm e he j
    simp only [Pi.sub_apply, sub_mul, Finset.sum_sub_distrib] at h4
    simp only [transformExpo, Matrix.vecMul, dotProduct, Pi.sub_apply] at b h3 ⊢
    omega

end SecDec.Geometric
