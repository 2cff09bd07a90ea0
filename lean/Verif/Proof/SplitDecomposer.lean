import Verif.Proof.SplitDecomp
import Verif.Proof.PackageChain
/-
The decompositions of a package keep the polynomials simplified.
-/
namespace SecDec.SplitDecomp
open SecDec SecDec.Squash SecDec.Splitting SecDec.Decomp SecDec.Package MeasureTheory
variable {n : Nat} {E : Type}

/-- Distinct exponent vectors, nonzero coefficients. -/
def Clean (s : Squash.Sector n ℝ E) : Prop :=
  s.cast ≠ [] ∧ ∀ p ∈ s.cast, (p.poly.terms.map (·.1)).Nodup ∧ ∀ t ∈ p.poly.terms, t.2 ≠ 0

theorem Tidy.clean {s : Squash.Sector n ℝ E} (h : Tidy s.cast) : Clean s := ⟨h.1, fun p hp => ⟨(h.2 p hp).nodup, (h.2 p hp).coeff⟩⟩

theorem Tidy.refactorized {s : Squash.Sector n ℝ E} (h : Tidy s.cast) : Refactorized s :=
  fun p hp => ⟨(h.2 p hp).ne, fun i => ⟨fun t ht => (h.2 p hp).nonneg t ht i, (h.2 p hp).free i⟩⟩

theorem Clean.tidy {s : Squash.Sector n ℝ E} (h : Clean s) (hr : Refactorized s) : Tidy s.cast :=
  ⟨h.1, fun p hp => ⟨(hr p hp).1, (h.2 p hp).1, (h.2 p hp).2, fun t ht i => ((hr p hp).2 i).1 t ht, fun i => ((hr p hp).2 i).2⟩⟩

theorem remapExpo_injective {a : Fin n} {rest : List (Fin n)} (ha : a ∉ rest) : Function.Injective (remapExpo (a :: rest)) := by
  intro e f h
  rw [remapExpo_cons a rest ha, remapExpo_cons a rest ha] at h
  have hne : ∀ j, j ≠ a → e j = f j := fun j hj => by
    have := congrFun h j
    rwa [Function.update_of_ne hj, Function.update_of_ne hj] at this
  have hsum : rest.map e = rest.map f := List.map_congr_left fun j hj => hne j (by rintro rfl; exact ha hj)
  have h1 := congrFun h a
  rw [Function.update_self, Function.update_self, hsum] at h1
  funext j
  by_cases hj : j = a
  · subst hj; omega
  · exact hne j hj

theorem refactorizeAt_clean {i : Fin n} {p q : SProd n ℝ E} (h : refactorizeAt i p = some q) (hd : (p.poly.terms.map (·.1)).Nodup)
    (hc : ∀ t ∈ p.poly.terms, t.2 ≠ 0) : (q.poly.terms.map (·.1)).Nodup ∧ ∀ t ∈ q.poly.terms, t.2 ≠ 0 := by
  unfold refactorizeAt at h
  rw [Option.map_eq_some_iff] at h
  obtain ⟨k, hk, rfl⟩ := h
  constructor
  · simp only [List.map_map]
    have : ((fun t : Expo n × ℝ => t.1) ∘ fun t : Expo n × ℝ => (Function.update t.1 i (t.1 i - k), t.2)) =
        (fun e : Expo n => Function.update e i (e i + -k)) ∘ fun t : Expo n × ℝ => t.1 := by
      funext t; simp [sub_eq_add_neg]
    rw [this, ← List.map_map]
    exact hd.map (update_inj i (-k))
  · intro t ht
    obtain ⟨u, hu, rfl⟩ := List.mem_map.1 ht
    exact hc u hu

theorem subsector_clean {s t : Squash.Sector n ℝ E} {a : Fin n} {rest : List (Fin n)} (ha : a ∉ rest) (hs : Clean s)
    (h : subsector s (a :: rest) = .ok t) : Clean t := by
  unfold subsector at h
  simp only at h
  split at h
  · cases h
  · rename_i cast hc
    cases h
    have hc := mapM_option_forall₂ hc
    rw [List.forall₂_map_left_iff] at hc
    have hl := hc.length_eq
    refine ⟨?_, fun q hq => ?_⟩
    · intro h0
      have h0 : cast = [] := h0
      rw [h0] at hl
      exact hs.1 (List.length_eq_zero_iff.1 hl)
    · have hq : q ∈ cast := hq
      obtain ⟨k, hk, rfl⟩ := List.mem_iff_getElem.1 hq
      have := List.forall₂_iff_get.1 hc |>.2 k (by omega) hk
      obtain ⟨h1, h2⟩ := hs.2 (s.cast[k]'(by omega)) (List.getElem_mem _)
      refine refactorizeAt_clean this ?_ ?_
      · simp only [remapTerms, List.map_map]
        have : ((fun t : Expo n × ℝ => t.1) ∘ fun t : Expo n × ℝ => (remapExpo (a :: rest) t.1, t.2)) =
          remapExpo (a :: rest) ∘ fun t : Expo n × ℝ => t.1 := rfl
        rw [this, ← List.map_map]
        exact h1.map (remapExpo_injective ha)
      · intro t ht
        simp only [remapTerms] at ht
        obtain ⟨u, hu, rfl⟩ := List.mem_map.1 ht
        exact h2 u hu

theorem iterative_clean {depth : ℕ} {s : Squash.Sector n ℝ E} {ts : List (Squash.Sector n ℝ E)} (hs : Clean s)
    (he : iterativeDecomposition (List.finRange n) depth s = some (.ok ts)) : ∀ t ∈ ts, Clean t := by
  revert hs
  refine iterative_induction (fun s ts => Clean s → ∀ t ∈ ts, Clean t) (List.finRange n) ?_ ?_ depth s ts he
  · intro s _ hs; simpa using hs
  · intro s subs rs hstep hrec hs
    have hsubs : ∀ t ∈ subs, Clean t := by
      unfold iterationStep at hstep
      cases hS : findSingularSet s (List.finRange n) with
      | error e => simp [hS, Except.bind] at hstep
      | ok S =>
        simp only [hS, Except.bind] at hstep
        have hf := mapM_except_forall₂ hstep
        obtain ⟨hsub, -, -⟩ := findSingularSet_ok hS
        have hSnd : S.Nodup := hsub.nodup (List.nodup_finRange n)
        have hsw := swappedSets_spec S hSnd
        intro t ht
        obtain ⟨i, hi, rfl⟩ := List.mem_iff_getElem.1 ht
        have hl := hf.length_eq
        have hl' := hsw.length_eq
        obtain ⟨rest, hr, hp⟩ := List.forall₂_iff_get.1 hsw |>.2 i (by omega) (by omega)
        have h1 := List.forall₂_iff_get.1 hf |>.2 i (by omega) hi
        rw [hr] at h1
        exact subsector_clean (by rw [hp.mem_iff]; exact hSnd.not_mem_erase) hs h1
    clear * - hsubs hrec
    induction hrec with
    | nil => simp
    | cons hp _ ih =>
      intro t ht
      rw [List.flatten_cons, List.mem_append] at ht
      rcases ht with ht | ht
      · exact hp (hsubs _ (by simp)) t ht
      · exact ih (fun t ht => hsubs t (by simp [ht])) t ht

theorem transformExpo_injective {T : Matrix (Fin n) (Fin n) Int} (hT : T.det ≠ 0) : Function.Injective (Geometric.transformExpo T) := by
  intro e f h
  have h0 : Matrix.vecMul (e - f) T = 0 := by
    rw [Matrix.sub_vecMul]; exact sub_eq_zero.2 h
  have := Matrix.eq_zero_of_vecMul_eq_zero hT h0
  exact sub_eq_zero.1 this

theorem makeSectorKu_clean {s t : Squash.Sector n ℝ E} {T : Matrix (Fin n) (Fin n) Int} (hs : Clean s) (hT : T.det ≠ 0)
    (h : Geometric.makeSectorKu s T = some t) : Clean t := by
  unfold Geometric.makeSectorKu at h
  simp only [Option.map_eq_some_iff] at h
  obtain ⟨cast, hc, rfl⟩ := h
  replace hc := mapM_option_forall₂ hc
  have hlen : s.cast.length = cast.length := by rw [← hc.length_eq]; simp [Sector.mapExpo]
  refine ⟨?_, fun q hq => ?_⟩
  · intro h0
    have h0 : cast = [] := h0
    rw [h0] at hlen
    exact hs.1 (List.length_eq_zero_iff.1 hlen)
  · have hq : q ∈ cast := hq
    obtain ⟨i, hi, rfl⟩ := List.mem_iff_getElem.1 hq
    have h1 := hc.get (i := i) (by simp only [Sector.mapExpo, List.length_map]; omega) hi
    obtain ⟨a, b⟩ := hs.2 (s.cast[i]'(by omega)) (List.getElem_mem _)
    obtain ⟨k, hk, -⟩ := Geometric.refactorizeProd_shape h1
    rw [List.get_eq_getElem] at hk
    rw [hk]
    simp only [Sector.mapExpo, List.get_eq_getElem, List.getElem_map, List.map_map]
    constructor
    · have : ((fun t : Expo n × ℝ => t.1) ∘ ((fun t : Expo n × ℝ => (t.1 - k, t.2)) ∘ fun t : Expo n × ℝ => (Geometric.transformExpo T t.1, t.2))) =
          (fun e => Geometric.transformExpo T e - k) ∘ fun t : Expo n × ℝ => t.1 := rfl
      rw [this, ← List.map_map]
      exact a.map fun e f h => transformExpo_injective hT (sub_left_injective h)
    · intro t ht
      obtain ⟨u, hu, rfl⟩ := List.mem_map.1 ht
      exact b u hu

theorem decomposer {o : Options} (hn : 0 < n) (hm : o.method ≠ .geometric) (hz : ∀ s : Squash.Sector n ℝ (Poly 1 ℚ), Tidy s.cast → NormalizCorrect o s) :
    Decomposer (n := n) (secondary o) := by
  intro s ts hs h
  have hz := hz s hs
  unfold secondary at h
  unfold NormalizCorrect at hz
  dsimp only at hz
  cases hm' : o.method with
  | iterative =>
    simp only [hm'] at h
    split at h
    · rename_i ts' he
      simp only [Option.some.injEq] at h
      subst h
      obtain ⟨ts', e, hst⟩ := C16_iterative_decomposition_standard_form s _ (List.nodup_finRange n) hs.refactorized o.depth _ he
      cases e
      exact ⟨fun t ht => ⟨(iterative_clean hs.clean he t ht).tidy (hst t ht).2, (hst t ht).1⟩,
        fun F hF => C15_iterative_decomposition_preserves_integral s _ (List.nodup_finRange n) o.depth _ he F hF⟩
    · cases h
  | geometric => exact absurd hm' hm
  | geometricKu =>
    simp only [hm'] at h hz
    obtain ⟨sec, h1, h2, -, h3⟩ := Geometric.ku_core hn s hs.1 (fun p hp => (hs.2 p hp).ne) (fun p hp => (hs.2 p hp).nodup) _ hz
    rw [h1, Option.some.injEq] at h
    subst h
    refine ⟨fun t ht => ?_, fun F hF => h3 F hF⟩
    obtain ⟨a, T, b, c⟩ := h2 t ht
    exact ⟨(makeSectorKu_clean hs.clean b c).tidy a.1, a.2⟩

end SecDec.SplitDecomp
