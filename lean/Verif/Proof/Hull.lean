import Verif.Proof.FanMeasure
import Mathlib.Analysis.Convex.Measure
import Mathlib.Analysis.LocallyConvex.Separation
import Mathlib.LinearAlgebra.Dual.Lemmas
/- The Newton polytope of the geometric decomposition: helper lemmas for C61. -/
set_option linter.unusedSectionVars false
namespace SecDec.Geometric
open SecDec SecDec.Squash SecDec.Decomp MeasureTheory

variable {n : Nat}

/-! ### `convex_hull` -/

theorem sum_mul_simplify (φ : Expo n → Int) (p : Poly n Int) :
    (p.simplify.terms.map (fun t => t.2 * φ t.1)).sum = (p.terms.map (fun t => t.2 * φ t.1)).sum :=
  Poly.lsum_simplify (fun e => AddMonoidHom.mulRight (φ e)) p

theorem sum_flatMap {A : Type} (l : List A) (f : A → List Int) : (l.flatMap f).sum = (l.map (fun a => (f a).sum)).sum := by
  induction l with
  | nil => rfl
  | cons a l ih => simp [List.flatMap_cons, ih]

theorem sum_fold (ls : List (List (Expo n))) (P : Poly n Int) (φ : Expo n → Int) :
    ((ls.foldl (fun P l => P.mul ⟨l.map (fun e => (e, 1))⟩) P).terms.map (fun t => t.2 * φ t.1)).sum =
      (P.terms.map (fun t => t.2 * ((choices ls).map (fun g => φ (t.1 + g.sum))).sum)).sum := by
  induction ls generalizing P with
  | nil => simp [choices]
  | cons l ls ih =>
    rw [List.foldl_cons, ih]
    unfold Poly.mul
    rw [sum_mul_simplify (fun x => ((choices ls).map (fun g => φ (x + g.sum))).sum)]
    simp only [List.map_flatMap, sum_flatMap, List.map_map]
    congr 1
    refine List.map_congr_left fun s _ => ?_
    simp only [choices, List.map_flatMap, sum_flatMap, List.map_map]
    rw [← List.sum_map_mul_left]
    refine congrArg List.sum (List.map_congr_left fun a _ => ?_)
    simp only [Function.comp_apply, one_mul]
    refine congrArg (fun x => s.2 * x) (congrArg List.sum (List.map_congr_left fun g _ => ?_))
    simp only [Function.comp_apply, List.sum_cons]
    refine congrArg φ ?_
    abel

theorem coeffOf_as_sum (p : Poly n Int) (e : Expo n) :
    p.coeffOf e = (p.terms.map (fun t => t.2 * if t.1 = e then 1 else 0)).sum := by
  unfold Poly.coeffOf
  induction p.terms with
  | nil => rfl
  | cons t l ih =>
    simp only [List.filter_cons, List.map_cons, List.sum_cons]
    by_cases h : t.1 = e
    · simp [h, ih]
    · simp [h, ih]

theorem coeffOf_of_nodup {p : Poly n Int} (h : (p.terms.map (·.1)).Nodup) {t : Expo n × Int} (ht : t ∈ p.terms) :
    p.coeffOf t.1 = t.2 := by
  unfold Poly.coeffOf
  generalize p.terms = l at h ht
  induction l with
  | nil => simp at ht
  | cons u l ih =>
    rw [List.map_cons, List.nodup_cons] at h
    rcases List.mem_cons.1 ht with rfl | ht
    · have : l.filter (fun u => decide (u.1 = t.1)) = [] := by
        rw [List.filter_eq_nil_iff]
        intro u hu h2
        exact h.1 (List.mem_map.2 ⟨u, hu, by simpa using h2⟩)
      simp [List.filter_cons, this]
    · have hne : u.1 ≠ t.1 := fun h2 => h.1 (List.mem_map.2 ⟨t, ht, h2.symm⟩)
      simp [List.filter_cons, hne]
      exact ih h.2 ht

theorem simplify_nodup (p : Poly n Int) : (p.simplify.terms.map (·.1)).Nodup := by
  rw [Poly.simplify_nz]
  split
  · simp [Poly.zeroPoly]
  · unfold List.Nodup
    rw [List.pairwise_map]
    exact (Poly.nz_sorted p).imp (fun h => h.2)

theorem fold_nodup {l : List (Expo n)} (hl : l.Nodup) (ls : List (List (Expo n))) :
    ((ls.foldl (fun P l => P.mul ⟨l.map (fun e => (e, 1))⟩)
      (⟨l.map (fun e => (e, 1))⟩ : Poly n Int)).terms.map (·.1)).Nodup := by
  rcases List.eq_nil_or_concat ls with rfl | ⟨ls, l', rfl⟩
  · simpa [Function.comp_def] using hl
  · rw [List.concat_eq_append, List.foldl_append, List.foldl_cons, List.foldl_nil]
    unfold Poly.mul
    exact simplify_nodup _

theorem sum_indicator {A : Type} (l : List A) (p : A → Prop) [DecidablePred p] :
    (l.map (fun a => if p a then (1 : Int) else 0)).sum = ((l.filter (fun a => decide (p a))).length : Int) := by
  induction l with
  | nil => rfl
  | cons a l ih =>
    simp only [List.map_cons, List.sum_cons, List.filter_cons, ih]
    by_cases h : p a <;> simp [h]; omega

/-- the points passed to `normaliz`: the sums with exactly one representation -/
theorem mem_hullPoints {L : List (List (Expo n))} (hL : L ≠ []) (hnd : ∀ l ∈ L, l.Nodup) (e : Expo n) :
    e ∈ hullPoints L ↔ ∃ g ∈ choices L, g.sum = e ∧ ∀ g' ∈ choices L, g'.sum = e → g' = g := by
  obtain ⟨l, ls, rfl⟩ := List.exists_cons_of_ne_nil hL
  have hfn := fold_nodup (hnd l (by simp)) ls
  have hc : (ls.foldl (fun P l => P.mul ⟨l.map (fun e => (e, 1))⟩)
      (⟨l.map (fun e => (e, 1))⟩ : Poly n Int)).coeffOf e =
      (((choices (l :: ls)).filter (fun g => decide (g.sum = e))).length : Int) := by
    rw [coeffOf_as_sum, sum_fold ls _ (fun x => if x = e then 1 else 0), ← sum_indicator]
    simp only [List.map_map, choices, List.map_flatMap, sum_flatMap]
    congr 1
    refine List.map_congr_left fun a _ => ?_
    simp only [Function.comp, one_mul, List.sum_cons]
    rfl
  have h1 : e ∈ hullPoints (l :: ls) ↔ (ls.foldl (fun P l => P.mul ⟨l.map (fun e => (e, 1))⟩)
      (⟨l.map (fun e => (e, 1))⟩ : Poly n Int)).coeffOf e = 1 := by
    unfold hullPoints
    simp only [List.mem_map, List.mem_filter, decide_eq_true_eq]
    constructor
    · rintro ⟨t, ⟨ht, h1⟩, rfl⟩
      rw [coeffOf_of_nodup hfn ht, h1]
    · intro h1
      have hne : ∃ t ∈ (ls.foldl (fun P l => P.mul ⟨l.map (fun e => (e, 1))⟩)
          (⟨l.map (fun e => (e, 1))⟩ : Poly n Int)).terms, t.1 = e := by
        by_contra hno
        have : (ls.foldl (fun P l => P.mul ⟨l.map (fun e => (e, 1))⟩)
          (⟨l.map (fun e => (e, 1))⟩ : Poly n Int)).terms.filter (fun t => decide (t.1 = e)) = [] := by
          rw [List.filter_eq_nil_iff]
          intro t ht h2
          exact hno ⟨t, ht, by simpa using h2⟩
        unfold Poly.coeffOf at h1
        rw [this] at h1
        simp at h1
      obtain ⟨t, ht, rfl⟩ := hne
      rw [coeffOf_of_nodup hfn ht] at h1
      exact ⟨t, ⟨ht, h1⟩, rfl⟩
  rw [h1, hc]
  have hcn := choices_nodup hnd
  constructor
  · intro h2
    have h2 : ((choices (l :: ls)).filter (fun g => decide (g.sum = e))).length = 1 := by exact_mod_cast h2
    obtain ⟨g, hg⟩ := List.length_eq_one_iff.1 h2
    have hm : ∀ g', g' ∈ (choices (l :: ls)).filter (fun g => decide (g.sum = e)) ↔ g' = g := by
      intro g'; rw [hg]; simp
    simp only [List.mem_filter, decide_eq_true_eq] at hm
    exact ⟨g, ((hm g).2 rfl).1, ((hm g).2 rfl).2, fun g' h3 h4 => (hm g').1 ⟨h3, h4⟩⟩
  · rintro ⟨g, hg, hs, hu⟩
    have : ((choices (l :: ls)).filter (fun g => decide (g.sum = e))).length = 1 := by
      apply le_antisymm
      · by_contra h2
        have hnf := hcn.filter (fun g => decide (g.sum = e))
        have h2 : 1 < ((choices (l :: ls)).filter (fun g => decide (g.sum = e))).length := by omega
        have a := List.getElem_mem (show 0 < ((choices (l :: ls)).filter (fun g => decide (g.sum = e))).length by omega)
        have b := List.getElem_mem h2
        have hab := (List.nodup_iff_injective_get.1 hnf).ne
          (a₁ := ⟨0, by omega⟩) (a₂ := ⟨1, h2⟩) (by simp)
        apply hab
        simp only [List.get_eq_getElem]
        rw [List.mem_filter] at a b
        rw [hu _ a.1 (by simpa using a.2), hu _ b.1 (by simpa using b.2)]
      · exact List.length_pos_of_mem (List.mem_filter.2 ⟨hg, by simpa using hs⟩)
    rw [this]; rfl

/-! ### weights of sums -/

theorem pair_add (e f : Expo n) (y : Fin n → ℝ) : pair (e + f) y = pair e y + pair f y := by
  unfold pair
  rw [← Finset.sum_add_distrib]
  exact Finset.sum_congr rfl (fun i _ => by rw [Pi.add_apply]; push_cast; ring)

theorem pair_zero (y : Fin n → ℝ) : pair (0 : Expo n) y = 0 := by simp [pair]

theorem pair_comm_point (e f : Expo n) : pair e (point f) = pair f (point e) := by
  unfold pair point
  exact Finset.sum_congr rfl (fun i _ => mul_comm _ _)

theorem pair_point (e f : Expo n) : pair e (point f) = ((∑ i, e i * f i : Int) : ℝ) := by
  unfold pair point; push_cast; rfl

theorem generic_min {L : List (List (Expo n))} (hL : ∀ l ∈ L, l ≠ []) {y : Fin n → ℝ}
    (hgen : ∀ l ∈ L, ∀ e ∈ l, ∀ e' ∈ l, e ≠ e' → pair (e - e') y ≠ 0) :
    ∃ f ∈ choices L, ∀ g ∈ choices L, g ≠ f → pair f.sum y < pair g.sum y := by
  induction L with
  | nil => exact ⟨[], by simp [choices], by simp [choices]⟩
  | cons l L ih =>
    obtain ⟨f, hf, hmin⟩ := ih (fun l hl => hL l (by simp [hl])) (fun l hl => hgen l (by simp [hl]))
    obtain ⟨a, ha, hm⟩ := Finset.exists_min_image l.toFinset (fun e => pair e y)
      (by simpa [Finset.nonempty_iff_ne_empty] using hL l (by simp))
    have ha : a ∈ l := by simpa using ha
    have hm2 : ∀ e ∈ l, e ≠ a → pair a y < pair e y := by
      intro e he hne
      have h1 := hm e (by simpa using he)
      have h2 := hgen l (by simp) e he a ha hne
      rw [pair_sub] at h2
      exact lt_of_le_of_ne h1 (fun h3 => h2 (by rw [h3]; ring))
    refine ⟨a :: f, mem_choices.2 (.cons ha (mem_choices.1 hf)), ?_⟩
    intro g hg hne
    have hg := mem_choices.1 hg
    cases hg with
    | @cons _ b _ g hb hg =>
      rename_i hgt
      replace hg := mem_choices.2 hgt
      simp only [List.sum_cons, pair_add]
      by_cases hba : b = a
      · subst hba
        have := hmin g hg (fun h => hne (by rw [h]))
        linarith
      · have h1 := hm2 b hb hba
        by_cases hgf : g = f
        · subst hgf; linarith
        · have := hmin g hg hgf
          linarith

theorem min_unique {L : List (List (Expo n))} {y : Fin n → ℝ} {f : List (Expo n)}
    (hmin : ∀ g ∈ choices L, g ≠ f → pair f.sum y < pair g.sum y) :
    ∀ g ∈ choices L, g.sum = f.sum → g = f := by
  intro g hg hs
  by_contra hne
  have := hmin g hg hne
  rw [hs] at this
  exact lt_irrefl _ this

/-- the walls between the regions of different minimal exponents -/
noncomputable def expoWalls (L : List (List (Expo n))) : List (Submodule ℝ (Fin n → ℝ)) :=
  L.flatMap (fun l => l.flatMap (fun e => (l.filter (fun e' => decide (e ≠ e'))).map (fun e' => wall (e - e'))))

theorem mem_expoWalls {L : List (List (Expo n))} {p : Submodule ℝ (Fin n → ℝ)} :
    p ∈ expoWalls L ↔ ∃ l ∈ L, ∃ e ∈ l, ∃ e', (e' ∈ l ∧ e ≠ e') ∧ wall (e - e') = p := by
  unfold expoWalls
  simp only [List.mem_flatMap, List.mem_map, List.mem_filter, decide_eq_true_eq]

theorem expoWalls_ne_top {L : List (List (Expo n))} : ∀ p ∈ expoWalls L, p ≠ ⊤ := by
  intro p hp
  obtain ⟨l, _, e, _, e', ⟨_, hne⟩, rfl⟩ := mem_expoWalls.1 hp
  exact wall_ne_top (sub_ne_zero.2 hne)

theorem generic_of_walls {L : List (List (Expo n))} {y : Fin n → ℝ} (h : ∀ p ∈ expoWalls L, y ∉ p) :
    ∀ l ∈ L, ∀ e ∈ l, ∀ e' ∈ l, e ≠ e' → pair (e - e') y ≠ 0 := by
  intro l hl e he e' he' hne h0
  exact h _ (mem_expoWalls.2 ⟨l, hl, e, he, e', ⟨he', hne⟩, rfl⟩) (mem_wall.2 h0)

theorem ae_not_mem_list (P : List (Submodule ℝ (Fin n → ℝ))) (hp : ∀ p ∈ P, p ≠ ⊤) :
    ∀ᵐ y : Fin n → ℝ, ∀ p ∈ P, y ∉ p := by
  induction P with
  | nil => simp
  | cons p P ih =>
    have h1 : ∀ᵐ y : Fin n → ℝ, y ∉ p := by
      rw [ae_iff]
      simp only [not_not]
      exact Measure.addHaar_submodule volume p (hp p (by simp))
    filter_upwards [ih (fun q hq => hp q (by simp [hq])), h1] with y h2 h3 q hq
    rcases List.mem_cons.1 hq with rfl | hq
    · exact h3
    · exact h2 q hq

theorem continuous_pair (e : Expo n) : Continuous (fun y : Fin n → ℝ => pair e y) := by
  unfold pair
  exact continuous_finsetSum _ (fun i _ => continuous_const.mul (continuous_apply i))

/-- dropping the points with several representations does not change any minimum -/
theorem hull_min {L : List (List (Expo n))} (hL0 : L ≠ []) (hL : ∀ l ∈ L, l ≠ []) (hnd : ∀ l ∈ L, l.Nodup)
    (y : Fin n → ℝ) {g : List (Expo n)} (hg : g ∈ choices L) :
    ∃ s ∈ hullPoints L, pair s y ≤ pair g.sum y := by
  have hd : Dense {y : Fin n → ℝ | ∀ p ∈ expoWalls L, y ∉ p} :=
    Measure.dense_of_ae (μ := volume) (ae_not_mem_list _ expoWalls_ne_top)
  have hcl : IsClosed (⋃ s ∈ {s | s ∈ hullPoints L}, {y : Fin n → ℝ | pair s y ≤ pair g.sum y}) := by
    refine Set.Finite.isClosed_biUnion (List.finite_toSet _) (fun s _ => ?_)
    exact isClosed_le (continuous_pair s) (continuous_pair g.sum)
  have hsub : {y : Fin n → ℝ | ∀ p ∈ expoWalls L, y ∉ p} ⊆
      ⋃ s ∈ {s | s ∈ hullPoints L}, {y : Fin n → ℝ | pair s y ≤ pair g.sum y} := by
    intro y hy
    obtain ⟨f, hf, hmin⟩ := generic_min hL (generic_of_walls hy)
    refine Set.mem_iUnion₂.2 ⟨f.sum, (mem_hullPoints hL0 hnd _).2 ⟨f, hf, rfl, min_unique hmin⟩, ?_⟩
    by_cases hgf : g = f
    · subst hgf; exact le_refl (pair g.sum y)
    · exact (hmin g hg hgf).le
  have := closure_minimal hsub hcl
  rw [hd.closure_eq] at this
  obtain ⟨s, hs, h⟩ := Set.mem_iUnion₂.1 (this (Set.mem_univ y))
  exact ⟨s, hs, h⟩

/-! ### convexity -/

/-- the weight of a point along `y` -/
noncomputable def dotR (y z : Fin n → ℝ) : ℝ := ∑ i, y i * z i

theorem dotR_point (y : Fin n → ℝ) (e : Expo n) : dotR y (point e) = pair e y := by
  unfold dotR pair point
  exact Finset.sum_congr rfl (fun i _ => mul_comm _ _)

theorem dotR_add (y z w : Fin n → ℝ) : dotR y (z + w) = dotR y z + dotR y w := by
  unfold dotR
  rw [← Finset.sum_add_distrib]
  exact Finset.sum_congr rfl (fun i _ => by rw [Pi.add_apply]; ring)

theorem dotR_smul (y z : Fin n → ℝ) (a : ℝ) : dotR y (a • z) = a * dotR y z := by
  unfold dotR
  rw [Finset.mul_sum]
  exact Finset.sum_congr rfl (fun i _ => by rw [Pi.smul_apply, smul_eq_mul]; ring)

theorem dotR_comm (y z : Fin n → ℝ) : dotR y z = dotR z y := by
  unfold dotR
  exact Finset.sum_congr rfl (fun i _ => mul_comm _ _)

theorem pair_eq_dotR (e : Expo n) (z : Fin n → ℝ) : pair e z = dotR (point e) z := rfl

/-- a strict minimum is an extreme point -/
theorem extreme_of_strict {pts : List (Expo n)} {v : Expo n} (hv : v ∈ pts) {y : Fin n → ℝ}
    (h : ∀ s ∈ pts, s ≠ v → pair v y < pair s y) :
    point v ∈ Set.extremePoints ℝ (convexHull ℝ (point '' {e | e ∈ pts})) := by
  have hconv : Convex ℝ ({z : Fin n → ℝ | dotR y (point v) < dotR y z} ∪ {point v}) := by
    intro a ha b hb s t hs ht hst
    have hge : ∀ z ∈ ({z : Fin n → ℝ | dotR y (point v) < dotR y z} ∪ {point v}),
        dotR y (point v) ≤ dotR y z := by
      intro z hz
      rcases hz with hz | hz
      · exact le_of_lt hz
      · rw [hz]
    have h1 := hge a ha
    have h2 := hge b hb
    by_cases hs0 : s = 0
    · subst hs0
      have : t = 1 := by linarith
      subst this; simpa using hb
    by_cases ht0 : t = 0
    · subst ht0
      have : s = 1 := by linarith
      subst this; simpa using ha
    have hs' : 0 < s := lt_of_le_of_ne hs (Ne.symm hs0)
    have ht' : 0 < t := lt_of_le_of_ne ht (Ne.symm ht0)
    rcases ha with ha | ha
    · left
      simp only [Set.mem_ofPred_eq] at ha ⊢
      rw [dotR_add, dotR_smul, dotR_smul]
      have e1 : dotR y (point v) = s * dotR y (point v) + t * dotR y (point v) := by rw [← add_mul, hst, one_mul]
      rw [e1]
      have := mul_lt_mul_of_pos_left ha hs'
      have := mul_le_mul_of_nonneg_left h2 ht
      linarith
    · rcases hb with hb | hb
      · left
        simp only [Set.mem_ofPred_eq] at hb ⊢
        rw [dotR_add, dotR_smul, dotR_smul]
        have e1 : dotR y (point v) = s * dotR y (point v) + t * dotR y (point v) := by rw [← add_mul, hst, one_mul]
        rw [e1]
        have := mul_lt_mul_of_pos_left hb ht'
        have := mul_le_mul_of_nonneg_left h1 hs
        linarith
      · right
        rw [Set.mem_singleton_iff] at ha hb ⊢
        rw [ha, hb, ← add_smul, hst, one_smul]
  have hsub : convexHull ℝ (point '' {e | e ∈ pts}) ⊆ {z : Fin n → ℝ | dotR y (point v) < dotR y z} ∪ {point v} := by
    refine convexHull_min ?_ hconv
    rintro _ ⟨s, hs, rfl⟩
    by_cases hsv : s = v
    · right; rw [hsv]; rfl
    · left
      simp only [Set.mem_ofPred_eq, dotR_point]
      exact h s hs hsv
  rw [mem_extremePoints]
  refine ⟨subset_convexHull ℝ _ ⟨v, hv, rfl⟩, ?_⟩
  intro a ha b hb hab
  obtain ⟨s, t, hs, ht, hst, he⟩ := hab
  have h1 := hsub ha
  have h2 := hsub hb
  have hge : ∀ z ∈ ({z : Fin n → ℝ | dotR y (point v) < dotR y z} ∪ {point v}),
      dotR y (point v) ≤ dotR y z := by
    intro z hz
    rcases hz with hz | hz
    · exact le_of_lt hz
    · rw [hz]
  have g1 := hge a h1
  have g2 := hge b h2
  have e1 : dotR y (point v) = s * dotR y a + t * dotR y b := by
    rw [← he, dotR_add, dotR_smul, dotR_smul]
  have e2 : dotR y (point v) = s * dotR y (point v) + t * dotR y (point v) := by rw [← add_mul, hst, one_mul]
  have m1 := mul_le_mul_of_nonneg_left g1 hs.le
  have m2 := mul_le_mul_of_nonneg_left g2 ht.le
  constructor
  · rcases h1 with h1 | h1
    · have := mul_lt_mul_of_pos_left (show dotR y (point v) < dotR y a from h1) hs
      linarith
    · exact h1
  · rcases h2 with h2 | h2
    · have := mul_lt_mul_of_pos_left (show dotR y (point v) < dotR y b from h2) ht
      linarith
    · exact h2

theorem hull_ge {pts : List (Expo n)} {y : Fin n → ℝ} {m : ℝ} (h : ∀ s ∈ pts, m ≤ pair s y) {z : Fin n → ℝ}
    (hz : z ∈ convexHull ℝ (point '' {e | e ∈ pts})) : m ≤ dotR y z := by
  have hconv : Convex ℝ {z : Fin n → ℝ | m ≤ dotR y z} := by
    intro a ha b hb s t hs ht hst
    simp only [Set.mem_ofPred_eq] at ha hb ⊢
    rw [dotR_add, dotR_smul, dotR_smul]
    have e1 : m = s * m + t * m := by rw [← add_mul, hst, one_mul]
    rw [e1]
    have := mul_le_mul_of_nonneg_left ha hs
    have := mul_le_mul_of_nonneg_left hb ht
    linarith
  refine convexHull_min ?_ hconv hz
  rintro _ ⟨s, hs, rfl⟩
  simp only [Set.mem_ofPred_eq, dotR_point]
  exact h s hs

/-- a small step that violates no inequality -/
theorem small_step {A : Type} (l : List A) (a b : A → ℝ) (h : ∀ x ∈ l, 0 ≤ a x ∧ (a x = 0 → 0 ≤ b x)) :
    ∃ ε > 0, ∀ δ, 0 ≤ δ → δ ≤ ε → ∀ x ∈ l, 0 ≤ a x + δ * b x := by
  induction l with
  | nil => exact ⟨1, one_pos, by simp⟩
  | cons x l ih =>
    obtain ⟨ε, hε, h1⟩ := ih (fun y hy => h y (by simp [hy]))
    obtain ⟨h2, h3⟩ := h x (by simp)
    obtain ⟨η, hη, h4⟩ : ∃ η > 0, ∀ δ, 0 ≤ δ → δ ≤ η → 0 ≤ a x + δ * b x := by
      rcases eq_or_lt_of_le h2 with h0 | h0
      · exact ⟨1, one_pos, fun δ hδ _ => by rw [← h0, zero_add]; exact mul_nonneg hδ (h3 h0.symm)⟩
      · refine ⟨a x / (|b x| + 1), by positivity, fun δ hδ hle => ?_⟩
        have hb : -|b x| ≤ b x := neg_abs_le _
        have h5 : δ * (|b x| + 1) ≤ a x := by
          rwa [le_div_iff₀ (by positivity)] at hle
        nlinarith [abs_nonneg (b x)]
    refine ⟨min ε η, lt_min hε hη, fun δ hδ hle y hy => ?_⟩
    rcases List.mem_cons.1 hy with rfl | hy
    · exact h4 δ hδ (hle.trans (min_le_right _ _))
    · exact h1 δ hδ (hle.trans (min_le_left _ _)) y hy

/-- the cone generated by rays -/
def rayCone (rays : List (Expo n)) : Set (Fin n → ℝ) :=
  {y | ∃ c : Fin rays.length → ℝ, (∀ j, 0 ≤ c j) ∧ combine rays c = y}

theorem combine_add (rays : List (Expo n)) (c d : Fin rays.length → ℝ) (s t : ℝ) :
    combine rays (fun j => s * c j + t * d j) = s • combine rays c + t • combine rays d := by
  funext i
  simp only [combine, Pi.add_apply, Pi.smul_apply, smul_eq_mul, Finset.mul_sum, ← Finset.sum_add_distrib]
  exact Finset.sum_congr rfl (fun j _ => by ring)

theorem convex_rayCone (rays : List (Expo n)) : Convex ℝ (rayCone rays) := by
  rintro _ ⟨c, hc, rfl⟩ _ ⟨d, hd, rfl⟩ s t hs ht _
  exact ⟨fun j => s * c j + t * d j, fun j => add_nonneg (mul_nonneg hs (hc j)) (mul_nonneg ht (hd j)),
    combine_add rays c d s t⟩

theorem ray_mem_rayCone {rays : List (Expo n)} {r : Expo n} (hr : r ∈ rays) {a : ℝ} (ha : 0 ≤ a) :
    a • point r ∈ rayCone rays := by
  obtain ⟨k, hk, rfl⟩ := List.mem_iff_getElem.1 hr
  refine ⟨fun j => if j = ⟨k, hk⟩ then a else 0, fun j => by beta_reduce; split <;> simp [ha], ?_⟩
  funext i
  simp [combine, point]

/-- a functional as a scalar product -/
theorem functional_eq (f : (Fin n → ℝ) →ₗ[ℝ] ℝ) (z : Fin n → ℝ) :
    f z = dotR (fun i => f (Pi.single i 1)) z := by
  conv_lhs => rw [← Finset.univ_sum_single z]
  rw [map_sum]
  unfold dotR
  refine Finset.sum_congr rfl (fun i _ => ?_)
  have : Pi.single i (z i) = z i • (Pi.single i (1:ℝ) : Fin n → ℝ) := by
    rw [← Pi.single_smul]; simp
  rw [this, map_smul, smul_eq_mul, mul_comm]

/-- Farkas' lemma off the boundary of the cone -/
theorem separate {rays : List (Expo n)} {y : Fin n → ℝ} (hf : y ∉ frontier (rayCone rays))
    (hy : y ∉ rayCone rays) : ∃ d : Fin n → ℝ, (∀ r ∈ rays, 0 ≤ dotR (point r) d) ∧ dotR y d < 0 := by
  have hcl : y ∉ closure (rayCone rays) := by
    rw [closure_eq_self_union_frontier]
    rintro (h | h)
    · exact hy h
    · exact hf h
  obtain ⟨f, u, h1, h2⟩ := geometric_hahn_banach_closed_point (convex_rayCone rays).closure isClosed_closure hcl
  have hsub : ∀ a ∈ rayCone rays, f a < u := fun a ha => h1 a (subset_closure ha)
  have h0 : 0 < u := by
    have := hsub 0 ⟨fun _ => 0, fun _ => le_refl _, by funext i; simp [combine]⟩
    simpa using this
  have hfe : ∀ z, f z = dotR (fun i => f (Pi.single i 1)) z := fun z => functional_eq f.toLinearMap z
  refine ⟨fun i => - f (Pi.single i 1), ?_, ?_⟩
  · intro r hr
    by_contra hneg
    have hneg : dotR (point r) (fun i => - f (Pi.single i 1)) < 0 := not_le.1 hneg
    have e1 : dotR (point r) (fun i => - f (Pi.single i 1)) = - f (point r) := by
      rw [hfe]; unfold dotR; rw [← Finset.sum_neg_distrib]
      exact Finset.sum_congr rfl (fun i _ => by ring)
    rw [e1] at hneg
    have hp : 0 < f (point r) := by linarith
    have := hsub _ (ray_mem_rayCone hr (a := u / f (point r)) (by positivity))
    rw [map_smul, smul_eq_mul, div_mul_cancel₀ _ hp.ne'] at this
    exact lt_irrefl _ this
  · have e1 : dotR y (fun i => - f (Pi.single i 1)) = - f y := by
      rw [hfe]; unfold dotR; rw [← Finset.sum_neg_distrib]
      exact Finset.sum_congr rfl (fun i _ => by ring)
    rw [e1]; linarith

end SecDec.Geometric
