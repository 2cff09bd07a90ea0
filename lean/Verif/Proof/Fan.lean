import Mathlib.LinearAlgebra.Matrix.ToLinearEquiv
import Mathlib.LinearAlgebra.Matrix.NonsingularInverse
import Mathlib.Analysis.SpecialFunctions.ExpDeriv
import Verif.Props.Geometric
import Verif.Props.Polynomial
/- The fan of the Kaneko-Ueda strategy: helper lemmas for C60. -/
set_option linter.unusedSectionVars false
namespace SecDec.Geometric
open SecDec SecDec.Squash SecDec.Decomp MeasureTheory

variable {n : Nat}

/-! ### rows of a cone -/

theorem mem_simplify {p : Poly n Int} (hne : ∃ e, p.coeffOf e ≠ 0) (e : Expo n) :
    e ∈ p.simplify.expolist ↔ p.coeffOf e ≠ 0 := by
  have hnz : ¬ p.nzTerms.length = 0 := by
    intro h
    obtain ⟨f, hf⟩ := hne
    apply hf
    have h2 := Poly.simplify_nz p
    rw [if_pos h] at h2
    rw [← Poly.coeffOf_simplify, h2]
    unfold Poly.coeffOf Poly.zeroPoly
    by_cases h3 : (fun _ => 0 : Expo n) = f
    · subst h3; simp
    · have : ¬ ((0 : Expo n) = f) := h3
      simp [List.filter_cons, h3, this]
  have h2 := Poly.simplify_nz p
  rw [if_neg hnz] at h2
  rw [← Poly.coeffOf_simplify]
  constructor
  · intro he
    obtain ⟨t, ht, rfl⟩ := List.mem_map.1 he
    rw [Poly.coeffOf_eq]
    rw [h2] at ht ⊢
    rw [Poly.coeffOf_of_mem (Poly.nz_sorted p) ht]
    exact Poly.nz_ne_zero p t ht
  · intro he
    by_contra hmem
    apply he
    unfold Poly.coeffOf
    have : p.simplify.terms.filter (fun t => decide (t.1 = e)) = [] := by
      rw [List.filter_eq_nil_iff]
      intro t ht h
      apply hmem
      exact List.mem_map.2 ⟨t, ht, by simpa using h⟩
    rw [this]; rfl

theorem coeffOf_units (l : List (Expo n)) (e : Expo n) :
    (⟨l.map (fun h => (h, 1))⟩ : Poly n Int).coeffOf e = l.count e := by
  unfold Poly.coeffOf
  induction l with
  | nil => simp
  | cons a l ih =>
    simp only [List.map_cons, List.filter_cons, List.count_cons]
    by_cases h : a = e
    · simp [h] at ih ⊢; omega
    · simp [h] at ih ⊢; omega

theorem coeffOf_conePoly (rows : List (Expo n)) (e : Expo n) :
    (conePoly rows).coeffOf e = rows.count e + (identityRows n).count e := by
  unfold conePoly Poly.add Poly.subOrAdd
  rw [Poly.coeffOf_simplify, ← coeffOf_units rows, ← coeffOf_units (identityRows n)]
  unfold Poly.coeffOf
  simp only [Bool.false_eq_true, if_false, List.map_map, List.filter_append, List.map_append, List.sum_append]
  rfl

theorem coeffOf_drop (p : Poly n Int) (r : Expo n → Bool) (e : Expo n) :
    (⟨p.terms.map (fun t => (t.1, if r t.1 then 0 else t.2))⟩ : Poly n Int).coeffOf e =
      if r e then 0 else p.coeffOf e := by
  unfold Poly.coeffOf
  simp only
  induction p.terms with
  | nil => simp
  | cons t l ih =>
    simp only [List.map_cons, List.filter_cons]
    by_cases h : t.1 = e
    · subst h
      by_cases h2 : r t.1 = true
      · simp [h2] at ih ⊢; exact ih
      · simp [h2] at ih ⊢; exact ih
    · simp [h]; simpa using ih

theorem identity_not_redundant (i : Fin n) :
    redundantRow (fun j => if j = i then 1 else 0 : Expo n) = false := by
  unfold redundantRow
  simp only [Bool.or_eq_false_iff, Bool.and_eq_false_iff, decide_eq_false_iff_not]
  refine ⟨?_, fun h => by simpa using h i⟩
  by_cases hn : 1 < n
  · right
    intro h
    obtain ⟨j, hj⟩ : ∃ j : Fin n, j ≠ i := by
      by_cases h0 : i.val = 0
      · exact ⟨⟨1, hn⟩, fun h => by have := congrArg Fin.val h; simp at this; omega⟩
      · exact ⟨⟨0, by omega⟩, fun h => by have := congrArg Fin.val h; simp at this; omega⟩
    have := h j
    simp [hj] at this
  · left; exact hn

theorem mem_coneRows (hn : 0 < n) (L : List (List (Expo n))) (f : List (Expo n)) (h : Expo n) :
    h ∈ coneRows L f ↔ (h ∈ differenceRows L f ∨ h ∈ identityRows n) ∧ redundantRow h = false := by
  unfold coneRows
  have key : ∀ e, (⟨(conePoly (differenceRows L f)).terms.map
      (fun t => (t.1, if redundantRow t.1 then 0 else t.2))⟩ : Poly n Int).coeffOf e ≠ 0 ↔
      (e ∈ differenceRows L f ∨ e ∈ identityRows n) ∧ redundantRow e = false := by
    intro e
    rw [coeffOf_drop, coeffOf_conePoly]
    by_cases hr : redundantRow e = true
    · simp [hr]
    · have : redundantRow e = false := by simpa using hr
      simp only [this, Bool.false_eq_true, if_false, and_true, ← List.count_pos_iff]
      omega
  rw [mem_simplify ⟨_, (key _).2 ⟨Or.inr (List.mem_map.2 ⟨⟨0, hn⟩, List.mem_finRange _, rfl⟩),
    identity_not_redundant ⟨0, hn⟩⟩⟩, key]

/-- strict solutions -/
def Strict (cone : List (Expo n)) (y : Fin n → ℝ) : Prop := ∀ h ∈ cone, 0 < pair h y

theorem strict_pos (hn : 0 < n) {L : List (List (Expo n))} {f : List (Expo n)} {y : Fin n → ℝ}
    (hy : Strict (coneRows L f) y) (i : Fin n) : 0 < y i := by
  have := hy _ ((mem_coneRows hn L f _).2 ⟨Or.inr (List.mem_map.2 ⟨i, List.mem_finRange _, rfl⟩),
    identity_not_redundant i⟩)
  simpa [pair, apply_ite] using this

theorem redundant_cases {h : Expo n} (hr : redundantRow h = true) : (∀ i, 0 < h i) ∨ h = 0 := by
  unfold redundantRow at hr
  simp only [Bool.or_eq_true, Bool.and_eq_true, decide_eq_true_eq] at hr
  rcases hr with hr | hr
  · exact Or.inl hr.2
  · exact Or.inr (funext hr)

theorem not_redundant_ne {h : Expo n} (hr : redundantRow h = false) : h ≠ 0 := by
  rintro rfl
  simp [redundantRow] at hr

theorem strict_diff (hn : 0 < n) {L : List (List (Expo n))} {f : List (Expo n)} {y : Fin n → ℝ}
    (hy : Strict (coneRows L f) y) {h : Expo n} (hh : h ∈ differenceRows L f) (h0 : h ≠ 0) : 0 < pair h y := by
  by_cases hr : redundantRow h = true
  · rcases redundant_cases hr with hp | hp
    · exact Finset.sum_pos (fun i _ => mul_pos (by exact_mod_cast hp i) (strict_pos hn hy i))
        ⟨⟨0, hn⟩, Finset.mem_univ _⟩
    · exact absurd hp h0
  · exact hy h ((mem_coneRows hn L f h).2 ⟨Or.inl hh, by simpa using hr⟩)

theorem ray_diff (hn : 0 < n) {L : List (List (Expo n))} {f : List (Expo n)} {r : Expo n}
    (hr : ∀ h ∈ coneRows L f, 0 ≤ ∑ i, h i * r i) {h : Expo n} (hh : h ∈ differenceRows L f) :
    0 ≤ ∑ i, h i * r i := by
  by_cases hd : redundantRow h = true
  · rcases redundant_cases hd with hp | hp
    · apply Finset.sum_nonneg
      intro i _
      apply mul_nonneg (hp i).le
      have := hr _ ((mem_coneRows hn L f _).2 ⟨Or.inr (List.mem_map.2 ⟨i, List.mem_finRange _, rfl⟩),
        identity_not_redundant i⟩)
      simpa using this
    · subst hp; simp
  · exact hr h ((mem_coneRows hn L f h).2 ⟨Or.inl hh, by simpa using hd⟩)

theorem pair_sub (e f : Expo n) (y : Fin n → ℝ) : pair (e - f) y = pair e y - pair f y := by
  unfold pair
  rw [← Finset.sum_sub_distrib]
  exact Finset.sum_congr rfl (fun i _ => by rw [Pi.sub_apply]; push_cast; ring)

theorem pair_neg (e : Expo n) (y : Fin n → ℝ) : pair (-e) y = - pair e y := by
  unfold pair
  rw [← Finset.sum_neg_distrib]
  exact Finset.sum_congr rfl (fun i _ => by rw [Pi.neg_apply]; push_cast; ring)

/-! ### the choices -/

theorem mem_choices {A : Type} {L : List (List A)} {f : List A} :
    f ∈ choices L ↔ List.Forall₂ (fun l a => a ∈ l) L f := by
  induction L generalizing f with
  | nil => simp [choices]
  | cons l L ih =>
    simp only [choices, List.mem_flatMap, List.mem_map]
    constructor
    · rintro ⟨a, ha, g, hg, rfl⟩
      exact List.Forall₂.cons ha (ih.1 hg)
    · intro h
      cases h with
      | cons ha hg => exact ⟨_, ha, _, ih.2 hg, rfl⟩

theorem choices_nodup {A : Type} {L : List (List A)} (h : ∀ l ∈ L, l.Nodup) : (choices L).Nodup := by
  induction L with
  | nil => simp [choices]
  | cons l L ih =>
    unfold choices
    unfold List.Nodup
    rw [List.pairwise_flatMap]
    constructor
    · intro a _
      rw [List.pairwise_map]
      exact (ih (fun l hl => h l (by simp [hl]))).imp (fun hne he => hne (List.cons.inj he).2)
    · refine (h l (by simp)).imp ?_
      intro a b hab x hx y hy he
      obtain ⟨_, _, rfl⟩ := List.mem_map.1 hx
      obtain ⟨_, _, rfl⟩ := List.mem_map.1 hy
      exact hab (List.cons.inj he).1

theorem mem_differenceRows {L : List (List (Expo n))} {f : List (Expo n)} {h : Expo n} :
    h ∈ differenceRows L f ↔ ∃ q ∈ L.zip f, ∃ e ∈ q.1, h = e - q.2 := by
  unfold differenceRows
  have hz : List.zipWith (fun (l : List (Expo n)) (f : Expo n) => l.map (fun e => e - f)) L f =
      (L.zip f).map (fun q => q.1.map (fun e => e - q.2)) := by
    rw [List.zip, List.map_zipWith]
  rw [hz]
  simp only [List.mem_flatten, List.mem_map]
  constructor
  · rintro ⟨_, ⟨q, hq, rfl⟩, hh⟩
    obtain ⟨e, he, rfl⟩ := List.mem_map.1 hh
    exact ⟨q, hq, e, he, rfl⟩
  · rintro ⟨q, hq, e, he, rfl⟩
    exact ⟨_, ⟨q, hq, rfl⟩, List.mem_map.2 ⟨e, he, rfl⟩⟩

theorem choices_separate {L : List (List (Expo n))} {f g : List (Expo n)} (hf : f ∈ choices L)
    (hg : g ∈ choices L) (hne : f ≠ g) :
    ∃ h : Expo n, h ≠ 0 ∧ h ∈ differenceRows L f ∧ -h ∈ differenceRows L g := by
  rw [mem_choices] at hf hg
  induction hf generalizing g with
  | nil => cases hg; exact absurd rfl hne
  | @cons l a L f ha _ ih =>
    cases hg with
    | @cons _ b _ g hb hg =>
      by_cases hab : a = b
      · subst hab
        obtain ⟨h, h0, h1, h2⟩ := ih hg (fun e => hne (by rw [e]))
        refine ⟨h, h0, ?_, ?_⟩
        · rw [mem_differenceRows] at h1 ⊢
          obtain ⟨q, hq, r⟩ := h1
          exact ⟨q, by simp [hq], r⟩
        · rw [mem_differenceRows] at h2 ⊢
          obtain ⟨q, hq, r⟩ := h2
          exact ⟨q, by simp [hq], r⟩
      · refine ⟨b - a, fun h => hab (sub_eq_zero.1 h).symm, ?_, ?_⟩
        · rw [mem_differenceRows]; exact ⟨(l, a), by simp, b, hb, rfl⟩
        · rw [mem_differenceRows]; exact ⟨(l, b), by simp, a, ha, by simp⟩

theorem strict_disjoint (hn : 0 < n) {L : List (List (Expo n))} {f g : List (Expo n)} (hf : f ∈ choices L)
    (hg : g ∈ choices L) (hne : f ≠ g) {y : Fin n → ℝ} (h1 : Strict (coneRows L f) y)
    (h2 : Strict (coneRows L g) y) : False := by
  obtain ⟨h, h0, ha, hb⟩ := choices_separate hf hg hne
  have a := strict_diff hn h1 ha h0
  have b := strict_diff hn h2 hb (neg_ne_zero.2 h0)
  rw [pair_neg] at b
  linarith

/-- a point away from the walls is strictly inside one cone of the fan -/
theorem fan_covers (hn : 0 < n) {L fan : List (List (Expo n))} (h : generateFan L = some fan)
    (hL : ∀ l ∈ L, l ≠ []) {y : Fin n → ℝ} (hy : ∀ i, 0 < y i)
    (hgen : ∀ l ∈ L, ∀ e ∈ l, ∀ e' ∈ l, e ≠ e' → pair (e - e') y ≠ 0) :
    ∃ cone ∈ fan, Strict cone y := by
  have hex : ∃ f, List.Forall₂ (fun l a => a ∈ l ∧ ∀ e ∈ l, pair a y ≤ pair e y) L f := by
    clear hgen h
    induction L with
    | nil => exact ⟨[], .nil⟩
    | cons l L ih =>
      obtain ⟨f, hf⟩ := ih (fun l hl => hL l (by simp [hl]))
      obtain ⟨a, ha, hm⟩ := Finset.exists_min_image l.toFinset (fun e => pair e y)
        (by simpa [Finset.nonempty_iff_ne_empty] using hL l (by simp))
      exact ⟨a :: f, .cons ⟨by simpa using ha, fun e he => hm e (by simpa using he)⟩ hf⟩
  obtain ⟨f, hf⟩ := hex
  have hfc : f ∈ choices L := mem_choices.2 (hf.imp (fun _ _ h => h.1))
  have hst : Strict (coneRows L f) y := by
    intro r hr
    obtain ⟨hm, hnr⟩ := (mem_coneRows hn L f r).1 hr
    rcases hm with hm | hm
    · obtain ⟨⟨l, a⟩, hq, e, he, rfl⟩ := mem_differenceRows.1 hm
      obtain ⟨h1, h2⟩ : a ∈ l ∧ ∀ e ∈ l, pair a y ≤ pair e y := (List.forall₂_iff_zip.1 hf).2 hq
      have hne := not_redundant_ne hnr
      have h3 := hgen l (List.of_mem_zip hq).1 e he a h1 (fun h => hne (sub_eq_zero.2 h))
      have h4 := h2 e he
      have h5 : (0:ℝ) ≤ pair (e - a) y := by rw [pair_sub]; linarith
      exact lt_of_le_of_ne h5 (Ne.symm h3)
    · obtain ⟨i, _, rfl⟩ := List.mem_map.1 hm
      simpa [pair, apply_ite] using hy i
  refine ⟨coneRows L f, ?_, hst⟩
  unfold generateFan at h
  split at h
  · exact absurd h (by simp)
  · simp only [Option.some.injEq] at h
    subst h
    rw [List.mem_filter]
    refine ⟨List.mem_map.2 ⟨f, hfc, rfl⟩, ?_⟩
    unfold keepCone
    simp only [Bool.and_eq_true, decide_eq_true_eq, Bool.not_eq_true', List.any_eq_false]
    refine ⟨⟨?_, ?_⟩, ?_⟩
    · have hnd : (identityRows n).Nodup := by
        unfold identityRows
        refine List.Nodup.map ?_ (List.nodup_finRange n)
        intro i j hij
        have := congrFun hij i
        by_contra hne
        simp [hne] at this
      have hsub : identityRows n ⊆ coneRows L f := by
        intro r hr
        refine (mem_coneRows hn L f r).2 ⟨Or.inr hr, ?_⟩
        obtain ⟨i, _, rfl⟩ := List.mem_map.1 hr
        exact identity_not_redundant i
      have := (hnd.subperm hsub).length_le
      simpa [identityRows] using this
    · intro r hr hneg
      have h1 := hst r hr
      have hneg : ∀ i, r i < 0 := by simpa using hneg
      have : pair r y < 0 := by
        apply Finset.sum_neg (fun i _ => mul_neg_of_neg_of_pos (by exact_mod_cast hneg i) (hy i))
          ⟨⟨0, hn⟩, Finset.mem_univ _⟩
      linarith
    · intro r hr hneg
      have h1 := hst r hr
      have h2 := hst (-r) (by simpa using hneg)
      rw [pair_neg] at h2
      linarith

end SecDec.Geometric
