import Verif.Spec.ParseRegions
import Mathlib.Algebra.BigOperators.Group.List.Lemmas
import Mathlib.Tactic.Ring
import Mathlib.Tactic.LinearCombination
import Mathlib.Algebra.BigOperators.Ring.List
/-
Values of rewritten polynomials.
-/
set_option linter.unusedSectionVars false
namespace SecDec
namespace ParseRegions
variable {Sym F : Type} [DecidableEq Sym] [Field F]

theorem monoVal_append (ρ : Sym → F) (a b : List (Sym × Int)) : monoVal ρ (a ++ b) = monoVal ρ a * monoVal ρ b := by
  simp [monoVal]

theorem zip_map_self {α β : Type} (l : List α) (f : α → β) : l.zip (l.map f) = l.map (fun a => (a, f a)) := by
  induction l with
  | nil => rfl
  | cons a l ih => simp [ih]

theorem prod_single (ρ : Sym → F) (s : Sym) (k : Int) (gens : List Sym) (hg : gens.Nodup) :
    (gens.map (fun g => ρ g ^ (if s = g then k else 0))).prod = if s ∈ gens then ρ s ^ k else 1 := by
  induction gens with
  | nil => simp
  | cons g gens ih =>
    obtain ⟨h1, h2⟩ := List.nodup_cons.1 hg
    rw [List.map_cons, List.prod_cons, ih h2]
    by_cases hs : s = g
    · subst hs; simp [h1]
    · simp [hs]

/-- the powers of the generators and the other factors -/
theorem mono_split {ρ : Sym → F} (hρ : ∀ s, ρ s ≠ 0) {gens : List Sym} (hg : gens.Nodup) (m : List (Sym × Int)) :
    monoVal ρ (others gens m) * monoVal ρ (gens.zip (powersOf gens m)) = monoVal ρ m := by
  unfold powersOf
  rw [zip_map_self]
  induction m with
  | nil =>
    have : ((fun q : Sym × Int => ρ q.1 ^ q.2) ∘ fun a => (a, 0)) = fun _ => 1 := by funext a; simp
    simp [monoVal, others, this]
  | cons q m ih =>
    obtain ⟨s, k⟩ := q
    have h1 : monoVal ρ (gens.map (fun g => (g, (((((s, k) :: m).filter (fun q => decide (q.1 = g))).map Prod.snd).sum)))) =
        (if s ∈ gens then ρ s ^ k else 1) * monoVal ρ (gens.map (fun g => (g, (((m.filter (fun q => decide (q.1 = g))).map Prod.snd).sum)))) := by
      rw [← prod_single ρ s k gens hg]
      unfold monoVal
      rw [List.map_map, List.map_map, ← List.prod_map_mul]
      congr 1
      refine List.map_congr_left fun g _ => ?_
      simp only [Function.comp_apply]
      rw [← zpow_add₀ (hρ g)]
      congr 1
      by_cases hs : s = g <;> simp [hs]
    have h2 : monoVal ρ (others gens ((s, k) :: m)) = (if s ∈ gens then 1 else ρ s ^ k) * monoVal ρ (others gens m) := by
      unfold others
      by_cases hs : s ∈ gens
      · rw [List.filter_cons_of_neg (by simpa using hs)]; simp [hs]
      · rw [List.filter_cons_of_pos (by simpa using hs)]; simp [hs, monoVal]
    rw [h1, h2]
    have h3 : monoVal ρ ((s, k) :: m) = ρ s ^ k * monoVal ρ m := by simp [monoVal]
    rw [h3, ← ih]
    split <;> ring

/-- the value of a list of terms -/
def termsVal (ρ : Sym → F) (gens : List Sym) (ts : List (List Int × Coef Sym F)) : F :=
  (ts.map (fun t => Coef.val ρ t.2 * monoVal ρ (gens.zip t.1))).sum

theorem collect_val (ρ : Sym → F) (gens : List Sym) (e : List Int) (c : List (Sym × Int) × F) (ts : List (List Int × Coef Sym F)) :
    termsVal ρ gens (collect e c ts) = termsVal ρ gens ts + c.2 * monoVal ρ c.1 * monoVal ρ (gens.zip e) := by
  induction ts with
  | nil => simp [collect, termsVal, Coef.val]
  | cons t ts ih =>
    obtain ⟨e', c'⟩ := t
    unfold collect
    split
    · rename_i h; subst h
      simp only [termsVal, List.map_cons, List.sum_cons, Coef.val, List.map_append, List.sum_append, List.map_nil, List.sum_nil]
      ring
    · simp only [termsVal, List.map_cons, List.sum_cons] at ih ⊢
      rw [ih]; ring

theorem fold_val {ρ : Sym → F} (hρ : ∀ s, ρ s ≠ 0) {gens : List Sym} (hg : gens.Nodup) (c : Coef Sym F) (acc : List (List Int × Coef Sym F)) :
    termsVal ρ gens (c.foldl (fun acc t => collect (powersOf gens t.1) (others gens t.1, t.2) acc) acc) = termsVal ρ gens acc + Coef.val ρ c := by
  induction c generalizing acc with
  | nil => simp [Coef.val]
  | cons t c ih =>
    rw [List.foldl_cons, ih, collect_val, mul_assoc, mono_split hρ hg]
    simp only [Coef.val, List.map_cons, List.sum_cons]
    ring

theorem fromExpression_val {ρ : Sym → F} (hρ : ∀ s, ρ s ≠ 0) {gens : List Sym} (hg : gens.Nodup) (c : Coef Sym F) :
    (fromExpression c gens).val ρ = Coef.val ρ c := by
  have h := fold_val hρ hg c []
  unfold fromExpression NPoly.val
  dsimp only
  revert h
  generalize c.foldl (fun acc t => collect (powersOf gens t.1) (others gens t.1, t.2) acc) [] = ts
  intro h
  cases ts with
  | nil =>
    simp only [termsVal, List.map_nil, List.sum_nil, zero_add] at h
    rw [← h]
    simp [Coef.val]
  | cons t ts =>
    simp only [termsVal, List.map_nil, List.sum_nil, zero_add] at h
    exact h

theorem collect_mem {e : List Int} {c : List (Sym × Int) × F} {ts : List (List Int × Coef Sym F)} {t : List Int × Coef Sym F}
    (ht : t ∈ collect e c ts) : (t.1 = e ∨ ∃ t' ∈ ts, t'.1 = t.1) ∧ ∀ x ∈ t.2, x = c ∨ ∃ t' ∈ ts, x ∈ t'.2 := by
  induction ts with
  | nil =>
    simp only [collect, List.mem_singleton] at ht
    subst ht
    exact ⟨Or.inl rfl, fun x hx => Or.inl (by simpa using hx)⟩
  | cons t0 ts ih =>
    obtain ⟨e', c'⟩ := t0
    unfold collect at ht
    split at ht
    · rcases List.mem_cons.1 ht with rfl | ht
      · refine ⟨Or.inr ⟨(e', c'), by simp, rfl⟩, fun x hx => ?_⟩
        rcases List.mem_append.1 hx with hx | hx
        · exact Or.inr ⟨(e', c'), by simp, hx⟩
        · exact Or.inl (by simpa using hx)
      · exact ⟨Or.inr ⟨t, by simp [ht], rfl⟩, fun x hx => Or.inr ⟨t, by simp [ht], hx⟩⟩
    · rcases List.mem_cons.1 ht with rfl | ht
      · exact ⟨Or.inr ⟨(e', c'), by simp, rfl⟩, fun x hx => Or.inr ⟨(e', c'), by simp, hx⟩⟩
      · obtain ⟨h1, h2⟩ := ih ht
        refine ⟨h1.imp id ?_, fun x hx => (h2 x hx).imp id ?_⟩
        · rintro ⟨t', ht', h⟩; exact ⟨t', by simp [ht'], h⟩
        · rintro ⟨t', ht', h⟩; exact ⟨t', by simp [ht'], h⟩

theorem collect_nodup {e : List Int} {c : List (Sym × Int) × F} {ts : List (List Int × Coef Sym F)} (h : (ts.map Prod.fst).Nodup) :
    ((collect e c ts).map Prod.fst).Nodup := by
  induction ts with
  | nil => simp [collect]
  | cons t0 ts ih =>
    obtain ⟨e', c'⟩ := t0
    rw [List.map_cons, List.nodup_cons] at h
    unfold collect
    split
    · simpa using h
    · rename_i hne
      rw [List.map_cons, List.nodup_cons]
      refine ⟨fun hm => ?_, ih h.2⟩
      obtain ⟨t, ht, he⟩ := List.mem_map.1 hm
      rcases (collect_mem ht).1 with h1 | ⟨t', ht', h1⟩
      · exact hne (he.symm.trans h1)
      · exact h.1 (List.mem_map.2 ⟨t', ht', by rw [h1, he]⟩)

/-- rows and coefficients of `from_expression` -/
theorem fromExpression_terms (c : Coef Sym F) (gens : List Sym) :
    ((fromExpression c gens).terms.map Prod.fst).Nodup ∧
    ∀ t ∈ (fromExpression c gens).terms, t.1.length = gens.length ∧ (∀ x ∈ t.2, ∃ y ∈ c, x = (others gens y.1, y.2)) := by
  have key : ∀ (c' : Coef Sym F) (acc : List (List Int × Coef Sym F)), (∀ y ∈ c', y ∈ c) → (acc.map Prod.fst).Nodup →
      (∀ t ∈ acc, t.1.length = gens.length ∧ (∀ x ∈ t.2, ∃ y ∈ c, x = (others gens y.1, y.2))) →
      ((c'.foldl (fun acc t => collect (powersOf gens t.1) (others gens t.1, t.2) acc) acc).map Prod.fst).Nodup ∧
      ∀ t ∈ c'.foldl (fun acc t => collect (powersOf gens t.1) (others gens t.1, t.2) acc) acc,
        t.1.length = gens.length ∧ (∀ x ∈ t.2, ∃ y ∈ c, x = (others gens y.1, y.2)) := by
    intro c'
    induction c' with
    | nil => intro acc _ h1 h2; exact ⟨h1, h2⟩
    | cons y c' ih =>
      intro acc hsub h1 h2
      rw [List.foldl_cons]
      refine ih _ (fun z hz => hsub z (by simp [hz])) (collect_nodup h1) ?_
      intro t ht
      obtain ⟨h3, h4⟩ := collect_mem ht
      constructor
      · rcases h3 with h3 | ⟨t', ht', h3⟩
        · rw [h3]; simp [powersOf]
        · rw [← h3]; exact (h2 t' ht').1
      · intro x hx
        rcases h4 x hx with rfl | ⟨t', ht', h5⟩
        · exact ⟨y, hsub y (by simp), rfl⟩
        · exact (h2 t' ht').2 x h5
  have h := key c [] (fun _ h => h) (by simp) (by simp)
  unfold fromExpression
  dsimp only
  revert h
  generalize c.foldl (fun acc t => collect (powersOf gens t.1) (others gens t.1, t.2) acc) [] = ts
  intro h
  cases ts with
  | nil =>
    refine ⟨by simp, fun t ht => ?_⟩
    simp only [List.mem_singleton] at ht
    subst ht
    exact ⟨by simp, fun x hx => by simp at hx⟩
  | cons t ts => exact h

/-! ### change of the variables -/

theorem old_nodup {p : NPoly Sym F} (hp : p.symbols.Nodup) {new : List Sym} (hn : new.Nodup) : (oldVariables p new).Nodup := by
  unfold oldVariables extraVariables
  rw [List.nodup_append]
  refine ⟨hp, hn.filter _, ?_⟩
  intro a ha b hb
  rintro rfl
  exact absurd ha (by simpa using (List.mem_filter.1 hb).2)

/-- new and missing variables are the old and extra ones -/
theorem perm_old {p : NPoly Sym F} (hp : p.symbols.Nodup) {new : List Sym} (hn : new.Nodup) :
    (p.symbols.filter (fun v => decide (v ∉ new)) ++ new).Perm (oldVariables p new) := by
  refine (List.perm_ext_iff_of_nodup ?_ (old_nodup hp hn)).2 fun v => ?_
  · rw [List.nodup_append]
    refine ⟨hp.filter _, hn, ?_⟩
    intro a ha b hb
    rintro rfl
    exact absurd hb (by simpa using (List.mem_filter.1 ha).2)
  · simp only [oldVariables, extraVariables, List.mem_append, List.mem_filter, decide_eq_true_eq]
    tauto

theorem prod_old (ρ : Sym → F) {old : List Sym} (ho : old.Nodup) (row : List Int) (hl : old.length ≤ row.length) :
    (old.map (fun v => ρ v ^ (row.getD (old.idxOf v) 0))).prod = monoVal ρ (old.zip row) := by
  unfold monoVal
  congr 1
  apply List.ext_getElem
  · simp; omega
  · intro n h1 h2
    simp only [List.length_map] at h1
    simp only [List.getElem_map, List.getElem_zip]
    rw [ho.idxOf_getElem n h1, List.getD_eq_getElem?_getD, List.getElem?_eq_getElem (by omega)]
    rfl

theorem zip_append_right {α β : Type} (a b : List α) (e f : List β) (h : a.length = e.length) : (a ++ b).zip (e ++ f) = a.zip e ++ b.zip f :=
  List.zip_append h

/-- the value of a monomial in the new variables -/
theorem mono_new (ρ : Sym → F) {p : NPoly Sym F} (hp : p.symbols.Nodup) {new : List Sym} (hn : new.Nodup) {e q : List Int}
    (he : e.length = p.symbols.length) (hq : (extraVariables p new).length ≤ q.length) :
    ((p.symbols.filter (fun v => decide (v ∉ new))).map (fun v => ρ v ^ ((e ++ q).getD ((oldVariables p new).idxOf v) 0))).prod *
      monoVal ρ (new.zip ((order p new).map (fun k => (e ++ q).getD k 0))) =
    monoVal ρ (p.symbols.zip e) * monoVal ρ ((extraVariables p new).zip q) := by
  have h1 : monoVal ρ (new.zip ((order p new).map (fun k => (e ++ q).getD k 0))) =
      (new.map (fun v => ρ v ^ ((e ++ q).getD ((oldVariables p new).idxOf v) 0))).prod := by
    unfold order monoVal
    rw [List.map_map, zip_map_self, List.map_map]
    rfl
  rw [h1, ← List.prod_append, ← List.map_append, ((perm_old hp hn).map _).prod_eq,
    prod_old ρ (old_nodup hp hn) (e ++ q) (by simp [oldVariables]; omega)]
  conv_lhs => rw [oldVariables, zip_append_right _ _ _ _ he.symm]
  exact monoVal_append ρ _ _

theorem missingCoeff_eq {p : NPoly Sym F} {new : List Sym} {e : List Int} (he : e.length = p.symbols.length) (q : List Int) :
    missingCoeff p new e = (p.symbols.filter (fun v => decide (v ∉ new))).map (fun v => (v, (e ++ q).getD ((oldVariables p new).idxOf v) 0)) := by
  unfold missingCoeff missingIndexes
  rw [List.filterMap_map, ← List.filterMap_eq_map]
  refine List.filterMap_congr fun v hv => ?_
  have hvs : v ∈ p.symbols := (List.mem_filter.1 hv).1
  have hvo : v ∈ oldVariables p new := List.mem_append_left _ hvs
  have hidx : (oldVariables p new).idxOf v < p.symbols.length := by
    unfold oldVariables
    rw [List.idxOf_append_of_mem hvs]
    exact List.idxOf_lt_length_iff.2 hvs
  simp only [Function.comp_apply]
  rw [List.getElem?_eq_getElem (List.idxOf_lt_length_iff.2 hvo), List.getElem_idxOf, Option.map_some]
  congr 2
  rw [List.getD_eq_getElem?_getD, List.getD_eq_getElem?_getD, List.getElem?_append_left (by omega)]

theorem coeffPoly_length {p : NPoly Sym F} {new : List Sym} {c : Coef Sym F} {q : List Int × Coef Sym F} (hq : q ∈ coeffPoly p new c) :
    (extraVariables p new).length ≤ q.1.length := by
  unfold coeffPoly at hq
  split at hq
  · rename_i h; rw [List.isEmpty_iff] at h; rw [h]; simp
  · rw [((fromExpression_terms c _).2 q hq).1]

theorem coeffPoly_val {ρ : Sym → F} (hρ : ∀ s, ρ s ≠ 0) {p : NPoly Sym F} {new : List Sym} (hn : new.Nodup) (c : Coef Sym F) :
    termsVal ρ (extraVariables p new) (coeffPoly p new c) = Coef.val ρ c := by
  unfold coeffPoly
  split
  · rename_i h; rw [List.isEmpty_iff] at h; rw [h]
    simp [termsVal, monoVal]
  · exact fromExpression_val hρ (hn.filter _) c

theorem coef_mul (ρ : Sym → F) (m : List (Sym × Int)) (c : Coef Sym F) : Coef.val ρ (c.map (fun t => (m ++ t.1, t.2))) = monoVal ρ m * Coef.val ρ c := by
  unfold Coef.val
  rw [List.map_map, ← List.sum_map_mul_left]
  congr 1
  refine List.map_congr_left fun t _ => ?_
  simp only [Function.comp_apply, monoVal_append]
  ring

theorem sum_flatMap_val {α : Type} (l : List α) (f : α → List (List Int × Coef Sym F)) (h : List Int × Coef Sym F → F) :
    ((l.flatMap f).map h).sum = (l.map (fun a => ((f a).map h).sum)).sum := by
  induction l with
  | nil => rfl
  | cons a l ih => simp [ih]

/-- **the value is unchanged** -/
theorem transform_val {ρ : Sym → F} (hρ : ∀ s, ρ s ≠ 0) {p : NPoly Sym F} (hp : p.WellFormed) {new : List Sym} (hn : new.Nodup) :
    (transform p new true).val ρ = p.val ρ := by
  unfold NPoly.val transform
  dsimp only
  rw [sum_flatMap_val]
  congr 1
  refine List.map_congr_left fun t ht => ?_
  rw [List.map_map, List.map_map]
  rw [← coeffPoly_val hρ (p := p) hn t.2]
  unfold termsVal
  rw [← List.sum_map_mul_right]
  congr 1
  refine List.map_congr_left fun q hq => ?_
  simp only [Function.comp_apply, withMissing, if_true]
  rw [coef_mul, missingCoeff_eq (hp.2 t ht) q.1]
  have := mono_new ρ hp.1 hn (hp.2 t ht) (coeffPoly_length hq)
  have h2 : monoVal ρ ((p.symbols.filter (fun v => decide (v ∉ new))).map (fun v => (v, (t.1 ++ q.1).getD ((oldVariables p new).idxOf v) 0))) =
      ((p.symbols.filter (fun v => decide (v ∉ new))).map (fun v => ρ v ^ ((t.1 ++ q.1).getD ((oldVariables p new).idxOf v) 0))).prod := by
    unfold monoVal; rw [List.map_map]; rfl
  rw [h2]
  linear_combination (Coef.val ρ q.2) * this

theorem monoVal_congr {ρ ρ' : Sym → F} {m : List (Sym × Int)} (h : ∀ q ∈ m, ρ q.1 = ρ' q.1) : monoVal ρ m = monoVal ρ' m := by
  unfold monoVal
  congr 1
  exact List.map_congr_left fun q hq => by rw [h q hq]

/-- without the missing variables: they are set to one -/
theorem transform_val_false {ρ : Sym → F} (hρ : ∀ s, ρ s ≠ 0) {p : NPoly Sym F} (hp : p.WellFormed) {new : List Sym} (hn : new.Nodup)
    (hfree : ∀ t ∈ p.terms, ∀ v ∈ p.symbols, v ∉ new → Coef.Free v t.2) :
    (transform p new false).val ρ = p.val (fun v => if v ∈ p.symbols ∧ v ∉ new then 1 else ρ v) := by
  set ρ' : Sym → F := fun v => if v ∈ p.symbols ∧ v ∉ new then 1 else ρ v with hρ'
  unfold NPoly.val transform
  dsimp only
  rw [sum_flatMap_val]
  congr 1
  refine List.map_congr_left fun t ht => ?_
  rw [List.map_map, List.map_map]
  have hc : Coef.val ρ' t.2 = Coef.val ρ t.2 := by
    unfold Coef.val
    congr 1
    refine List.map_congr_left fun x hx => ?_
    rw [monoVal_congr (ρ := ρ') (ρ' := ρ)]
    intro y hy
    rw [hρ']
    dsimp only
    rw [if_neg]
    rintro ⟨h1, h2⟩
    exact hfree t ht y.1 h1 h2 x hx y hy rfl
  rw [hc, ← coeffPoly_val hρ (p := p) hn t.2]
  unfold termsVal
  rw [← List.sum_map_mul_right]
  congr 1
  refine List.map_congr_left fun q hq => ?_
  simp only [Function.comp_apply, withMissing, Bool.false_eq_true, if_false]
  have h1 := mono_new ρ' hp.1 hn (hp.2 t ht) (coeffPoly_length hq)
  have h2 : ((p.symbols.filter (fun v => decide (v ∉ new))).map (fun v => ρ' v ^ ((t.1 ++ q.1).getD ((oldVariables p new).idxOf v) 0))).prod = 1 := by
    apply List.prod_eq_one
    intro y hy
    obtain ⟨v, hv, rfl⟩ := List.mem_map.1 hy
    obtain ⟨hv1, hv2⟩ := List.mem_filter.1 hv
    have : ρ' v = 1 := by rw [hρ']; exact if_pos ⟨hv1, by simpa using hv2⟩
    rw [this, one_zpow]
  rw [h2, one_mul] at h1
  have h3 : monoVal ρ' ((extraVariables p new).zip q.1) = monoVal ρ ((extraVariables p new).zip q.1) := by
    apply monoVal_congr
    intro y hy
    have hy1 := (List.of_mem_zip hy).1
    have := (List.mem_filter.1 hy1).2
    rw [hρ']; exact if_neg (by rintro ⟨h, -⟩; simp [h] at this)
  have h4 : monoVal ρ' (new.zip ((order p new).map (fun k => (t.1 ++ q.1).getD k 0))) =
      monoVal ρ (new.zip ((order p new).map (fun k => (t.1 ++ q.1).getD k 0))) := by
    apply monoVal_congr
    intro y hy
    have hy1 := (List.of_mem_zip hy).1
    rw [hρ']; exact if_neg (by rintro ⟨-, h⟩; exact h hy1)
  rw [← h4, h1, h3]
  ring

/-- rows and coefficients of the result -/
theorem transform_terms {p : NPoly Sym F} (hfree : ∀ t ∈ p.terms, ∀ v ∈ p.symbols, Coef.Free v t.2) (new : List Sym) (add : Bool) :
    ∀ t ∈ (transform p new add).terms, t.1.length = new.length ∧ ∀ v ∈ new, Coef.Free v t.2 := by
  intro t ht
  obtain ⟨t0, ht0, ht⟩ := List.mem_flatMap.1 ht
  rw [List.map_map] at ht
  obtain ⟨q, hq, rfl⟩ := List.mem_map.1 ht
  refine ⟨by simp [order], fun v hv => ?_⟩
  have hq2 : Coef.Free v q.2 := by
    by_cases hvs : v ∈ p.symbols
    · -- the coefficient does not contain its own variables
      intro x hx y hy
      unfold coeffPoly at hq
      split at hq
      · simp only [List.mem_singleton] at hq
        subst hq
        exact hfree t0 ht0 v hvs x hx y hy
      · obtain ⟨z, hz, rfl⟩ := ((fromExpression_terms t0.2 _).2 q hq).2 x hx
        exact hfree t0 ht0 v hvs z hz y (List.mem_of_mem_filter hy)
    · have hve : v ∈ extraVariables p new := List.mem_filter.2 ⟨hv, by simpa using hvs⟩
      intro x hx y hy
      unfold coeffPoly at hq
      split at hq
      · rename_i h; rw [List.isEmpty_iff] at h; rw [h] at hve; simp at hve
      · obtain ⟨z, hz, rfl⟩ := ((fromExpression_terms t0.2 _).2 q hq).2 x hx
        have := (List.mem_filter.1 hy).2
        rintro rfl
        simp [hve] at this
  cases add with
  | false => exact hq2
  | true =>
    intro x hx y hy
    simp only [Function.comp_apply, withMissing, if_true] at hx
    obtain ⟨z, hz, rfl⟩ := List.mem_map.1 hx
    rcases List.mem_append.1 hy with hy | hy
    · unfold missingCoeff missingIndexes at hy
      rw [List.filterMap_map] at hy
      obtain ⟨w, hw, hwy⟩ := List.mem_filterMap.1 hy
      obtain ⟨hw1, hw2⟩ := List.mem_filter.1 hw
      have hwo : w ∈ oldVariables p new := List.mem_append_left _ hw1
      simp only [Function.comp_apply] at hwy
      rw [List.getElem?_eq_getElem (List.idxOf_lt_length_iff.2 hwo), List.getElem_idxOf, Option.map_some, Option.some.injEq] at hwy
      subst hwy
      rintro rfl
      simp [hv] at hw2
    · exact hq2 z hz y hy

theorem fromExpression_free (c : Coef Sym F) (gens : List Sym) :
    ∀ t ∈ (fromExpression c gens).terms, t.1.length = gens.length ∧ ∀ v ∈ gens, Coef.Free v t.2 := by
  intro t ht
  obtain ⟨h1, h2⟩ := (fromExpression_terms c gens).2 t ht
  refine ⟨h1, fun v hv x hx y hy => ?_⟩
  obtain ⟨z, hz, rfl⟩ := h2 x hx
  have := (List.mem_filter.1 hy).2
  rintro rfl
  simp [hv] at this

end ParseRegions
end SecDec
