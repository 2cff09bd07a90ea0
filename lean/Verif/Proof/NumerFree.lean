import Verif.Spec.Numerator
/-
After the contractions of the code no metric tensor carries an index that occurs a second time (proof of property C50).
-/
namespace SecDec
namespace Numer

variable {L E : ℕ} {I : Type} [DecidableEq I]

/-- the metric tensors not yet contracted -/
def opens (l : List (Entry I)) : List (Entry I) := l.filter fun e => e.unmatched

def Has (e : Entry I) (μ : I) : Prop := e.left = μ ∨ e.right = μ

def Disj (e f : Entry I) : Prop := ¬ Has e f.left ∧ ¬ Has e f.right

omit [DecidableEq I] in
theorem disj_of {e f : Entry I} (h : Disj e f) {μ : I} (hf : Has f μ) : ¬ Has e μ := by
  rcases hf with rfl | rfl
  · exact h.1
  · exact h.2

def Clean (l : List (Entry I)) : Prop := (opens l).Pairwise Disj

theorem matchInto_none (μ ν : I) (l : List (Entry I)) (h : matchInto μ ν l = none) :
    ∀ e ∈ opens l, ¬ Has e μ ∧ ¬ Has e ν := by
  induction l with
  | nil => simp [opens]
  | cons e es ih =>
    unfold matchInto at h
    split_ifs at h with h1 h2 h3 h4 h5
    · have := ih (by simpa using h)
      intro f hf
      simp only [opens, List.filter_cons, h1, if_true, List.mem_cons] at hf
      rcases hf with rfl | hf
      · unfold Has; grind
      · exact this f hf
    · have := ih (by simpa using h)
      intro f hf
      simp only [opens, List.filter_cons, h1] at hf
      exact this f hf

theorem matchPass_false (rest : List (Entry I)) : ∀ done : List (Entry I), (matchPass done rest).2 = false → Clean done →
    Clean (matchPass done rest).1 := by
  induction rest with
  | nil => intro done _ hc; simpa [matchPass] using hc
  | cons e es ih =>
    intro done h hc
    unfold matchPass at h ⊢
    by_cases he : e.unmatched
    · rw [if_pos he] at h ⊢
      cases hm : matchInto e.left e.right done with
      | some done' => rw [hm] at h; simp at h
      | none =>
        rw [hm] at h
        refine ih _ h ?_
        unfold Clean opens
        rw [List.filter_append, List.pairwise_append]
        refine ⟨hc, by simp [List.filter_cons, he], fun f hf g hg => ?_⟩
        simp only [List.filter_cons, he, if_true, List.filter_nil, List.mem_singleton] at hg
        subst hg
        exact matchInto_none _ _ _ hm f hf
    · rw [if_neg he] at h ⊢
      refine ih _ h ?_
      unfold Clean opens
      rw [List.filter_append]
      simpa [List.filter_cons, he, Clean, opens] using hc

theorem matchLoop_clean (l : List (Entry I)) : Clean (matchLoop l) := by
  induction l using matchLoop.induct with
  | case1 l h ih => rw [matchLoop, dif_pos h]; exact ih
  | case2 l h =>
    rw [matchLoop, dif_neg h]
    exact matchPass_false l [] (by simpa using h) (by simp [Clean, opens])

theorem contractVec_free (μ : I) (l : List (Entry I)) (hc : Clean l) :
    (opens (contractVec μ l).2).Sublist (opens l) ∧
    ((contractVec μ l).1 = μ ∨ ∃ f ∈ opens l, Has f (contractVec μ l).1) ∧
    ∀ e ∈ opens (contractVec μ l).2, ¬ Has e (contractVec μ l).1 := by
  induction l with
  | nil => simp [contractVec, opens]
  | cons e es ih =>
    unfold Clean at hc
    by_cases h1 : e.unmatched
    · have ho : opens (e :: es) = e :: opens es := by simp [opens, List.filter_cons, h1]
      rw [ho, List.pairwise_cons] at hc
      have hd : ∀ μ, Has e μ → ∀ f ∈ opens es, ¬ Has f μ := fun μ hμ f hf hh => disj_of (hc.1 f hf) hh hμ
      unfold contractVec
      rw [if_pos h1]
      by_cases h2 : e.left = μ
      · rw [if_pos h2]
        refine ⟨?_, Or.inr ⟨e, by simp [ho], Or.inr rfl⟩, ?_⟩
        · rw [ho]; simp [opens, List.filter_cons]
        · intro f hf
          refine hd _ (Or.inr rfl) f ?_
          simpa [opens, List.filter_cons] using hf
      · rw [if_neg h2]
        by_cases h3 : e.right = μ
        · rw [if_pos h3]
          refine ⟨?_, Or.inr ⟨e, by simp [ho], Or.inl rfl⟩, ?_⟩
          · rw [ho]; simp [opens, List.filter_cons]
          · intro f hf
            refine hd _ (Or.inl rfl) f ?_
            simpa [opens, List.filter_cons] using hf
        · rw [if_neg h3]
          obtain ⟨i1, i2, i3⟩ := ih hc.2
          have ho' : opens (e :: (contractVec μ es).2) = e :: opens (contractVec μ es).2 := by
            simp [opens, List.filter_cons, h1]
          dsimp only
          rw [ho, ho']
          refine ⟨i1.cons_cons _, ?_, ?_⟩
          · rcases i2 with i2 | ⟨f, hf, i2⟩
            · exact Or.inl i2
            · exact Or.inr ⟨f, by simp [hf], i2⟩
          · intro f hf
            rcases List.mem_cons.1 hf with rfl | hf
            · rcases i2 with i2 | ⟨g, hg, i2⟩
              · rw [i2]; exact fun h => h.elim h2 h3
              · exact disj_of (hc.1 g hg) i2
            · exact i3 f hf
    · have ho : opens (e :: es) = opens es := by simp [opens, List.filter_cons, h1]
      rw [ho] at hc
      unfold contractVec
      rw [if_neg h1]
      have ho' : opens (e :: (contractVec μ es).2) = opens (contractVec μ es).2 := by
        simp [opens, List.filter_cons, h1]
      dsimp only
      rw [ho, ho']
      exact ih hc

theorem contractVecs_free {V : Type} (vs : List (V × I)) : ∀ l : List (Entry I), Clean l →
    (opens (contractVecs vs l).2).Sublist (opens l) ∧
    ∀ e ∈ opens (contractVecs vs l).2, ∀ v ∈ (contractVecs vs l).1, ¬ Has e v.2 := by
  induction vs with
  | nil => intro l _; simp [contractVecs]
  | cons v vs ih =>
    intro l hc
    obtain ⟨v, μ⟩ := v
    obtain ⟨a1, _, a3⟩ := contractVec_free μ l hc
    obtain ⟨b1, b2⟩ := ih (contractVec μ l).2 (hc.sublist a1)
    unfold contractVecs
    dsimp only
    refine ⟨b1.trans a1, fun e he w hw => ?_⟩
    rcases List.mem_cons.1 hw with rfl | hw
    · exact a3 e (b1.subset he)
    · exact b2 e he w hw

theorem leftover_open (D : ℂ) (l : List (Entry I)) :
    (leftover D l).2 = ((opens l).filter fun e => e.left ≠ e.right).map fun e => (e.left, e.right) := by
  induction l with
  | nil => simp [leftover, opens]
  | cons e es ih =>
    unfold leftover
    split_ifs with h1 h2
    · simp [opens, List.filter_cons, h1, h2, ih]
    · simp [opens, List.filter_cons, h1, h2, ih]
    · simp [opens, List.filter_cons, h1, ih]

theorem metrics_nodup (l : List (Entry I)) (h : l.Pairwise Disj) (hne : ∀ e ∈ l, e.left ≠ e.right) :
    ((l.map fun e => (e.left, e.right)).flatMap fun g => [g.1, g.2]).Nodup := by
  induction l with
  | nil => simp
  | cons e es ih =>
    rw [List.pairwise_cons] at h
    simp only [List.map_cons, List.flatMap_cons, List.nodup_append]
    refine ⟨by simpa using hne e (by simp), ih h.2 fun f hf => hne f (by simp [hf]), ?_⟩
    rintro a ha b hb rfl
    simp only [List.mem_flatMap, List.mem_map, List.mem_cons, List.not_mem_nil, or_false] at ha hb
    obtain ⟨g, ⟨f, hf, rfl⟩, hb⟩ := hb
    have hfa : Has f a := hb.imp Eq.symm Eq.symm
    exact disj_of (h.1 f hf) hfa (ha.imp Eq.symm Eq.symm)

theorem summand_free (D : Data L E) (R r : ℕ) (t : Term L E I) (pairs : List ((Fin L × I) × (Fin L × I)))
    (pIdx : List (Fin L × I)) (S : Summand E I) (h : summand D R r t pairs pIdx = some S) :
    ∀ g ∈ S.metrics, S.idx.count g.1 = 1 ∧ S.idx.count g.2 = 1 := by
  unfold summand at h
  obtain ⟨sc, _, rfl⟩ := Option.map_eq_some_iff.1 h
  have hc := matchLoop_clean (pairs.map fun p => (⟨p.1.2, p.2.2, true⟩ : Entry I))
  generalize matchLoop (pairs.map fun p => (⟨p.1.2, p.2.2, true⟩ : Entry I)) = es at hc
  dsimp only
  obtain ⟨a1, a2⟩ := contractVecs_free pIdx es hc
  have hc' : Clean (contractVecs pIdx es).2 := hc.sublist a1
  obtain ⟨b1, b2⟩ := contractVecs_free t.ext _ hc'
  have hc'' : Clean (contractVecs t.ext (contractVecs pIdx es).2).2 := hc'.sublist b1
  generalize hX : contractVecs t.ext (contractVecs pIdx es).2 = X at b1 b2 hc''
  rw [leftover_open]
  have hnd := metrics_nodup ((opens X.2).filter fun e => e.left ≠ e.right) (hc''.filter _) (by simp)
  have key : ∀ e ∈ (opens X.2).filter (fun e => e.left ≠ e.right), ∀ μ, Has e μ →
      List.count μ (Summand.idx (E := E) ⟨sc * D.U ^ (R - t.loop.length) * t.coef * (pairs.map fun p => D.aM p.1.1 p.2.1).prod * (leftover D.D X.2).1,
        (contractVecs pIdx es).1.map (fun v => (D.P v.1, v.2)) ++ X.1.map (fun v => (Pi.single v.1 1, v.2)),
        ((opens X.2).filter fun e => e.left ≠ e.right).map fun e => (e.left, e.right)⟩) = 1 := by
    intro e he μ hμ
    have heo : e ∈ opens X.2 := (List.mem_filter.1 he).1
    unfold Summand.idx
    dsimp only
    rw [List.count_append, List.count_eq_zero_of_not_mem, Nat.zero_add]
    · refine List.count_eq_one_of_mem hnd ?_
      refine List.mem_flatMap.2 ⟨(e.left, e.right), List.mem_map_of_mem he, ?_⟩
      rcases hμ with rfl | rfl <;> simp
    · rw [List.map_append, List.map_map, List.map_map, List.mem_append]
      rintro (h | h)
      · obtain ⟨v, hv, hh⟩ := List.mem_map.1 h
        exact a2 e (b1.subset heo) v hv (by simp only [Function.comp] at hh; rw [hh]; exact hμ)
      · obtain ⟨v, hv, hh⟩ := List.mem_map.1 h
        exact b2 e heo v hv (by simp only [Function.comp] at hh; rw [hh]; exact hμ)
  intro g hg
  obtain ⟨e, he, rfl⟩ := List.mem_map.1 hg
  exact ⟨key e he _ (Or.inl rfl), key e he _ (Or.inr rfl)⟩

theorem mapM_mem {α β : Type} {f : α → Option β} : ∀ {l : List α} {m : List β}, l.mapM f = some m →
    ∀ b ∈ m, ∃ a ∈ l, f a = some b := by
  intro l
  induction l with
  | nil => intro m h b hb; simp at h; subst h; simp at hb
  | cons a l ih =>
    intro m h b hb
    simp only [List.mapM_cons, Option.pure_def, Option.bind_eq_bind, Option.bind_eq_some_iff] at h
    obtain ⟨b0, h0, m', hm', h⟩ := h
    simp only [Option.some.injEq] at h
    subst h
    rcases List.mem_cons.1 hb with rfl | hb
    · exact ⟨a, by simp, h0⟩
    · obtain ⟨x, hx, hf⟩ := ih hm' b hb
      exact ⟨x, by simp [hx], hf⟩

theorem numerator_free (D : Data L E) (indices : List I) (isOne : Bool) (terms : List (Term L E I))
    (out : List (Summand E I)) (h : numerator D indices isOne terms = some out) :
    ∀ S ∈ out, ∀ g ∈ S.metrics, S.idx.count g.1 = 1 ∧ S.idx.count g.2 = 1 := by
  unfold numerator at h
  obtain ⟨ts, _, h⟩ := Option.bind_eq_some_iff.1 h
  obtain ⟨R, _, h⟩ := Option.bind_eq_some_iff.1 h
  split_ifs at h
  · simp only [Option.some.injEq] at h
    subst h
    intro S hS g hg
    rw [List.mem_singleton] at hS
    subst hS
    simp at hg
  · obtain ⟨m, hm, rfl⟩ := Option.map_eq_some_iff.1 h
    intro S hS
    obtain ⟨l, hl, hS⟩ := List.mem_flatten.1 hS
    obtain ⟨t, _, ht⟩ := mapM_mem hm l hl
    unfold termSummands at ht
    obtain ⟨subs, _, ht⟩ := Option.bind_eq_some_iff.1 ht
    obtain ⟨m', hm', rfl⟩ := Option.map_eq_some_iff.1 ht
    obtain ⟨l', hl', hS⟩ := List.mem_flatten.1 hS
    obtain ⟨A, _, hA⟩ := mapM_mem hm' l' hl'
    obtain ⟨pIdx, _, hA⟩ := Option.bind_eq_some_iff.1 hA
    obtain ⟨prs, _, hA⟩ := Option.bind_eq_some_iff.1 hA
    obtain ⟨pairs, _, hp⟩ := mapM_mem hA S hS
    exact summand_free D R _ t pairs pIdx S hp

end Numer
end SecDec
