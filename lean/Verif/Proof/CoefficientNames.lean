import Verif.Proof.Coefficient
import Mathlib.Data.List.TakeWhile
/-
Proofs for C66: the names in a text, and powers.
-/
namespace SecDec
namespace Coeff
open CoeffSpec

theorem isWord_of_isStart {c : Char} (h : isStart c) : isWord c := by simp [isWord, h]

theorem isWord_skip {c : Char} (hc : ¬ isStart c) (l w : List Char) : IsWord isStart isWord (c :: l) w ↔ IsWord isStart isWord l w := by
  constructor
  · rintro ⟨a, d, b, e, hd, ⟨c', l', hw, hs⟩, hall, ha, hb⟩
    cases a with
    | nil =>
      cases d with
      | nil =>
        subst hw
        simp only [List.nil_append, List.cons_append, List.cons.injEq] at e
        exact absurd (e.1 ▸ hs) hc
      | cons x d =>
        simp only [List.nil_append, List.cons_append, List.cons.injEq] at e
        exact ⟨[], d, b, by simpa using e.2, fun y hy => hd y (by simp [hy]), ⟨c', l', hw, hs⟩, hall, by simp, hb⟩
    | cons x a =>
      simp only [List.cons_append, List.cons.injEq] at e
      refine ⟨a, d, b, by simpa using e.2, hd, ⟨c', l', hw, hs⟩, hall, fun y hy => ha y ?_, hb⟩
      cases a with
      | nil => simp at hy
      | cons z a => simpa using hy
  · rintro ⟨a, d, b, e, hd, ⟨c', l', hw, hs⟩, hall, ha, hb⟩
    by_cases h : isWord c
    · cases a with
      | nil =>
        refine ⟨[], c :: d, b, by simp [e], fun y hy => ?_, ⟨c', l', hw, hs⟩, hall, by simp, hb⟩
        rcases List.mem_cons.1 hy with rfl | hy
        · exact ⟨h, hc⟩
        · exact hd y hy
      | cons z a => exact ⟨c :: z :: a, d, b, by simp [e], hd, ⟨c', l', hw, hs⟩, hall, fun y hy => ha y (by simpa using hy), hb⟩
    · refine ⟨c :: a, d, b, by simp [e], hd, ⟨c', l', hw, hs⟩, hall, fun y hy => ?_, hb⟩
      cases a with
      | nil => simp at hy; subst hy; exact h
      | cons z a => exact ha y (by simpa using hy)

theorem takeWhile_word {l b : List Char} (hl : ∀ c ∈ l, isWord c) (hb : ∀ c, b.head? = some c → ¬ isWord c) :
    (l ++ b).takeWhile isWord = l := by
  induction l with
  | nil =>
    cases b with
    | nil => rfl
    | cons c b => simp [List.takeWhile, hb c (by simp)]
  | cons c l ih =>
    simp only [List.cons_append]
    rw [List.takeWhile_cons, if_pos (hl c (by simp)), ih fun c hc => hl c (by simp [hc])]

theorem dropWhile_head {l : List Char} {c : Char} (h : (l.dropWhile isWord).head? = some c) : ¬ isWord c := by
  induction l with
  | nil => simp at h
  | cons x l ih =>
    rw [List.dropWhile_cons] at h
    split at h
    · exact ih h
    · rename_i hx
      simp only [List.head?_cons, Option.some.injEq] at h
      subst h
      exact hx

theorem isWord_start {c : Char} (hc : isStart c) (l w : List Char) :
    IsWord isStart isWord (c :: l) w ↔ w = c :: l.takeWhile isWord ∨ IsWord isStart isWord (l.dropWhile isWord) w := by
  constructor
  · rintro ⟨a, d, b, e, hd, ⟨c', l', hw, hs⟩, hall, ha, hb⟩
    cases a with
    | nil =>
      cases d with
      | nil =>
        subst hw
        simp only [List.nil_append, List.cons_append, List.cons.injEq] at e
        obtain ⟨rfl, rfl⟩ := e
        left
        rw [takeWhile_word (fun c hc => hall c (by simp [hc])) hb]
      | cons x d =>
        simp only [List.nil_append, List.cons_append, List.cons.injEq] at e
        exact absurd hc (e.1 ▸ (hd x (by simp)).2)
    | cons x a =>
      simp only [List.cons_append, List.cons.injEq] at e
      obtain ⟨rfl, rfl⟩ := e
      right
      have hne : a.dropWhile isWord ≠ [] := by
        intro h
        rw [List.dropWhile_eq_nil_iff] at h
        cases hl : (c :: a).getLast? with
        | none => simp at hl
        | some z =>
          refine ha z hl ?_
          rcases List.mem_cons.1 (List.mem_of_getLast? hl) with rfl | hz
          · exact isWord_of_isStart hc
          · exact h z hz
      refine ⟨a.dropWhile isWord, d, b, ?_, hd, ⟨c', l', hw, hs⟩, hall, fun y hy => ha y ?_, hb⟩
      · rw [List.append_assoc, List.append_assoc, List.dropWhile_append, List.isEmpty_eq_false_iff.2 hne]
        simp
      · have h1 : (a.takeWhile isWord ++ a.dropWhile isWord).getLast? = some y := by
          rw [List.getLast?_append, hy]; rfl
        rw [List.takeWhile_append_dropWhile] at h1
        rw [List.getLast?_cons, h1]; rfl
  · rintro (rfl | ⟨a, d, b, e, hd, ⟨c', l', hw, hs⟩, hall, ha, hb⟩)
    · refine ⟨[], [], l.dropWhile isWord, by simp [List.takeWhile_append_dropWhile], by simp, ⟨c, _, rfl, hc⟩, fun y hy => ?_, by simp,
        fun y hy => dropWhile_head hy⟩
      rcases List.mem_cons.1 hy with rfl | hy
      · exact isWord_of_isStart hc
      · exact List.mem_takeWhile_imp hy
    · have hne : a ≠ [] := by
        rintro rfl
        have : ∃ z, (l.dropWhile isWord).head? = some z ∧ isWord z := by
          cases d with
          | nil => exact ⟨c', by rw [e, hw]; simp, isWord_of_isStart hs⟩
          | cons z d => exact ⟨z, by rw [e]; simp, (hd z (by simp)).1⟩
        obtain ⟨z, h1, h2⟩ := this
        exact dropWhile_head h1 h2
      refine ⟨c :: (l.takeWhile isWord ++ a), d, b, ?_, hd, ⟨c', l', hw, hs⟩, hall, fun y hy => ha y ?_, hb⟩
      · have : l = l.takeWhile isWord ++ (a ++ d ++ w ++ b) := by rw [← e, List.takeWhile_append_dropWhile]
        conv_lhs => rw [this]
        simp
      · rw [← List.cons_append, List.getLast?_append_of_ne_nil _ hne] at hy
        exact hy

theorem mem_findNames (l w : List Char) : w ∈ findNames l ↔ IsWord isStart isWord l w := by
  induction l using findNames.induct with
  | case1 =>
    rw [findNames]
    simp only [List.not_mem_nil, false_iff]
    rintro ⟨a, d, b, e, _, ⟨c, l, rfl, _⟩, _⟩
    simp at e
  | case2 c l hc ih => rw [findNames, if_pos hc, List.mem_cons, ih, isWord_start hc]
  | case3 c l hc ih => rw [findNames, if_neg hc, ih, isWord_skip hc]

/-! ### Powers -/

/-- A `*` is not followed by another one, or by the sign of a power. -/
def Apart (s : List Char) : Prop := ∀ p c q, s = p ++ '*' :: c :: q → c ≠ '*' ∧ c ≠ '^'

theorem Apart.tail {c : Char} {s : List Char} (h : Apart (c :: s)) : Apart s := fun p d q e => h (c :: p) d q (by simp [e])

theorem caret_cons {c : Char} {s : List Char} (h : c ≠ '*' ∨ ∀ d, s.head? = some d → d ≠ '*') : caret (c :: s) = c :: caret s := by
  cases s with
  | nil => rw [caret.eq_def]; split <;> simp_all
  | cons d s =>
    rw [caret.eq_def]
    split
    · rename_i l e
      simp only [List.cons.injEq] at e
      obtain ⟨rfl, rfl, rfl⟩ := e
      rcases h with h | h
      · exact absurd rfl h
      · exact absurd rfl (h '*' rfl)
    · rename_i c' l' _ e
      simp only [List.cons.injEq] at e
      obtain ⟨rfl, rfl⟩ := e
      rfl
    · rename_i e; simp at e

theorem python_head {s : List Char} {d : Char} (h : (python s).head? = some d) (hd : d = '*') : s.head? = some '*' ∨ s.head? = some '^' := by
  cases s with
  | nil => simp [python] at h
  | cons c s =>
    simp only [python, List.flatMap_cons] at h
    split at h
    · right; rename_i hc; simp [hc]
    · left; simp at h; simp [h, hd]

theorem caret_python {s : List Char} (h : Apart s) : caret (python s) = s := by
  induction s with
  | nil => rfl
  | cons c s ih =>
    have ih := ih h.tail
    by_cases hc : c = '^'
    · subst hc
      show caret ('*' :: '*' :: python s) = _
      rw [show caret ('*' :: '*' :: python s) = '^' :: caret (python s) from by rw [caret], ih]
    · have e : python (c :: s) = c :: python s := by simp [python, hc]
      rw [e, caret_cons, ih]
      by_cases h2 : c = '*'
      · right
        intro d hd e'
        subst h2
        cases s with
        | nil => simp [python] at hd
        | cons x s =>
          have := h [] x s rfl
          rcases python_head hd e' with h3 | h3 <;> simp at h3
          · exact this.1 h3
          · exact this.2 h3
      · exact .inl h2

theorem Apart.plain {s : List Char} (h : ∀ c ∈ s, c ∉ special) : Apart s := by
  intro p c q e
  exact absurd (by decide) (h '*' (by rw [e]; simp))

/-- The first character is not a `*` or the sign of a power. -/
def GoodHead (s : List Char) : Prop := ∃ c l, s = c :: l ∧ c ≠ '*' ∧ c ≠ '^'

theorem Apart.op {s t : List Char} {c : Char} (hs : Apart s) (ht : Apart t) (hg : GoodHead t) (hl : s.getLast? ≠ some '*') :
    Apart (s ++ c :: t) := by
  intro p d q e
  rcases List.append_eq_append_iff.1 e with ⟨a, e1, e2⟩ | ⟨a, e1, e2⟩
  · cases a with
    | nil =>
      simp only [List.nil_append, List.cons.injEq] at e2
      obtain ⟨rfl, e2⟩ := e2
      obtain ⟨x, l, hx, h1, h2⟩ := hg
      rw [hx] at e2
      simp only [List.cons.injEq] at e2
      rw [e2.1] at h1 h2; exact ⟨h1, h2⟩
    | cons x a =>
      simp only [List.cons_append, List.cons.injEq] at e2
      exact ht a d q e2.2
  · cases a with
    | nil =>
      simp only [List.nil_append, List.cons.injEq] at e2
      obtain ⟨rfl, e2⟩ := e2
      obtain ⟨x, l, hx, h1, h2⟩ := hg
      rw [← e2] at hx
      simp only [List.cons.injEq] at hx
      rw [hx.1]; exact ⟨h1, h2⟩
    | cons x a =>
      simp only [List.cons_append, List.cons.injEq] at e2
      obtain ⟨rfl, e2⟩ := e2
      cases a with
      | nil => exact absurd (by rw [e1]; simp) hl
      | cons y a =>
        simp only [List.cons_append, List.cons.injEq] at e2
        obtain ⟨rfl, e2⟩ := e2
        exact hs p _ a e1

theorem last_op {s t : List Char} {c : Char} (ht : t ≠ []) (h : t.getLast? ≠ some '*') : (s ++ c :: t).getLast? ≠ some '*' := by
  rw [show s ++ c :: t = (s ++ [c]) ++ t by simp, List.getLast?_append_of_ne_nil _ ht]
  exact h

theorem GoodHead.append {s : List Char} (h : GoodHead s) (t : List Char) : GoodHead (s ++ t) := by
  obtain ⟨c, l, rfl, h1⟩ := h
  exact ⟨c, l ++ t, rfl, h1⟩

theorem GoodHead.plain {s : List Char} (h0 : s ≠ []) (h : ∀ c ∈ s, c ∉ special) : GoodHead s := by
  cases s with
  | nil => exact (h0 rfl).elim
  | cons c s =>
    have := h c (by simp)
    simp only [special, List.mem_cons, not_or] at this
    exact ⟨c, s, rfl, this.2.2.2.2.1, this.2.2.2.2.2.2.1⟩

theorem last_plain {s : List Char} (h : ∀ c ∈ s, c ∉ special) : s.getLast? ≠ some '*' := fun e =>
  h '*' (List.mem_of_getLast? e) (by decide)

theorem means_apart {K : Type*} [Field K] {base : List Char → K → Prop} {expo : List Char → ℕ → Prop} (hok : Ok base expo) {k : Kind}
    {s : List Char} {x : K} (h : Means base expo k s x) : Apart s ∧ GoodHead s ∧ s.getLast? ≠ some '*' := by
  have bin : ∀ {s t : List Char} {c : Char}, (Apart s ∧ GoodHead s ∧ s.getLast? ≠ some '*') → (Apart t ∧ GoodHead t ∧ t.getLast? ≠ some '*') →
      Apart (s ++ c :: t) ∧ GoodHead (s ++ c :: t) ∧ (s ++ c :: t).getLast? ≠ some '*' := by
    intro s t c hs ht
    have : t ≠ [] := by obtain ⟨c, l, rfl, _⟩ := ht.2.1; simp
    exact ⟨hs.1.op ht.1 ht.2.1 hs.2.2, hs.2.1.append _, last_op this ht.2.2⟩
  induction h with
  | base h =>
    obtain ⟨h1, h2⟩ := hok.base_plain _ _ h
    exact ⟨.plain h2, .plain h1 h2, last_plain h2⟩
  | @paren s x _ ih =>
    refine ⟨?_, ⟨'(', _, rfl, by decide, by decide⟩, ?_⟩
    · intro p c q e
      cases p with
      | nil => simp at e
      | cons d p =>
        simp only [List.cons_append, List.cons.injEq] at e
        exact Apart.op (c := ')') (t := ['x']) ih.1 (.plain (by decide)) ⟨'x', [], rfl, by decide, by decide⟩ ih.2.2 p c (q ++ ['x'])
          (by rw [show s ++ [')', 'x'] = (s ++ [')']) ++ ['x'] by simp, e.2]; simp)
    · rw [List.getLast?_cons]; simp
  | ofAtom _ ih => exact ih
  | pow _ ht ih =>
    obtain ⟨h1, h2⟩ := hok.expo_plain _ _ ht
    exact bin ih ⟨.plain h2, .plain h1 h2, last_plain h2⟩
  | ofPow _ ih => exact ih
  | mul _ _ ih1 ih2 => exact bin ih1 ih2
  | div _ _ ih1 ih2 => exact bin ih1 ih2
  | ofProd _ ih => exact ih
  | @neg s x _ ih =>
    refine ⟨?_, ⟨'-', _, rfl, by decide, by decide⟩, ?_⟩
    · intro p c q e
      cases p with
      | nil => simp at e
      | cons d p =>
        simp only [List.cons_append, List.cons.injEq] at e
        exact ih.1 p c q e.2
    · obtain ⟨c, l, rfl, _⟩ := ih.2.1
      have := ih.2.2
      simpa [List.getLast?_cons_cons] using this
  | add _ _ ih1 ih2 => exact bin ih1 ih2
  | sub _ _ ih1 ih2 => exact bin ih1 ih2

end Coeff
end SecDec
