import Verif.Model.Coefficient
import Verif.Spec.Coefficient
import Mathlib.Tactic.Linarith
/-
Proofs for C66: texts.
-/
namespace SecDec
namespace Coeff
open CoeffSpec
variable {K : Type*} [Field K] {base : List Char → K → Prop} {expo : List Char → ℕ → Prop}

/-! ### One text has one meaning -/

/-- The number of open parentheses. -/
def dep : List Char → ℤ
  | [] => 0
  | c :: l => (if c = '(' then 1 else if c = ')' then -1 else 0) + dep l

theorem dep_append (s t : List Char) : dep (s ++ t) = dep s + dep t := by
  induction s with
  | nil => simp [dep]
  | cons c s ih => simp [dep, ih]; ring

theorem dep_plain {s : List Char} (h : ∀ c ∈ s, c ∉ special) : dep s = 0 := by
  induction s with
  | nil => rfl
  | cons c s ih =>
    have h1 := h c (by simp)
    simp only [special, List.mem_cons, not_or] at h1
    simp [dep, h1.1, h1.2.1, ih fun c hc => h c (by simp [hc])]

/-- A balanced text which is not empty. -/
def Bal (s : List Char) : Prop := s ≠ [] ∧ dep s = 0 ∧ ∀ p q, s = p ++ q → 0 ≤ dep p

theorem Bal.plain {s : List Char} (h0 : s ≠ []) (h : ∀ c ∈ s, c ∉ special) : Bal s :=
  ⟨h0, dep_plain h, fun p q e => (dep_plain fun c hc => h c (by rw [e]; simp [hc])).ge⟩

theorem Bal.paren {s : List Char} (h : Bal s) : Bal ('(' :: (s ++ [')'])) := by
  refine ⟨by simp, by simp [dep, dep_append, h.2.1], fun p q e => ?_⟩
  cases p with
  | nil => simp [dep]
  | cons c p =>
    simp only [List.cons_append, List.cons.injEq] at e
    obtain ⟨rfl, e⟩ := e
    have : -1 ≤ dep p := by
      rcases List.append_eq_append_iff.1 e with ⟨a, e1, e2⟩ | ⟨a, e1, e2⟩
      · subst e1
        rw [dep_append, h.2.1]
        rcases a with _ | ⟨c, a⟩
        · simp [dep]
        · simp only [List.cons_append, List.cons.injEq] at e2
          have : a = [] := by
            have := e2.2; simp at this; exact this.1
          subst this
          simp [dep, ← e2.1]
      · have := h.2.2 p a e1
        omega
    simp [dep]; omega

theorem Bal.op {s t : List Char} {c : Char} (hs : Bal s) (ht : Bal t) (hc : c ≠ '(' ∧ c ≠ ')') : Bal (s ++ c :: t) := by
  refine ⟨by simp, by simp [dep, dep_append, hs.2.1, ht.2.1, hc.1, hc.2], fun p q e => ?_⟩
  rcases List.append_eq_append_iff.1 e with ⟨a, e1, e2⟩ | ⟨a, e1, e2⟩
  · subst e1
    rw [dep_append, hs.2.1]
    cases a with
    | nil => simp [dep]
    | cons d a =>
      simp only [List.cons_append, List.cons.injEq] at e2
      obtain ⟨rfl, e2⟩ := e2
      have := ht.2.2 a q e2
      simp [dep, hc.1, hc.2]; omega
  · exact hs.2.2 p a e1

/-- A text without an operator of a list outside of parentheses. -/
def NoTop (ops : List Char) (s : List Char) : Prop := ∀ p c q, s = p ++ c :: q → c ∈ ops → dep p ≠ 0

theorem NoTop.plain {ops s : List Char} (hops : ∀ c ∈ ops, c ∈ special) (h : ∀ c ∈ s, c ∉ special) : NoTop ops s := by
  intro p c q e hc
  exact absurd (hops c hc) (h c (by rw [e]; simp))

theorem NoTop.paren {ops s : List Char} (hops : ∀ c ∈ ops, c ≠ '(' ∧ c ≠ ')') (h : Bal s) : NoTop ops ('(' :: (s ++ [')'])) := by
  intro p c q e hc
  cases p with
  | nil =>
    simp only [List.nil_append, List.cons.injEq] at e
    exact absurd e.1.symm (hops c hc).1
  | cons d p =>
    simp only [List.cons_append, List.cons.injEq] at e
    obtain ⟨rfl, e⟩ := e
    rcases List.append_eq_append_iff.1 e with ⟨a, e1, e2⟩ | ⟨a, e1, e2⟩
    · cases a with
      | nil =>
        simp only [List.nil_append, List.cons.injEq] at e2
        exact absurd e2.1.symm (hops c hc).2
      | cons d a =>
        simp at e2
    · have := h.2.2 p a e1
      simp [dep]; omega

theorem NoTop.op {ops s t : List Char} {c : Char} (hs : NoTop ops s) (ht : NoTop ops t) (hb : dep s = 0) (hc : c ∉ ops)
    (hc' : c ≠ '(' ∧ c ≠ ')') : NoTop ops (s ++ c :: t) := by
  intro p d q e hd
  rcases List.append_eq_append_iff.1 e with ⟨a, e1, e2⟩ | ⟨a, e1, e2⟩
  · cases a with
    | nil =>
      simp only [List.nil_append, List.cons.injEq] at e2
      exact absurd (e2.1 ▸ hd) hc
    | cons x a =>
      simp only [List.cons_append, List.cons.injEq] at e2
      obtain ⟨rfl, e2⟩ := e2
      have := ht a d q e2 hd
      subst e1
      simp [dep_append, hb, dep, hc'.1, hc'.2, this]
  · cases a with
    | nil =>
      simp only [List.nil_append, List.cons.injEq] at e2
      exact absurd (e2.1 ▸ hd) hc
    | cons x a =>
      simp only [List.cons_append, List.cons.injEq] at e2
      obtain ⟨rfl, e2⟩ := e2
      exact hs p d a e1 hd

theorem NoTop.mono {o1 o2 s : List Char} (h : NoTop o1 s) (ho : ∀ c ∈ o2, c ∈ o1) : NoTop o2 s :=
  fun p c q e hc => h p c q e (ho c hc)

/-- The operators which do not appear outside of parentheses. -/
def opsOf : Kind → List Char
  | .atom => ['+', '-', '*', '/', '^']
  | .pow => ['+', '-', '*', '/']
  | .prod => ['+', '-']
  | .sum => []

theorem means_shape (hok : Ok base expo) {k : Kind} {s : List Char} {x : K} (h : Means base expo k s x) : Bal s ∧ NoTop (opsOf k) s := by
  induction h with
  | base h =>
    obtain ⟨h1, h2⟩ := hok.base_plain _ _ h
    exact ⟨.plain h1 h2, .plain (by decide) h2⟩
  | paren _ ih => exact ⟨ih.1.paren, .paren (by decide) ih.1⟩
  | ofAtom _ ih => exact ⟨ih.1, ih.2.mono (by decide)⟩
  | pow _ ht ih =>
    obtain ⟨h1, h2⟩ := hok.expo_plain _ _ ht
    exact ⟨ih.1.op (.plain h1 h2) (by decide), NoTop.op (ih.2.mono (by decide)) (.plain (by decide) h2) ih.1.2.1 (by decide) (by decide)⟩
  | ofPow _ ih => exact ⟨ih.1, ih.2.mono (by decide)⟩
  | mul _ _ ih1 ih2 => exact ⟨ih1.1.op ih2.1 (by decide), NoTop.op ih1.2 (ih2.2.mono (by decide)) ih1.1.2.1 (by decide) (by decide)⟩
  | div _ _ ih1 ih2 => exact ⟨ih1.1.op ih2.1 (by decide), NoTop.op ih1.2 (ih2.2.mono (by decide)) ih1.1.2.1 (by decide) (by decide)⟩
  | ofProd _ ih => exact ⟨ih.1, ih.2.mono (by decide)⟩
  | @neg s x _ ih =>
    refine ⟨⟨by simp, by simp [dep, ih.1.2.1], fun p q e => ?_⟩, fun p c q _ hc => by simp [opsOf] at hc⟩
    cases p with
    | nil => simp [dep]
    | cons c p =>
      simp only [List.cons_append, List.cons.injEq] at e
      obtain ⟨rfl, e⟩ := e
      simpa [dep] using ih.1.2.2 p q e
  | add _ _ ih1 ih2 => exact ⟨ih1.1.op ih2.1 (by decide), fun p c q _ hc => by simp [opsOf] at hc⟩
  | sub _ _ ih1 ih2 => exact ⟨ih1.1.op ih2.1 (by decide), fun p c q _ hc => by simp [opsOf] at hc⟩

/-- Where a text is split at its last operator. -/
theorem split_unique {ops s1 t1 s2 t2 : List Char} {c1 c2 : Char} (h1 : dep s1 = 0) (h2 : dep s2 = 0) (n1 : NoTop ops t1) (n2 : NoTop ops t2)
    (m1 : c1 ∈ ops) (m2 : c2 ∈ ops) (p1 : c1 ≠ '(' ∧ c1 ≠ ')') (p2 : c2 ≠ '(' ∧ c2 ≠ ')') (e : s1 ++ c1 :: t1 = s2 ++ c2 :: t2) :
    s1 = s2 ∧ c1 = c2 ∧ t1 = t2 := by
  rcases List.append_eq_append_iff.1 e with ⟨a, e1, e2⟩ | ⟨a, e1, e2⟩
  · cases a with
    | nil =>
      simp only [List.nil_append, List.cons.injEq] at e2
      exact ⟨by simpa using e1.symm, e2.1, e2.2⟩
    | cons x a =>
      simp only [List.cons_append, List.cons.injEq] at e2
      obtain ⟨rfl, e2⟩ := e2
      refine absurd ?_ (n1 a c2 t2 e2 m2)
      rw [e1, dep_append, h1] at h2
      simpa [dep, p1.1, p1.2] using h2
  · cases a with
    | nil =>
      simp only [List.nil_append, List.cons.injEq] at e2
      exact ⟨by simpa using e1, e2.1.symm, e2.2.symm⟩
    | cons x a =>
      simp only [List.cons_append, List.cons.injEq] at e2
      obtain ⟨rfl, e2⟩ := e2
      refine absurd ?_ (n2 a c1 t1 e2 m1)
      rw [e1, dep_append, h2] at h1
      simpa [dep, p2.1, p2.2] using h1

/-- A text which has an operator outside of parentheses is not one of the texts without. -/
theorem no_split {k : Kind} {s s' t : List Char} {c : Char} (h : NoTop (opsOf k) s) (hs : dep s' = 0) (hc : c ∈ opsOf k) (e : s = s' ++ c :: t) :
    False := h _ _ _ e hc hs

theorem means_unique (hok : Ok base expo) {k : Kind} {s : List Char} {x : K} (h : Means base expo k s x) :
    ∀ {s' : List Char} {y : K}, Means base expo k s' y → s' = s → x = y := by
  induction h with
  | @base s x hx =>
    intro s' y h' e
    have hpl := (hok.base_plain _ _ hx).2
    cases h' with
    | base hy => exact hok.base_fun _ _ _ hx (e ▸ hy)
    | paren _ => exact absurd (by decide) (hpl '(' (by rw [← e]; simp))
  | @paren s x hx ih =>
    intro s' y h' e
    cases h' with
    | base hy => exact absurd (by decide) ((hok.base_plain _ _ hy).2 '(' (by rw [e]; simp))
    | paren hy =>
      simp only [List.cons.injEq, true_and, List.append_cancel_right_eq] at e
      exact ih hy e
  | @ofAtom s x hx ih =>
    intro s' y h' e
    cases h' with
    | ofAtom hy => exact ih hy e
    | pow hy ht => exact (no_split (means_shape hok hx).2 (means_shape hok hy).1.2.1 (by decide) e.symm).elim
  | @pow s x t k hx ht ih =>
    intro s' y h' e
    have h1 := (means_shape hok hx).1.2.1
    cases h' with
    | ofAtom hy => exact (no_split (means_shape hok hy).2 h1 (by decide) e).elim
    | pow hy ht' =>
      have := split_unique (ops := ['^']) (means_shape hok hy).1.2.1 h1 (.plain (by decide) (hok.expo_plain _ _ ht').2)
        (.plain (by decide) (hok.expo_plain _ _ ht).2) (by decide) (by decide) (by decide) (by decide) e
      rw [ih hy this.1, hok.expo_fun _ _ _ ht (this.2.2 ▸ ht')]
  | @ofPow s x hx ih =>
    intro s' y h' e
    cases h' with
    | ofPow hy => exact ih hy e
    | mul hy _ => exact (no_split (means_shape hok hx).2 (means_shape hok hy).1.2.1 (by decide) e.symm).elim
    | div hy _ => exact (no_split (means_shape hok hx).2 (means_shape hok hy).1.2.1 (by decide) e.symm).elim
  | @mul s x t z hx ht ih1 ih2 =>
    intro s' y h' e
    have h1 := (means_shape hok hx).1.2.1
    have h2 := (means_shape hok ht).2
    cases h' with
    | ofPow hy => exact (no_split (means_shape hok hy).2 h1 (by decide) e).elim
    | mul hy hz =>
      have := split_unique (means_shape hok hy).1.2.1 h1 (means_shape hok hz).2 h2 (by decide) (by decide) (by decide) (by decide) e
      rw [ih1 hy this.1, ih2 hz this.2.2]
    | div hy hz =>
      have := split_unique (means_shape hok hy).1.2.1 h1 (means_shape hok hz).2 h2 (by decide) (by decide) (by decide) (by decide) e
      exact absurd this.2.1 (by decide)
  | @div s x t z hx ht ih1 ih2 =>
    intro s' y h' e
    have h1 := (means_shape hok hx).1.2.1
    have h2 := (means_shape hok ht).2
    cases h' with
    | ofPow hy => exact (no_split (means_shape hok hy).2 h1 (by decide) e).elim
    | mul hy hz =>
      have := split_unique (means_shape hok hy).1.2.1 h1 (means_shape hok hz).2 h2 (by decide) (by decide) (by decide) (by decide) e
      exact absurd this.2.1 (by decide)
    | div hy hz =>
      have := split_unique (means_shape hok hy).1.2.1 h1 (means_shape hok hz).2 h2 (by decide) (by decide) (by decide) (by decide) e
      rw [ih1 hy this.1, ih2 hz this.2.2]
  | @ofProd s x hx ih =>
    intro s' y h' e
    have h1 := (means_shape hok hx).2
    cases h' with
    | ofProd hy => exact ih hy e
    | neg hy => exact (no_split (s' := []) h1 rfl (by decide) e.symm).elim
    | add hy _ => exact (no_split h1 (means_shape hok hy).1.2.1 (by decide) e.symm).elim
    | sub hy _ => exact (no_split h1 (means_shape hok hy).1.2.1 (by decide) e.symm).elim
  | @neg s x hx ih =>
    intro s' y h' e
    have h1 := (means_shape hok hx).2
    have key : ∀ {t u : List Char} {c : Char}, Bal t → c ∈ opsOf .prod → t ++ c :: u = '-' :: s → False := by
      intro t u c hb hc e
      cases t with
      | nil => exact hb.1 rfl
      | cons d t =>
        simp only [List.cons_append, List.cons.injEq] at e
        obtain ⟨rfl, e⟩ := e
        exact no_split h1 (by simpa [dep] using hb.2.1) hc e.symm
    cases h' with
    | ofProd hy => exact (no_split (s' := []) (means_shape hok hy).2 rfl (by decide) e).elim
    | neg hy =>
      simp only [List.cons.injEq, true_and] at e
      rw [ih hy e]
    | add hy _ => exact (key (means_shape hok hy).1 (by decide) e).elim
    | sub hy _ => exact (key (means_shape hok hy).1 (by decide) e).elim
  | @add s x t z hx ht ih1 ih2 =>
    intro s' y h' e
    have h1 := (means_shape hok hx).1
    have h2 := (means_shape hok ht).2
    cases h' with
    | ofProd hy => exact (no_split (means_shape hok hy).2 h1.2.1 (by decide) e).elim
    | neg hy =>
      cases s with
      | nil => exact (h1.1 rfl).elim
      | cons d s =>
        simp only [List.cons_append, List.cons.injEq] at e
        obtain ⟨rfl, e⟩ := e
        exact (no_split (means_shape hok hy).2 (by simpa [dep] using h1.2.1) (by decide) e).elim
    | add hy hz =>
      have := split_unique (means_shape hok hy).1.2.1 h1.2.1 (means_shape hok hz).2 h2 (by decide) (by decide) (by decide) (by decide) e
      rw [ih1 hy this.1, ih2 hz this.2.2]
    | sub hy hz =>
      have := split_unique (means_shape hok hy).1.2.1 h1.2.1 (means_shape hok hz).2 h2 (by decide) (by decide) (by decide) (by decide) e
      exact absurd this.2.1 (by decide)
  | @sub s x t z hx ht ih1 ih2 =>
    intro s' y h' e
    have h1 := (means_shape hok hx).1
    have h2 := (means_shape hok ht).2
    cases h' with
    | ofProd hy => exact (no_split (means_shape hok hy).2 h1.2.1 (by decide) e).elim
    | neg hy =>
      cases s with
      | nil => exact (h1.1 rfl).elim
      | cons d s =>
        simp only [List.cons_append, List.cons.injEq] at e
        obtain ⟨rfl, e⟩ := e
        exact (no_split (means_shape hok hy).2 (by simpa [dep] using h1.2.1) (by decide) e).elim
    | add hy hz =>
      have := split_unique (means_shape hok hy).1.2.1 h1.2.1 (means_shape hok hz).2 h2 (by decide) (by decide) (by decide) (by decide) e
      exact absurd this.2.1 (by decide)
    | sub hy hz =>
      have := split_unique (means_shape hok hy).1.2.1 h1.2.1 (means_shape hok hz).2 h2 (by decide) (by decide) (by decide) (by decide) e
      rw [ih1 hy this.1, ih2 hz this.2.2]

/-! ### The text of a coefficient -/

theorem means_paren {s : List Char} {x : K} (h : Means base expo .sum s x) : Means base expo .pow ('(' :: (s ++ [')'])) x := .ofAtom (.paren h)

theorem means_mulRight {s t : List Char} {x y : K} (hs : Means base expo .pow s x) (ht : Means base expo .prod t y) :
    Means base expo .prod (s ++ '*' :: t) (x * y) := by
  suffices H : ∀ {k t} {y : K}, Means base expo k t y → (k = .pow ∨ k = .prod) → Means base expo .prod (s ++ '*' :: t) (x * y) from H ht (.inr rfl)
  clear ht
  intro k t y ht
  induction ht with
  | base => rintro (h | h) <;> cases h
  | paren => rintro (h | h) <;> cases h
  | ofAtom h => intro _; exact .mul (.ofPow hs) (.ofAtom h)
  | pow h h' => intro _; exact .mul (.ofPow hs) (.pow h h')
  | ofPow h => intro _; exact .mul (.ofPow hs) h
  | @mul t y u z _ h2 ih _ =>
    intro _
    have := Means.mul (ih (.inr rfl)) h2
    simpa [mul_assoc] using this
  | @div t y u z _ h2 ih _ =>
    intro _
    have := Means.div (ih (.inr rfl)) h2
    simpa [mul_div_assoc] using this
  | ofProd => rintro (h | h) <;> cases h
  | neg => rintro (h | h) <;> cases h
  | add => rintro (h | h) <;> cases h
  | sub => rintro (h | h) <;> cases h

theorem means_join {l : List (List Char)} {xs : List K} (h : List.Forall₂ (Means base expo .sum) l xs) (hl : l ≠ []) :
    Means base expo .prod (joinFactors l) xs.prod := by
  induction h with
  | nil => exact (hl rfl).elim
  | @cons f x l xs hf hrest ih =>
    cases hrest with
    | nil => simpa [joinFactors] using Means.ofPow (means_paren hf)
    | cons hg hrest' =>
      have := means_mulRight (means_paren hf) (ih (by simp))
      simpa [joinFactors] using this

theorem joinFactors_eq_nil {l : List (List Char)} : joinFactors l = [] ↔ l = [] := by
  cases l with
  | nil => simp [joinFactors]
  | cons f l => cases l <;> simp [joinFactors]

end Coeff
end SecDec
