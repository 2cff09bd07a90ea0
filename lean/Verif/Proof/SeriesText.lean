import Verif.Spec.SeriesText
import Verif.Proof.FuncNames
import Verif.Proof.FormFiles
/-
Reading the text of a series.
-/
namespace SecDec
namespace SeriesText
variable {R : Type}

/-! ### parentheses -/

/-- opening minus closing parentheses -/
def ex (s : Str) : ℤ := s.count '(' - s.count ')'

theorem ex_append (s t : Str) : ex (s ++ t) = ex s + ex t := by simp only [ex, List.count_append, Nat.cast_add]; ring
theorem ex_reverse (s : Str) : ex s.reverse = ex s := by simp [ex]
theorem ex_cons (c : Char) (s : Str) : ex (c :: s) = ex [c] + ex s := ex_append [c] s
theorem ex_none {s : Str} (h : ∀ c ∈ s, c ≠ '(' ∧ c ≠ ')') : ex s = 0 := by
  have h1 : s.count '(' = 0 := List.count_eq_zero.2 fun hc => (h _ hc).1 rfl
  have h2 : s.count ')' = 0 := List.count_eq_zero.2 fun hc => (h _ hc).2 rfl
  simp [ex, h1, h2]

theorem prefix_append_cases {u a b : Str} (h : u <+: a ++ b) : u <+: a ∨ ∃ t, u = a ++ t ∧ t <+: b := by
  obtain ⟨r, hr⟩ := h
  rcases List.append_eq_append_iff.1 hr with ⟨s, h1, h2⟩ | ⟨s, h1, h2⟩
  · exact Or.inl ⟨s, h1.symm⟩
  · exact Or.inr ⟨s, h1, ⟨r, h2.symm⟩⟩

structure Bal (w : Str) : Prop where
  ex0 : ex w = 0
  pos : ∀ u, u <+: w → 0 ≤ ex u
  nl : '\n' ∉ w

theorem Bal.append {a b : Str} (ha : Bal a) (hb : Bal b) : Bal (a ++ b) := by
  refine ⟨by rw [ex_append, ha.ex0, hb.ex0, add_zero], fun u hu => ?_, by simp [ha.nl, hb.nl]⟩
  rcases prefix_append_cases hu with h | ⟨t, rfl, ht⟩
  · exact ha.pos u h
  · rw [ex_append, ha.ex0, zero_add]; exact hb.pos t ht

theorem Bal.wrap {a : Str} (ha : Bal a) : Bal ('(' :: (a ++ [')'])) := by
  refine ⟨?_, fun u hu => ?_, by simp [ha.nl]⟩
  · rw [ex_cons, ex_append, ha.ex0]; decide
  · rcases u with _ | ⟨c, u⟩
    · decide
    · obtain ⟨rfl, hu'⟩ := List.cons_prefix_cons.1 hu
      clear hu
      rw [ex_cons]
      have h1 : ex ['('] = 1 := by decide
      rcases prefix_append_cases hu' with h | ⟨t, rfl, ht⟩
      · have := ha.pos u h; omega
      · rw [ex_append, ha.ex0]
        have : -1 ≤ ex t := by
          rcases t with _ | ⟨d, t⟩
          · decide
          · obtain ⟨rfl, ht'⟩ := List.cons_prefix_cons.1 ht
            rw [List.prefix_nil.1 ht']; decide
        omega

theorem Bal.plain {a : Str} (h : ∀ c ∈ a, c ≠ '(' ∧ c ≠ ')') (hn : '\n' ∉ a) : Bal a :=
  ⟨ex_none h, fun u hu => (ex_none fun c hc => h c (hu.subset hc)).ge, hn⟩

theorem iter_paren : ∀ (k : ℕ) (w rest seg : Str), w.length ≤ k → (∀ u, u <+: w → 0 < ex seg + ex u) →
    iterTerms seg (w ++ ')' :: rest) = iterTerms (')' :: (w.reverse ++ seg)) rest := by
  intro k
  induction k with
  | zero =>
    intro w rest seg hk _
    have : w = [] := List.length_eq_zero_iff.1 (by omega)
    subst this
    rw [List.nil_append, iterTerms]
    · rfl
    · simp
  | succ k ih =>
    intro w rest seg hk h
    by_cases hp : ∃ w', w = ' ' :: '+' :: ' ' :: w'
    · obtain ⟨w', rfl⟩ := hp
      have h0 := h [] (List.nil_prefix)
      have hne : ¬ seg.count '(' = seg.count ')' := by
        intro he; simp [ex, he] at h0
      simp only [List.cons_append]
      rw [iterTerms, if_neg hne, ih w' rest _ (by simp at hk; omega)]
      · simp
      · intro u hu
        have := h (' ' :: '+' :: ' ' :: u) (by
          obtain ⟨t, rfl⟩ := hu; exact ⟨t, rfl⟩)
        have e1 : ex (' ' :: '+' :: ' ' :: seg) = ex seg := by
          rw [show (' ' :: '+' :: ' ' :: seg) = [' ', '+', ' '] ++ seg from rfl, ex_append]
          rw [show ex [' ', '+', ' '] = 0 by decide, zero_add]
        have e2 : ex (' ' :: '+' :: ' ' :: u) = ex u := by
          rw [show (' ' :: '+' :: ' ' :: u) = [' ', '+', ' '] ++ u from rfl, ex_append]
          rw [show ex [' ', '+', ' '] = 0 by decide, zero_add]
        rw [e2] at this; rw [e1]; exact this
    · rcases w with _ | ⟨c, w⟩
      · rw [List.nil_append, iterTerms]
        · rfl
        · simp
      · rw [List.cons_append, iterTerms]
        · rw [ih w rest (c :: seg) (by simp at hk; omega)]
          · simp
          · intro u hu
            have := h (c :: u) (by obtain ⟨t, rfl⟩ := hu; exact ⟨t, rfl⟩)
            rw [ex_cons] at this
            rw [ex_cons]; omega
        · intro r hc hr
          apply hp
          rcases w with _ | ⟨a, w⟩
          · simp at hr
          · simp only [List.cons_append, List.cons.injEq] at hr
            rcases w with _ | ⟨b, w⟩
            · simp at hr
            · simp only [List.cons_append, List.cons.injEq] at hr
              exact ⟨w, by rw [hc, hr.1, hr.2.1]⟩

theorem iter_plain : ∀ (w rest seg : Str), (∀ c ∈ w, c ≠ ' ') → iterTerms seg (w ++ rest) = iterTerms (w.reverse ++ seg) rest
  | [], rest, seg, _ => rfl
  | c :: w, rest, seg, h => by
    rw [List.cons_append, iterTerms]
    · rw [iter_plain w rest (c :: seg) fun c hc => h c (by simp [hc])]; simp
    · intro r hc _; exact absurd hc (h c (by simp))

theorem iter_split (seg r : Str) (h : ex seg = 0) : iterTerms seg (' ' :: '+' :: ' ' :: r) = seg.reverse :: iterTerms [] r := by
  rw [iterTerms, if_pos]
  unfold ex at h; omega

/-! ### characters -/

theorem alnum_ne {c d : Char} (h : c.isAlphanum = true) (hd : d.isAlphanum = false) : c ≠ d := by
  rintro rfl; rw [h] at hd; cases hd

/-- Not one of the characters with a meaning. -/
def Tame (c : Char) : Prop := c ≠ '(' ∧ c ≠ ')' ∧ c ≠ ' ' ∧ c ≠ '\n' ∧ c ≠ '^' ∧ c ≠ '/' ∧ c ≠ ',' ∧ c.isWhitespace = false

theorem isWhitespace_iff (c : Char) : c.isWhitespace = true ↔ c = ' ' ∨ c = '\t' ∨ c = '\r' ∨ c = '\n' := by
  simp [Char.isWhitespace, or_assoc]

theorem tame_alnum {c : Char} (h : c.isAlphanum = true) : Tame c := by
  refine ⟨alnum_ne h (by decide), alnum_ne h (by decide), alnum_ne h (by decide), alnum_ne h (by decide), alnum_ne h (by decide),
    alnum_ne h (by decide), alnum_ne h (by decide), ?_⟩
  rw [Bool.eq_false_iff]
  intro hw
  rcases (isWhitespace_iff c).1 hw with rfl | rfl | rfl | rfl <;> exact absurd h (by decide)

theorem tame_pr {pr : R → Str} {rd : Str → Option R} (hp : Printing pr rd) (r : R) : ∀ c ∈ pr r, Tame c := by
  intro c hc
  rcases hp.chars r c hc with h | rfl | rfl | rfl
  · exact tame_alnum h
  all_goals (unfold Tame; decide)

theorem tame_id {p : Str} (hp : Identifier p) : ∀ c ∈ p, Tame c := by
  intro c hc
  rcases hp.2 c hc with h | rfl
  · exact tame_alnum h
  · unfold Tame; decide

theorem digit_signDigit {c : Char} (h : c.isDigit = true) : isSignDigit c = true := by simp [isSignDigit, h]

theorem toString_int (i : ℤ) : (toString i).toList = (if i < 0 then ['-'] else []) ++ Func.digs i.natAbs := by
  cases i with
  | ofNat k =>
    rw [if_neg (by simp)]; rfl
  | negSucc k =>
    rw [if_pos (Int.negSucc_lt_zero k)]
    show ("-" ++ Nat.repr (k + 1)).toList = _
    rw [String.toList_append]; rfl

theorem int_signDigit (i : ℤ) : ((toString i).toList).all isSignDigit = true := by
  rw [toString_int, List.all_append, Bool.and_eq_true]
  constructor
  · split <;> rfl
  · exact List.all_eq_true.2 fun c hc => digit_signDigit (Func.digs_digit hc)

theorem int_ne_nil (i : ℤ) : (toString i).toList ≠ [] := by
  rw [toString_int]
  simp [Func.digs_ne_nil]

theorem tame_int (i : ℤ) : ∀ c ∈ (toString i).toList, Tame c := by
  intro c hc
  have h := List.all_eq_true.1 (int_signDigit i) c hc
  simp only [isSignDigit, Bool.or_eq_true, beq_iff_eq] at h
  rcases h with (h | rfl) | rfl
  · exact tame_alnum (by simp [Char.isAlphanum, h])
  all_goals (unfold Tame; decide)

theorem readNat_digs (k : ℕ) : readNat (Func.digs k) = some k := by
  unfold readNat
  rw [if_pos ⟨Func.digs_ne_nil k, List.all_eq_true.2 fun c hc => Func.digs_digit hc⟩, Func.digs_eq, Nat.ofDigitChars_ten_toDigits]

theorem readInt_toString (i : ℤ) : readInt (toString i).toList = some i := by
  rw [toString_int]
  by_cases hi : i < 0
  · rw [if_pos hi, List.singleton_append, readInt, readNat_digs]
    show some (-(i.natAbs : ℤ)) = some i
    congr 1; omega
  · rw [if_neg hi, List.nil_append]
    have hne := Func.digs_ne_nil i.natAbs
    rcases hd : Func.digs i.natAbs with _ | ⟨c, s⟩
    · exact absurd hd hne
    · have hc : c.isDigit = true := Func.digs_digit (k := i.natAbs) (by rw [hd]; simp)
      have h1 : c ≠ '-' := by rintro rfl; revert hc; decide
      have h2 : c ≠ '+' := by rintro rfl; revert hc; decide
      rw [readInt]
      · rw [← hd, readNat_digs]
        show some (i.natAbs : ℤ) = some i
        congr 1; omega
      · intro s' h; exact h1 (List.cons.inj h).1
      · intro s' h; exact h2 (List.cons.inj h).1

theorem tame_power {p : Str} (hp : Identifier p) (i : ℤ) : ∀ c ∈ printPower p i, c ≠ '(' ∧ c ≠ ')' ∧ c ≠ ' ' ∧ c ≠ '\n' ∧ c.isWhitespace = false := by
  intro c hc
  unfold printPower at hc
  rcases List.mem_append.1 hc with h | h
  · have := tame_id hp c h; exact ⟨this.1, this.2.1, this.2.2.1, this.2.2.2.1, this.2.2.2.2.2.2.2⟩
  · split at h
    · simp at h
    · rcases List.mem_cons.1 h with rfl | h
      · decide
      · have := tame_int i c h; exact ⟨this.1, this.2.1, this.2.2.1, this.2.2.2.1, this.2.2.2.2.2.2.2⟩

theorem tame_monomial {p : Str} (hp : Identifier p) (i : ℤ) : ∀ c ∈ printMonomial p i, c ≠ '(' ∧ c ≠ ')' ∧ c ≠ ' ' ∧ c ≠ '\n' ∧ c.isWhitespace = false := by
  intro c hc
  unfold printMonomial at hc
  split at hc
  · simp at hc
  · rcases List.mem_cons.1 hc with rfl | h
    · decide
    · exact tame_power hp i c h

/-! ### matching -/

theorem takeWhile_append_ne {p r : Str} (hp : ∀ c ∈ p, c ≠ '^') (hr : r = [] ∨ ∃ r', r = '^' :: r') :
    (p ++ r).takeWhile (fun c => c != '^') = p ∧ (p ++ r).dropWhile (fun c => c != '^') = r := by
  induction p with
  | nil => rcases hr with rfl | ⟨r', rfl⟩ <;> simp
  | cons c p ih =>
    have hc : (c != '^') = true := by simp [hp c (by simp)]
    obtain ⟨h1, h2⟩ := ih fun c hc => hp c (by simp [hc])
    simp [hc, h1, h2]

theorem matchPower_print {p : Str} (hp : Identifier p) (i : ℤ) :
    matchPower (printPower p i) = some (p, if i = 1 then none else some (toString i).toList) := by
  have hno : ∀ c ∈ p, c ≠ '^' := fun c hc => (tame_id hp c hc).2.2.2.2.1
  unfold matchPower printPower
  by_cases hi : i = 1
  · obtain ⟨h1, h2⟩ := takeWhile_append_ne (r := []) hno (Or.inl rfl)
    rw [if_pos hi, if_pos hi, h1, h2]
    simp [hp.1]
  · obtain ⟨h1, h2⟩ := takeWhile_append_ne (r := '^' :: (toString i).toList) hno (Or.inr ⟨_, rfl⟩)
    rw [if_neg hi, if_neg hi, h1, h2]
    dsimp only
    rw [if_neg hp.1, if_pos ⟨int_ne_nil i, int_signDigit i⟩]

theorem matchTail_print {p : Str} (hp : Identifier p) (i : ℤ) :
    matchTail (printMonomial p i) = some (if i = 0 then none else some (p, if i = 1 then none else some (toString i).toList)) := by
  unfold printMonomial
  by_cases hi : i = 0
  · rw [if_pos hi, if_pos hi]; rfl
  · rw [if_neg hi, if_neg hi, matchTail, matchPower_print hp]; rfl

theorem matchBody_none {s : Str} (h : ')' ∉ s) : matchBody s = none := by
  induction s with
  | nil => rfl
  | cons c s ih =>
    have h1 : c ≠ ')' := by rintro rfl; simp at h
    have h2 := ih (by simp at h; exact h.2)
    rw [matchBody, h2, if_neg h1]
    simp

theorem matchBody_eq {v m : Str} {t : Option (Str × Option Str)} (hv : '\n' ∉ v) (hm : ')' ∉ m) (ht : matchTail m = some t) :
    matchBody (v ++ ')' :: m) = some (v, t) := by
  induction v with
  | nil =>
    rw [List.nil_append, matchBody, matchBody_none hm]
    simp [ht]
  | cons c v ih =>
    have h1 : c ≠ '\n' := by rintro rfl; simp at hv
    rw [List.cons_append, matchBody, if_neg h1, ih (by simp at hv; exact hv.2)]

theorem strip_eq {s : Str} (h1 : ∀ c, s.head? = some c → c.isWhitespace = false) (h2 : ∀ c, s.getLast? = some c → c.isWhitespace = false) :
    strip s = s := by
  have key : ∀ t : Str, (∀ c, t.head? = some c → c.isWhitespace = false) → t.dropWhile Char.isWhitespace = t := by
    intro t ht
    cases t with
    | nil => rfl
    | cons c t => rw [List.dropWhile_cons, ht c rfl]; simp
  unfold strip
  rw [key s h1, key s.reverse (by simpa [List.head?_reverse] using h2), List.reverse_reverse]

/-- one term -/
def termText (pr : R → Str) (p : Str) (i : ℤ) (v : CVal R) : Str := '(' :: (printVal pr v ++ ')' :: printMonomial p i)

/-- the parts of the text -/
def parts (pr : R → Str) (p : Str) : ℤ → List (CVal R) → List Str
  | _, [] => []
  | i, v :: vs => termText pr p i v :: parts pr p (i + 1) vs

def orderParts (trunc : Bool) (p : Str) (i : ℤ) : List Str := if trunc then ['O' :: '(' :: (printPower p i ++ [')'])] else []

theorem printNum_head {pr : R → Str} {rd : Str → Option R} (hp : Printing pr rd) (x : CNum R) :
    ∃ c s, printNum pr x = c :: s ∧ c.isWhitespace = false ∧ c ≠ ' ' := by
  cases x with
  | real r =>
    rcases h : pr r with _ | ⟨c, s⟩
    · exact absurd h (hp.nonempty r)
    · have := tame_pr hp r c (by rw [h]; simp)
      exact ⟨c, s, h, this.2.2.2.2.2.2.2, this.2.2.1⟩
  | cplx a b => exact ⟨'(', _, rfl, by decide, by decide⟩

theorem printNum_ws {pr : R → Str} {rd : Str → Option R} (hp : Printing pr rd) (x : CNum R) :
    ∀ c ∈ printNum pr x, c ≠ ' ' ∧ c ≠ '\n' ∧ c ≠ '/' ∧ c.isWhitespace = false := by
  intro c hc
  cases x with
  | real r =>
    have := tame_pr hp r c hc; exact ⟨this.2.2.1, this.2.2.2.1, this.2.2.2.2.2.1, this.2.2.2.2.2.2.2⟩
  | cplx a b =>
    simp only [printNum, List.mem_cons, List.mem_append, List.not_mem_nil, or_false] at hc
    rcases hc with rfl | hc | rfl | hc | rfl
    · decide
    · have := tame_pr hp a c hc; exact ⟨this.2.2.1, this.2.2.2.1, this.2.2.2.2.2.1, this.2.2.2.2.2.2.2⟩
    · decide
    · have := tame_pr hp b c hc; exact ⟨this.2.2.1, this.2.2.2.1, this.2.2.2.2.2.1, this.2.2.2.2.2.2.2⟩
    · decide

theorem bal_pr {pr : R → Str} {rd : Str → Option R} (hp : Printing pr rd) (r : R) : Bal (pr r) :=
  .plain (fun c hc => ⟨(tame_pr hp r c hc).1, (tame_pr hp r c hc).2.1⟩) (fun hc => (tame_pr hp r _ hc).2.2.2.1 rfl)

theorem bal_num {pr : R → Str} {rd : Str → Option R} (hp : Printing pr rd) (x : CNum R) : Bal (printNum pr x) := by
  cases x with
  | real r => exact bal_pr hp r
  | cplx a b =>
    have : printNum pr (.cplx a b) = '(' :: ((pr a ++ ([','] ++ pr b)) ++ [')']) := by simp [printNum]
    rw [this]
    refine Bal.wrap ((bal_pr hp a).append (Bal.append (.plain ?_ (by decide)) (bal_pr hp b)))
    intro c hc; simp at hc; subst hc; decide

mutual
theorem bal_val {pr : R → Str} {rd : Str → Option R} (hp : Printing pr rd) : ∀ v : CVal R, WF v → Bal (printVal pr v)
  | .num x, _ => by rw [printVal]; exact bal_num hp x
  | .dev m s, _ => by
    rw [printVal]
    refine ((bal_num hp m).append (.plain ?_ (by decide))).append (bal_num hp s)
    intro c hc
    revert c; decide
  | .ser omin content trunc p, h => by
    rw [WF] at h
    rw [printVal]
    refine (bal_terms hp p h.2.1 content omin h.2.2).append ?_
    cases trunc with
    | false => exact .plain (by simp) (by simp)
    | true =>
      rw [if_pos rfl]
      have : " + O(".toList ++ printPower p (omin + content.length) ++ [')'] =
          " + O".toList ++ '(' :: (printPower p (omin + content.length) ++ [')']) := by
        rw [List.append_assoc]; rfl
      rw [this]
      refine Bal.append (.plain (by decide) (by decide)) (Bal.wrap (.plain ?_ ?_))
      · intro c hc; have := tame_power h.2.1 _ c hc; exact ⟨this.1, this.2.1⟩
      · intro hc; exact (tame_power h.2.1 _ _ hc).2.2.2.1 rfl
theorem bal_terms {pr : R → Str} {rd : Str → Option R} (hp : Printing pr rd) (p : Str) (hid : Identifier p) :
    ∀ (vs : List (CVal R)) (i : ℤ), WFs vs → Bal (printTerms pr p i vs)
  | [], _, _ => by rw [printTerms]; exact .plain (by simp) (by simp)
  | v :: vs, i, h => by
    rw [WFs] at h
    rw [printTerms]
    have : " + (".toList ++ printVal pr v ++ ')' :: (printMonomial p i ++ printTerms pr p (i + 1) vs) =
        " + ".toList ++ (('(' :: (printVal pr v ++ [')'])) ++ (printMonomial p i ++ printTerms pr p (i + 1) vs)) := by
      simp only [List.append_assoc, List.cons_append, List.singleton_append]; rfl
    rw [this]
    refine Bal.append (.plain (by decide) (by decide)) ((bal_val hp v h.1).wrap.append (Bal.append (.plain ?_ ?_) (bal_terms hp p hid vs (i + 1) h.2)))
    · intro c hc; have := tame_monomial hid _ c hc; exact ⟨this.1, this.2.1⟩
    · intro hc; exact (tame_monomial hid _ _ hc).2.2.2.1 rfl
end

theorem iter_terms {pr : R → Str} {rd : Str → Option R} (hp : Printing pr rd) (p : Str) (hid : Identifier p) (trunc : Bool) (j : ℤ) :
    ∀ (vs : List (CVal R)) (i : ℤ) (seg : Str), WFs vs → ex seg = 0 →
      iterTerms seg (printTerms pr p i vs ++ (if trunc then " + O(".toList ++ printPower p j ++ [')'] else [])) =
        seg.reverse :: (parts pr p i vs ++ orderParts trunc p j)
  | [], i, seg, _, hs => by
    rw [printTerms, List.nil_append, parts, List.nil_append, orderParts]
    cases trunc with
    | false => simp [iterTerms]
    | true =>
      rw [if_pos rfl, if_pos rfl]
      have : " + O(".toList ++ printPower p j ++ [')'] = ' ' :: '+' :: ' ' :: (('O' :: '(' :: (printPower p j ++ [')'])) ++ []) := by
        rw [List.append_assoc, List.append_nil]; rfl
      rw [this, iter_split _ _ hs, iter_plain]
      · simp [iterTerms]
      · intro c hc
        simp only [List.mem_cons, List.mem_append, List.not_mem_nil, or_false] at hc
        rcases hc with rfl | rfl | hc | rfl
        · decide
        · decide
        · exact (tame_power hid j c hc).2.2.1
        · decide
  | v :: vs, i, seg, h, hs => by
    rw [WFs] at h
    have hb := bal_val hp v h.1
    rw [printTerms, parts]
    set tail := (if trunc then " + O(".toList ++ printPower p j ++ [')'] else [])
    have : " + (".toList ++ printVal pr v ++ ')' :: (printMonomial p i ++ printTerms pr p (i + 1) vs) ++ tail =
        ' ' :: '+' :: ' ' :: (['('] ++ (printVal pr v ++ ')' :: (printMonomial p i ++ (printTerms pr p (i + 1) vs ++ tail)))) := by
      simp only [List.append_assoc, List.cons_append, List.singleton_append]; rfl
    rw [this, iter_split _ _ hs, iter_plain ['('] _ _ (by decide), iter_paren _ _ _ _ le_rfl, iter_plain, iter_terms hp p hid trunc j vs (i + 1) _ h.2]
    · have hrev : ((printMonomial p i).reverse ++ ')' :: ((printVal pr v).reverse ++ (['('].reverse ++ []))).reverse = termText pr p i v := by
        simp [termText]
      rw [hrev]; rfl
    · rw [ex_append, ex_reverse, ex_none (fun c hc => ⟨(tame_monomial hid i c hc).1, (tame_monomial hid i c hc).2.1⟩), ex_cons, ex_append,
        ex_reverse, hb.ex0]
      decide
    · intro c hc; exact (tame_monomial hid i c hc).2.2.1
    · intro u hu
      have := hb.pos u hu
      have h1 : ex (['('].reverse ++ []) = 1 := by decide
      omega

/-! ### the steps -/

theorem last_term {pr : R → Str} {p : Str} (hid : Identifier p) (i : ℤ) (v : CVal R) :
    ∀ c, (termText pr p i v).getLast? = some c → c.isWhitespace = false := by
  intro c hc
  have : termText pr p i v = ('(' :: (printVal pr v)) ++ (')' :: printMonomial p i) := by simp [termText]
  rw [this, List.getLast?_append] at hc
  have hm : c ∈ (')' :: printMonomial p i) := by
    rcases hl : (')' :: printMonomial p i).getLast? with _ | d
    · simp at hl
    · rw [hl] at hc
      have hd : d = c := by simpa using hc
      subst hd
      exact List.mem_of_getLast? hl
  rcases List.mem_cons.1 hm with rfl | hm
  · decide
  · exact (tame_monomial hid i c hm).2.2.2.2

theorem step_term {pr : R → Str} {rd : Str → Option R} (hp : Printing pr rd) {p : Str} (hid : Identifier p) (i : ℤ) {v : CVal R} (hv : WF v)
    {coef : Str → Option (PVal R)} {x : PVal R} (hc : coef (printVal pr v) = some x) (st : List (PVal R × ℤ) × Option Str × Option ℤ) :
    step coef st (termText pr p i v) = some ((x, i) :: st.1, if i = 0 then st.2.1 else some p, st.2.2) := by
  have hs : strip (termText pr p i v) = termText pr p i v :=
    strip_eq (fun c hc => by
      have : c = '(' := by simpa [termText] using hc.symm
      subst this; decide) (last_term hid i v)
  have hne : termText pr p i v ≠ [] := by simp [termText]
  have hm : matchTerm (termText pr p i v) = some (printVal pr v, if i = 0 then none else some (p, if i = 1 then none else some (toString i).toList)) := by
    unfold termText
    rw [matchTerm]
    exact matchBody_eq (bal_val hp v hv).nl (fun h => (tame_monomial hid i _ h).2.1 rfl) (matchTail_print hid i)
  unfold step
  dsimp only
  rw [hs, if_neg hne, hm]
  dsimp only
  rw [hc]
  by_cases h0 : i = 0
  · subst h0; rfl
  · by_cases h1 : i = 1
    · subst h1; rfl
    · simp only [if_neg h0, if_neg h1, Option.bind_eq_bind, Option.bind_some, readInt_toString]

theorem step_order {p : Str} (hid : Identifier p) (i : ℤ) (coef : Str → Option (PVal R)) (st : List (PVal R × ℤ) × Option Str × Option ℤ) :
    step coef st ('O' :: '(' :: (printPower p i ++ [')'])) = some (st.1, some p, some i) := by
  set w := 'O' :: '(' :: (printPower p i ++ [')']) with hw
  have hlast : w.getLast? = some ')' := by
    rw [hw, show 'O' :: '(' :: (printPower p i ++ [')']) = ('O' :: '(' :: printPower p i) ++ [')'] from rfl, List.getLast?_concat]
  have hs : strip w = w := strip_eq (fun c hc => by
      have : c = 'O' := by simpa [hw] using hc.symm
      subst this; decide) (fun c hc => by
      rw [hlast] at hc
      have : c = ')' := by simpa using hc.symm
      subst this; decide)
  have hne : w ≠ [] := by simp [hw]
  have h1 : matchTerm w = none := by rw [hw, matchTerm]; simp
  have h2 : matchOrder w = some (p, if i = 1 then none else some (toString i).toList) := by
    rw [hw, matchOrder, if_pos (by simp), List.dropLast_concat, matchPower_print hid]
  unfold step
  dsimp only
  rw [hs, if_neg hne, h1]
  dsimp only
  rw [h2]
  by_cases h1 : i = 1
  · subst h1; rfl
  · simp only [if_neg h1, Option.bind_eq_bind, Option.bind_some, readInt_toString]

theorem step_empty (coef : Str → Option (PVal R)) (st : List (PVal R × ℤ) × Option Str × Option ℤ) : step coef st [] = some st := rfl

/-- the variable after the terms -/
def varAfter (p : Str) : ℤ → List (CVal R) → Option Str → Option Str
  | _, [], v => v
  | i, _ :: vs, v => varAfter p (i + 1) vs (if i = 0 then v else some p)

theorem varAfter_some (p : Str) : ∀ (vs : List (CVal R)) (i : ℤ), varAfter p i vs (some p) = some p
  | [], _ => rfl
  | _ :: vs, i => by rw [varAfter, ite_self]; exact varAfter_some p vs (i + 1)

theorem varAfter_none (p : Str) : ∀ (vs : List (CVal R)) (i : ℤ), vs ≠ [] →
    varAfter p i vs none = if i = 0 ∧ vs.length ≤ 1 then none else some p := by
  intro vs i hne
  rcases vs with _ | ⟨v, vs⟩
  · exact absurd rfl hne
  · rw [varAfter]
    by_cases hi : i = 0
    · rw [if_pos hi]
      rcases vs with _ | ⟨v', vs⟩
      · rw [varAfter, if_pos ⟨hi, by simp⟩]
      · rw [varAfter, if_neg (by omega), varAfter_some, if_neg (by simp)]
    · rw [if_neg hi, varAfter_some, if_neg (fun h => hi h.1)]

theorem fold_parts {pr : R → Str} {rd : Str → Option R} (hp : Printing pr rd) {p : Str} (hid : Identifier p) {coef : Str → Option (PVal R)} :
    ∀ (vs : List (CVal R)) (i : ℤ) (st : List (PVal R × ℤ) × Option Str × Option ℤ), WFs vs →
      (∀ v ∈ vs, coef (printVal pr v) = some (toPy v)) →
      (parts pr p i vs).foldlM (step coef) st = some ((toPys i vs).reverse ++ st.1, varAfter p i vs st.2.1, st.2.2)
  | [], i, st, _, _ => by simp [parts, toPys, varAfter]
  | v :: vs, i, st, h, hc => by
    rw [WFs] at h
    rw [parts, List.foldlM_cons, step_term hp hid i h.1 (hc v (by simp))]
    simp only [Option.bind_eq_bind, Option.bind_some]
    rw [fold_parts hp hid vs (i + 1) _ h.2 fun v hv => hc v (by simp [hv])]
    simp [toPys, varAfter]

theorem parseSeries_print {pr : R → Str} {rd : Str → Option R} (hp : Printing pr rd) {coef : Str → Option (PVal R)} (omin : ℤ)
    (content : List (CVal R)) (trunc : Bool) (p : Str) (h : WF (.ser omin content trunc p))
    (hc : ∀ v ∈ content, coef (printVal pr v) = some (toPy v)) :
    parseSeriesWith coef (printVal pr (.ser omin content trunc p)) = some (toPy (.ser omin content trunc p)) := by
  rw [WF] at h
  unfold parseSeriesWith
  rw [printVal, iter_terms hp p h.2.1 trunc _ content omin [] h.2.2 rfl, List.reverse_nil, List.foldlM_cons, step_empty]
  simp only [Option.bind_eq_bind, Option.bind_some]
  rw [List.foldlM_append, fold_parts hp h.2.1 content omin _ h.2.2 hc]
  simp only [Option.bind_eq_bind, Option.bind_some]
  cases trunc with
  | false =>
    rw [orderParts, if_neg (by simp), toPy, varAfter_none p content omin h.1]
    simp
  | true =>
    rw [orderParts, if_pos rfl, toPy]
    simp [step_order h.2.1]

/-! ### coefficients -/

theorem splitPM_none : ∀ (w seg : Str), '/' ∉ w → splitPM seg w = [seg.reverse ++ w]
  | [], seg, _ => by simp [splitPM]
  | c :: w, seg, h => by
    have hw : '/' ∉ w := fun hw => h (by simp [hw])
    rw [splitPM]
    · rw [splitPM_none w (c :: seg) hw]; simp
    · intro r _ hr; subst hr; simp at hw

theorem splitPM_append : ∀ (w seg rest : Str), '/' ∉ w → rest.head? ≠ some '/' → splitPM seg (w ++ rest) = splitPM (w.reverse ++ seg) rest
  | [], seg, rest, _, _ => rfl
  | c :: w, seg, rest, h, hr => by
    have hw : '/' ∉ w := fun hw => h (by simp [hw])
    rw [List.cons_append, splitPM]
    · rw [splitPM_append w (c :: seg) rest hw hr]; simp
    · intro r _ he
      rcases w with _ | ⟨d, w⟩
      · rw [List.nil_append] at he; rw [he] at hr; simp at hr
      · simp only [List.cons_append, List.cons.injEq] at he
        apply hw; rw [he.1]; simp

theorem splitComma_eq : ∀ (a seg b : Str), ',' ∉ a → ',' ∉ b → splitComma seg (a ++ ',' :: b) = [seg.reverse ++ a, b]
  | [], seg, b, _, hb => by
    have key : ∀ (b seg : Str), ',' ∉ b → splitComma seg b = [seg.reverse ++ b] := by
      intro b
      induction b with
      | nil => intro seg _; simp [splitComma]
      | cons c b ih =>
        intro seg hb
        have h1 : c ≠ ',' := by rintro rfl; simp at hb
        rw [splitComma, if_neg h1, ih _ (fun h => hb (by simp [h]))]; simp
    rw [List.nil_append, splitComma, if_pos rfl, key b [] hb]; simp
  | c :: a, seg, b, ha, hb => by
    have h1 : c ≠ ',' := by rintro rfl; simp at ha
    rw [List.cons_append, splitComma, if_neg h1, splitComma_eq a _ b (fun h => ha (by simp [h])) hb]; simp

theorem not_prefix {c : Char} {s : Str} (h : c ≠ ' ') : (" + ".toList).isPrefixOf (c :: s) = false := by
  show (' ' :: ['+', ' ']).isPrefixOf (c :: s) = false
  rw [List.isPrefixOf_cons_cons]
  have : (' ' == c) = false := by simp [Ne.symm h]
  rw [this]; rfl

theorem parse_num {pr : R → Str} {rd : Str → Option R} (hp : Printing pr rd) (x : CNum R) (fuel : ℕ) :
    parseCoef rd (fuel + 1) (printNum pr x) = some (numPy x) := by
  obtain ⟨c, s, hcs, hw, hc⟩ := printNum_head hp x
  have h1 : (" + ".toList).isPrefixOf (printNum pr x) = false := by rw [hcs]; exact not_prefix hc
  have h2 : splitPM [] (printNum pr x) = [printNum pr x] := by
    rw [splitPM_none]; · rfl
    · intro h; exact (printNum_ws hp x _ h).2.2.1 rfl
  rw [parseCoef, if_neg (by rw [h1]; simp), h2]
  dsimp only
  cases x with
  | real r =>
    have hno : ¬ ("(".toList.isPrefixOf (printNum pr (.real r)) = true ∧ (printNum pr (.real r)).getLast? = some ')' ∧ ',' ∈ printNum pr (.real r)) := by
      rintro ⟨_, _, h⟩
      exact (tame_pr hp r _ h).2.2.2.2.2.2.1 rfl
    rw [if_neg hno]
    show (rd (pr r)).map PVal.float = _
    rw [hp.read]; rfl
  | cplx a b =>
    have hyes : "(".toList.isPrefixOf (printNum pr (.cplx a b)) = true ∧ (printNum pr (.cplx a b)).getLast? = some ')' ∧ ',' ∈ printNum pr (.cplx a b) := by
      refine ⟨rfl, ?_, by simp [printNum]⟩
      have : printNum pr (.cplx a b) = ('(' :: (pr a ++ ',' :: pr b)) ++ [')'] := by simp [printNum]
      rw [this, List.getLast?_concat]
    rw [if_pos hyes]
    have ht : (printNum pr (.cplx a b)).tail.dropLast = pr a ++ ',' :: pr b := by
      have : (printNum pr (.cplx a b)).tail = (pr a ++ ',' :: pr b) ++ [')'] := by simp [printNum]
      rw [this, List.dropLast_concat]
    rw [ht, splitComma_eq (pr a) [] (pr b) (fun h => (tame_pr hp a _ h).2.2.2.2.2.2.1 rfl) (fun h => (tame_pr hp b _ h).2.2.2.2.2.2.1 rfl)]
    simp [hp.read, numPy]

theorem strip_trail {s : Str} (hne : s ≠ []) (h : ∀ c ∈ s, c.isWhitespace = false) : strip (s ++ [' ']) = s ∧ strip (' ' :: s) = s := by
  have hs : strip s = s := strip_eq (fun c hc => h c (List.mem_of_head? hc)) (fun c hc => h c (List.mem_of_getLast? hc))
  constructor
  · obtain ⟨c, s', rfl⟩ : ∃ c s', s = c :: s' := List.exists_cons_of_ne_nil hne
    have hc := h c (by simp)
    have hd : ((c :: s') ++ [' ']).dropWhile Char.isWhitespace = (c :: s') ++ [' '] := by
      rw [List.cons_append, List.dropWhile_cons, hc]; simp
    have hd2 : (c :: s').dropWhile Char.isWhitespace = c :: s' := by rw [List.dropWhile_cons, hc]; simp
    unfold strip at hs ⊢
    rw [hd, List.reverse_append]
    rw [hd2] at hs
    rw [show [' '].reverse ++ (c :: s').reverse = ' ' :: (c :: s').reverse from rfl, List.dropWhile_cons, if_pos (by decide)]
    exact hs
  · unfold strip at hs ⊢
    rw [List.dropWhile_cons, if_pos (by decide)]
    exact hs

theorem parse_dev {pr : R → Str} {rd : Str → Option R} (hp : Printing pr rd) (m s : CNum R) (fuel : ℕ) :
    parseCoef rd (fuel + 2) (printVal pr (.dev m s)) = some (toPy (.dev m s)) := by
  obtain ⟨c, s', hcs, hw, hc⟩ := printNum_head hp m
  have htext : printVal pr (.dev m s) = printNum pr m ++ (' ' :: '+' :: '/' :: '-' :: ' ' :: printNum pr s) := by
    rw [printVal, List.append_assoc]; rfl
  have h1 : (" + ".toList).isPrefixOf (printVal pr (.dev m s)) = false := by rw [htext, hcs]; exact not_prefix hc
  have hno : ∀ x : CNum R, '/' ∉ printNum pr x := fun x h => (printNum_ws hp x _ h).2.2.1 rfl
  have h2 : splitPM [] (printVal pr (.dev m s)) = [printNum pr m ++ [' '], ' ' :: printNum pr s] := by
    rw [htext, splitPM_append _ _ _ (hno m) (by simp), List.append_nil, splitPM]
    · rw [splitPM, splitPM_none _ _ (by simp [hno s])]
      simp
    · simp
  have hne : ∀ x : CNum R, printNum pr x ≠ [] := fun x => by
    obtain ⟨c, s', h, _⟩ := printNum_head hp x
    rw [h]; simp
  have hws : ∀ x : CNum R, ∀ c ∈ printNum pr x, c.isWhitespace = false := fun x c hc => (printNum_ws hp x c hc).2.2.2
  rw [parseCoef, if_neg (by rw [h1]; simp), h2]
  dsimp only
  rw [(strip_trail (hne m) (hws m)).1, (strip_trail (hne s) (hws s)).2, parse_num hp, parse_num hp]
  rfl

mutual
theorem parse_val {pr : R → Str} {rd : Str → Option R} (hp : Printing pr rd) : ∀ v : CVal R, WF v →
    ∃ N, ∀ fuel, N ≤ fuel → parseCoef rd fuel (printVal pr v) = some (toPy v)
  | .num x, _ => ⟨1, fun fuel hf => by
      obtain ⟨k, rfl⟩ : ∃ k, fuel = k + 1 := ⟨fuel - 1, by omega⟩
      rw [printVal, toPy]; exact parse_num hp x k⟩
  | .dev m s, _ => ⟨2, fun fuel hf => by
      obtain ⟨k, rfl⟩ : ∃ k, fuel = k + 2 := ⟨fuel - 2, by omega⟩
      exact parse_dev hp m s k⟩
  | .ser omin content trunc p, h => by
    have h' := h
    rw [WF] at h'
    obtain ⟨N, hN⟩ := parse_vals hp content h'.2.2
    refine ⟨N + 1, fun fuel hf => ?_⟩
    obtain ⟨k, rfl⟩ : ∃ k, fuel = k + 1 := ⟨fuel - 1, by omega⟩
    have hpre : (" + ".toList).isPrefixOf (printVal pr (.ser omin content trunc p)) = true := by
      rcases content with _ | ⟨v, vs⟩
      · exact absurd rfl h'.1
      · rw [printVal, printTerms, List.append_assoc, List.append_assoc]; rfl
    rw [parseCoef, if_pos hpre]
    exact parseSeries_print hp omin content trunc p h fun v hv => hN v hv k (by omega)
theorem parse_vals {pr : R → Str} {rd : Str → Option R} (hp : Printing pr rd) : ∀ vs : List (CVal R), WFs vs →
    ∃ N, ∀ v ∈ vs, ∀ fuel, N ≤ fuel → parseCoef rd fuel (printVal pr v) = some (toPy v)
  | [], _ => ⟨0, by simp⟩
  | v :: vs, h => by
    rw [WFs] at h
    obtain ⟨N, hN⟩ := parse_val hp v h.1
    obtain ⟨M, hM⟩ := parse_vals hp vs h.2
    refine ⟨max N M, fun w hw fuel hf => ?_⟩
    rcases List.mem_cons.1 hw with rfl | hw
    · exact hN fuel (by omega)
    · exact hM w hw fuel (by omega)
end

end SeriesText
end SecDec
