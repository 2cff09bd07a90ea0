import Verif.Spec.DistText
import Verif.Proof.SeriesText
/-
Reading the text of a result of `disteval`.
-/
namespace SecDec
namespace SeriesText
variable {R : Type}

theorem splitChar_append (d : Char) : ∀ (w seg rest : Str), d ∉ w → splitChar d seg (w ++ rest) = splitChar d (w.reverse ++ seg) rest
  | [], seg, rest, _ => rfl
  | c :: w, seg, rest, h => by
    rw [List.mem_cons, not_or] at h
    rw [List.cons_append, splitChar, if_neg (fun hc => h.1 hc.symm), splitChar_append d w _ _ h.2]
    simp

theorem splitChar_none (d : Char) (w : Str) (h : d ∉ w) : splitChar d [] w = [w] := by
  have := splitChar_append d w [] [] h
  rw [List.append_nil] at this
  rw [this, splitChar]; simp

theorem splitChar_cons (d : Char) (w rest : Str) (h : d ∉ w) : splitChar d [] (w ++ d :: rest) = w :: splitChar d [] rest := by
  rw [splitChar_append d w [] _ h, splitChar, if_pos rfl]; simp

theorem splitChar_inter (d : Char) : ∀ (parts : List Str), parts ≠ [] → (∀ p ∈ parts, d ∉ p) →
    splitChar d [] (List.intercalate [d] parts) = parts
  | [], h, _ => absurd rfl h
  | [p], _, h => by
    simp only [List.intercalate_singleton]
    exact splitChar_none d p (h p (by simp))
  | p :: q :: ps, _, h => by
    rw [List.intercalate_cons_cons, List.append_assoc, List.singleton_append, splitChar_cons d p _ (h p (by simp)),
      splitChar_inter d (q :: ps) (by simp) (fun x hx => h x (List.mem_cons_of_mem _ hx))]

theorem splitLines_eq (lines : List Str) (w : Str) (hw : w ≠ []) (hn : '\n' ∉ w) (h : ∀ l ∈ lines, '\n' ∉ l) :
    splitLines (lines.flatMap (fun l => l ++ ['\n']) ++ w) = lines ++ [w] := by
  have key : ∀ lines : List Str, (∀ l ∈ lines, '\n' ∉ l) → splitChar '\n' [] (lines.flatMap (fun l => l ++ ['\n']) ++ w) = lines ++ [w] := by
    intro lines
    induction lines with
    | nil => intro _; exact splitChar_none _ w hn
    | cons l ls ih =>
      intro h
      rw [List.flatMap_cons, List.append_assoc, List.append_assoc, List.singleton_append, splitChar_cons _ l _ (h l (by simp)),
        ih (fun x hx => h x (List.mem_cons_of_mem _ hx))]
      rfl
  unfold splitLines
  dsimp only
  rw [key lines h, if_neg (by simp [hw])]

/-! ### Numbers -/

theorem getLast?_cons_append (a : Char) (m : Str) (d : Char) : (a :: (m ++ [d])).getLast? = some d :=
  (congrArg List.getLast? (List.cons_append (a := a) (as := m) (bs := [d])).symm).trans List.getLast?_concat

theorem okNumber_iff (s : Str) : okNumber s = true ↔ ∃ a m d, s = a :: (m ++ [d]) ∧ (a = '+' ∨ a = '-') ∧ d.isDigit = true := by
  constructor
  · intro h
    unfold okNumber at h
    rcases s with _ | ⟨a, s⟩
    · simp at h
    · rcases List.eq_nil_or_concat s with rfl | ⟨m, d, rfl⟩
      · simp at h
      · refine ⟨a, m, d, by simp, ?_, ?_⟩
        · simp only [List.concat_eq_append] at h
          rw [getLast?_cons_append a m d] at h
          simp only [List.head?_cons, Bool.and_eq_true, Bool.or_eq_true, beq_iff_eq] at h
          exact h.1.1
        · simp only [List.concat_eq_append] at h
          rw [getLast?_cons_append a m d] at h
          simp only [Bool.and_eq_true] at h; exact h.1.2
  · rintro ⟨a, m, d, rfl, ha, hd⟩
    unfold okNumber
    rw [getLast?_cons_append a m d]
    simp [ha, hd]

theorem find_unique {α : Type} {p : α → Bool} {l : List α} {x : α} (hx : x ∈ l) (hp : p x = true) (h : ∀ y ∈ l, p y = true → y = x) :
    l.find? p = some x := by
  rcases hf : l.find? p with _ | y
  · rw [List.find?_eq_none] at hf; exact absurd hp (hf x hx)
  · rw [h y (List.mem_of_find?_eq_some hf) (List.find?_some hf)]

variable {fin : R → Prop} {pr : R → Str} {rd : Str → Option R}

theorem SciPrinting.ok (hp : SciPrinting fin pr rd) {r : R} (h : fin r) : okNumber (pr r) = true := (okNumber_iff _).2 (hp.shape r h)

/-- no number begins inside of a finite number -/
theorem SciPrinting.noSplit (hp : SciPrinting fin pr rd) {r : R} (h : fin r) {x y : Str} (he : pr r = x ++ y) {c : Char} (hx : x.getLast? = some c)
    (hc : c.isDigit = true) (hy : okNumber y = true) : False := by
  obtain ⟨a, m, d, rfl, ha, _⟩ := (okNumber_iff y).1 hy
  rw [hp.inner r h x a _ he ha c hx] at hc
  cases hc

theorem ok_last {x : Str} (h : okNumber x = true) : ∃ c, x.getLast? = some c ∧ c.isDigit = true := by
  obtain ⟨a, m, d, rfl, _, hd⟩ := (okNumber_iff x).1 h
  exact ⟨d, getLast?_cons_append a m d, hd⟩

theorem getLast?_suffix {x y : Str} {c : Char} (hy : y ≠ []) (h : (x ++ y).getLast? = some c) : y.getLast? = some c := by
  rcases List.eq_nil_or_concat y with rfl | ⟨y, d, rfl⟩
  · exact absurd rfl hy
  · simp only [List.concat_eq_append] at h ⊢
    rw [← List.append_assoc] at h; simpa using h

theorem append_cases {a b x y : Str} (h : a ++ b = x ++ y) :
    (∃ z, z ≠ [] ∧ a = x ++ z ∧ y = z ++ b) ∨ (a = x ∧ b = y) ∨ (∃ z, z ≠ [] ∧ x = a ++ z ∧ b = z ++ y) := by
  rcases List.append_eq_append_iff.1 h with ⟨z, h1, h2⟩ | ⟨z, h1, h2⟩
  · rcases z with _ | ⟨c, z⟩
    · exact Or.inr (Or.inl ⟨by simpa using h1.symm, by simpa using h2⟩)
    · exact Or.inr (Or.inr ⟨c :: z, by simp, h1, h2⟩)
  · rcases z with _ | ⟨c, z⟩
    · exact Or.inr (Or.inl ⟨by simpa using h1, by simpa using h2.symm⟩)
    · exact Or.inl ⟨c :: z, by simp, h1, h2⟩

theorem matchNumbers_fin (hp : SciPrinting fin pr rd) {re im : R} (h1 : fin re) (h2 : fin im) :
    matchNumbers (pr re ++ pr im) = some (pr re, pr im) := by
  refine find_unique (List.mem_map.2 ⟨(pr re).length, by simp, by simp⟩) (by simp [hp.ok h1, hp.ok h2]) ?_
  intro xy hxy hok
  obtain ⟨i, _, rfl⟩ := List.mem_map.1 hxy
  simp only [Bool.and_eq_true] at hok
  have he : pr re ++ pr im = List.take i (pr re ++ pr im) ++ List.drop i (pr re ++ pr im) := (List.take_append_drop i _).symm
  generalize List.take i (pr re ++ pr im) = x at *
  generalize List.drop i (pr re ++ pr im) = y at *
  obtain ⟨c, hc, hd⟩ := ok_last hok.1
  rcases append_cases he with ⟨z, hz, ha, hy⟩ | ⟨ha, hb⟩ | ⟨z, hz, hx, hb⟩
  · obtain ⟨s, m, d, hyy, hs, _⟩ := (okNumber_iff y).1 hok.2
    rcases z with _ | ⟨s', z⟩
    · exact absurd rfl hz
    · rw [hyy] at hy
      simp only [List.cons_append, List.cons.injEq] at hy
      obtain ⟨rfl, _⟩ := hy
      rw [hp.inner re h1 x s _ ha hs c hc] at hd
      cases hd
  · rw [ha, hb]
  · rw [hx] at hc
    exact (hp.noSplit h2 hb (getLast?_suffix hz hc) hd hok.2).elim

theorem notFin_cases (hp : SciPrinting fin pr rd) {r : R} (h : ¬ fin r) : (∀ c ∈ pr r, c.isDigit = false) ∧ pr r ≠ [] ∧
    (∀ c ∈ pr r, c.isAlphanum = true ∨ c = '+' ∨ c = '-' ∨ c = '.') := by
  have := hp.notFin r h
  simp only [List.mem_cons, List.not_mem_nil, or_false] at this
  rcases this with h | h | h | h <;> rw [h] <;> decide

theorem matchNumbers_notFin (hp : SciPrinting fin pr rd) {re im : R} (h : ¬ (fin re ∧ fin im)) : matchNumbers (pr re ++ pr im) = none := by
  unfold matchNumbers
  rw [List.find?_eq_none]
  intro xy hxy hok
  obtain ⟨i, _, rfl⟩ := List.mem_map.1 hxy
  simp only [Bool.and_eq_true] at hok
  have he : pr re ++ pr im = List.take i (pr re ++ pr im) ++ List.drop i (pr re ++ pr im) := (List.take_append_drop i _).symm
  generalize List.take i (pr re ++ pr im) = x at *
  generalize List.drop i (pr re ++ pr im) = y at *
  obtain ⟨c, hc, hd⟩ := ok_last hok.1
  obtain ⟨c', hc', hd'⟩ := ok_last hok.2
  by_cases him : fin im
  · have hre : ¬ fin re := fun hre => h ⟨hre, him⟩
    have hno := (notFin_cases hp hre).1
    have : ∀ z, pr re = x ++ z → False := by
      intro z hz
      have : c ∈ pr re := by rw [hz]; exact List.mem_append_left _ (List.mem_of_getLast? hc)
      rw [hno c this] at hd; cases hd
    rcases append_cases he with ⟨z, hz, ha, hy⟩ | ⟨ha, hb⟩ | ⟨z, hz, hx, hb⟩
    · exact this z ha
    · exact this [] (by simpa using ha)
    · rw [hx] at hc
      exact hp.noSplit him hb (getLast?_suffix hz hc) hd hok.2
  · have hno := notFin_cases hp him
    have hl : (pr re ++ pr im).getLast? = some c' := by
      rw [he, List.getLast?_append, hc']; rfl
    have := List.mem_of_getLast? (getLast?_suffix hno.2.1 hl)
    rw [hno.1 c' this] at hd'; cases hd'

/-! ### Lines -/

theorem chars_pr (hp : SciPrinting fin pr rd) (r : R) : ∀ c ∈ pr r, c.isAlphanum = true ∨ c = '+' ∨ c = '-' ∨ c = '.' := by
  by_cases h : fin r
  · exact hp.chars r h
  · exact (notFin_cases hp h).2.2

/-- a factor of the stem -/
def factor (r : Str) (p : ℤ) : Str := r ++ '^' :: (toString p).toList

/-- a character of a factor -/
abbrev FChar (c : Char) : Prop := c ≠ '(' ∧ c ≠ '*' ∧ c ≠ '\n'

theorem factor_chars {r : Str} (hr : Identifier r) (p : ℤ) : ∀ c ∈ factor r p, FChar c := by
  intro c hc
  unfold factor at hc
  simp only [List.mem_append, List.mem_cons] at hc
  rcases hc with hc | rfl | hc
  · rcases hr.2 c hc with h | rfl
    · exact ⟨alnum_ne h rfl, alnum_ne h rfl, alnum_ne h rfl⟩
    · decide
  · decide
  · have := List.all_eq_true.1 (int_signDigit p) c hc
    simp only [isSignDigit, Bool.or_eq_true, beq_iff_eq] at this
    rcases this with (h | rfl) | rfl
    · have h : c.isAlphanum = true := by simp [Char.isAlphanum, h]
      exact ⟨alnum_ne h rfl, alnum_ne h rfl, alnum_ne h rfl⟩
    · decide
    · decide

theorem stem_eq (regs : List Str) (ps : List ℤ) : stem regs ps = List.intercalate ['*'] (List.zipWith factor regs ps) := rfl

theorem stem_chars {regs : List Str} (hr : ∀ r ∈ regs, Identifier r) (ps : List ℤ) : ∀ c ∈ stem regs ps, c ≠ '(' ∧ c ≠ '\n' := by
  have : ∀ l : List Str, (∀ w ∈ l, ∀ c ∈ w, FChar c) → ∀ c ∈ List.intercalate ['*'] l, c ≠ '(' ∧ c ≠ '\n' := by
    intro l
    induction l with
    | nil => intro _ c hc; simp at hc
    | cons w l ih =>
      intro h c hc
      rcases l with _ | ⟨w', l⟩
      · rw [List.intercalate_singleton] at hc
        have := h w (by simp) c hc
        exact ⟨this.1, this.2.2⟩
      · rw [List.intercalate_cons_cons] at hc
        simp only [List.mem_append, List.mem_singleton] at hc
        rcases hc with (hc | rfl) | hc
        · have := h w (by simp) c hc
          exact ⟨this.1, this.2.2⟩
        · decide
        · exact ih (fun x hx => h x (List.mem_cons_of_mem _ hx)) c hc
  rw [stem_eq]
  refine this _ ?_
  intro w hw
  obtain ⟨i, hi, rfl⟩ := List.getElem_of_mem hw
  rw [List.getElem_zipWith]
  exact factor_chars (hr _ (List.getElem_mem _)) _

theorem split_stem {regs : List Str} (hr : ∀ r ∈ regs, Identifier r) (hne : regs ≠ []) (ps : List ℤ) (hl : ps.length = regs.length) :
    splitChar '*' [] (stem regs ps) = List.zipWith factor regs ps := by
  rw [stem_eq]
  refine splitChar_inter '*' _ ?_ ?_
  · intro h
    have := congrArg List.length h
    simp [List.length_zipWith, hl] at this
    exact hne this
  · intro w hw
    obtain ⟨i, hi, rfl⟩ := List.getElem_of_mem hw
    rw [List.getElem_zipWith]
    intro hc
    exact (factor_chars (hr _ (List.getElem_mem _)) _ _ hc).2.1 rfl

theorem varOf_factor {r : Str} (hr : Identifier r) (p : ℤ) : varOf (factor r p) = r ∧ powerOf (factor r p) = some p := by
  have h1 : '^' ∉ r := by
    intro h
    rcases hr.2 _ h with h | h
    · exact absurd h (by decide)
    · exact absurd h (by decide)
  have h2 : '^' ∉ (toString p).toList := fun h => (tame_int p _ h).2.2.2.2.1 rfl
  unfold varOf powerOf factor
  rw [splitChar_cons _ r _ h1, splitChar_none _ _ h2]
  exact ⟨rfl, readInt_toString p⟩

theorem map_varOf : ∀ {regs : List Str} (_ : ∀ r ∈ regs, Identifier r) (ps : List ℤ) (_ : ps.length = regs.length),
    (List.zipWith factor regs ps).map varOf = regs ∧ (List.zipWith factor regs ps).mapM powerOf = some ps
  | [], _, [], _ => ⟨rfl, rfl⟩
  | [], _, _ :: _, h => by simp at h
  | _ :: _, _, [], h => by simp at h
  | r :: regs, hr, p :: ps, hl => by
    have ih := map_varOf (regs := regs) (fun x hx => hr x (List.mem_cons_of_mem _ hx)) ps (by simpa using hl)
    have h1 := varOf_factor (hr r (by simp)) p
    constructor
    · rw [List.zipWith_cons_cons, List.map_cons, h1.1, ih.1]
    · rw [List.zipWith_cons_cons, List.mapM_cons, h1.2, ih.2]; rfl

theorem strip_sp (s : Str) : strip (' ' :: s) = strip s := by
  unfold strip; rw [List.dropWhile_cons_of_pos (by decide)]

theorem strip_pad (s : Str) (h1 : ∀ c, s.head? = some c → c.isWhitespace = false) (h2 : ∀ c, s.getLast? = some c → c.isWhitespace = false) :
    strip (' ' :: ' ' :: ' ' :: ' ' :: s) = s ∧ strip (' ' :: ' ' :: s) = s := by
  have h := strip_eq h1 h2
  constructor
  · rw [strip_sp, strip_sp, strip_sp, strip_sp, h]
  · rw [strip_sp, strip_sp, h]

theorem take_suffix (a b : Str) (n : ℕ) (h : b.length = n) : (a ++ b).take ((a ++ b).length - n) = a := by
  rw [List.length_append, h, Nat.add_sub_cancel]; simp

/-- a line of a term after `strip` -/
theorem matchLine_eq {st inner : Str} (hs : ∀ c ∈ st, c ≠ '(') (pm : Bool) :
    matchLine ('+' :: (st ++ "*(".toList ++ inner ++ (if pm then "j)*plusminus".toList else "j)".toList))) =
      (matchNumbers inner).map (fun ab => (st, ab.1, ab.2, pm)) := by
  have h1 : (st ++ "*(".toList ++ inner ++ (if pm then "j)*plusminus".toList else "j)".toList)) =
      (st ++ ['*']) ++ '(' :: (inner ++ (if pm then "j)*plusminus".toList else "j)".toList)) := by
    simp only [List.append_assoc]; rfl
  have hs' : ∀ c ∈ st ++ ['*'], (c != '(') = true := by
    intro c hc
    rcases List.mem_append.1 hc with hc | hc
    · simpa using hs c hc
    · rw [List.mem_singleton.1 hc]; decide
  rw [h1, matchLine]
  rw [List.takeWhile_append_of_pos hs', List.dropWhile_append_of_pos hs',
    List.takeWhile_cons_of_neg (by decide), List.dropWhile_cons_of_neg (by decide), List.append_nil]
  dsimp only
  rw [if_pos (by simp)]
  simp only [List.dropLast_concat]
  cases pm with
  | true =>
    simp only [if_true]
    rw [if_pos (by rw [List.isSuffixOf_iff_suffix]; exact List.suffix_append _ _), take_suffix _ _ 12 rfl]
  | false =>
    simp only [Bool.false_eq_true, if_false]
    rw [if_neg, if_pos (by rw [List.isSuffixOf_iff_suffix]; exact List.suffix_append _ _), take_suffix _ _ 2 rfl]
    rw [List.isSuffixOf_iff_suffix]
    rintro ⟨t, ht⟩
    have := congrArg List.getLast? ht
    simp at this

/-- the number which is read -/
def pyNum (isZero : R → Bool) (re im : R) : PVal R := if isZero im then .float re else .complex re im

/-- the line of a value or an error -/
def numLine (pr : R → Str) (regs : List Str) (ps : List ℤ) (re im : R) (pm : Bool) : Str :=
  "    +".toList ++ stem regs ps ++ "*(".toList ++ pr re ++ pr im ++ (if pm then "j)*plusminus".toList else "j)".toList)

theorem strip_numLine (pr : R → Str) (regs : List Str) (ps : List ℤ) (re im : R) (pm : Bool) :
    strip (numLine pr regs ps re im pm) = '+' :: (stem regs ps ++ "*(".toList ++ (pr re ++ pr im) ++ (if pm then "j)*plusminus".toList else "j)".toList)) := by
  have : numLine pr regs ps re im pm = ' ' :: ' ' :: ' ' :: ' ' ::
      ('+' :: (stem regs ps ++ "*(".toList ++ (pr re ++ pr im) ++ (if pm then "j)*plusminus".toList else "j)".toList))) := by
    unfold numLine; simp only [List.append_assoc]; rfl
  rw [this]
  refine (strip_pad _ ?_ ?_).1
  · intro c hc
    simp only [List.head?_cons, Option.some.injEq] at hc
    subst hc; decide
  · intro c hc
    rw [← List.cons_append, List.getLast?_append] at hc
    cases pm with
    | true => simp at hc; subst hc; decide
    | false => simp at hc; subst hc; decide

theorem readLine_num (hp : SciPrinting fin pr rd) (isZero : R → Bool) {regs : List Str} (hr : ∀ r ∈ regs, Identifier r) (hne : regs ≠ [])
    {ps : List ℤ} (hl : ps.length = regs.length) (re im : R) (pm : Bool) (st : DState R) (hv : st.vars = none ∨ st.vars = some regs) :
    (fin re ∧ fin im → readLine rd isZero st (numLine pr regs ps re im pm) = some ⟨st.result, putCoef ps pm (pyNum isZero re im) st.coeffs, some regs⟩) ∧
    (¬ (fin re ∧ fin im) → readLine rd isZero st (numLine pr regs ps re im pm) = some st) := by
  constructor
  · intro hf
    unfold readLine
    dsimp only
    rw [strip_numLine, matchLine_eq (fun c hc => (stem_chars hr ps c hc).1), matchNumbers_fin hp hf.1 hf.2]
    simp only [Option.map_some]
    rw [split_stem hr hne ps hl, (map_varOf hr ps hl).1, (map_varOf hr ps hl).2, hp.read re hf.1, hp.read im hf.2]
    rcases hv with hv | hv <;> rw [hv] <;> rfl
  · intro hf
    unfold readLine
    dsimp only
    rw [strip_numLine, matchLine_eq (fun c hc => (stem_chars hr ps c hc).1), matchNumbers_notFin hp hf]
    simp only [Option.map_none]
    rw [if_neg]
    intro h
    exact absurd (List.cons.inj h).1 (by decide)

theorem readLine_other (rd : Str → Option R) (isZero : R → Bool) (st : DState R) :
    readLine rd isZero st "[".toList = some st ∧ readLine rd isZero st "]".toList = some st ∧ readLine rd isZero st "  (".toList = some st ∧
    readLine rd isZero st "    0".toList = some st ∧ readLine rd isZero st "  )".toList = some st ∧
    readLine rd isZero st "  ),".toList = some ⟨st.result ++ [st.coeffs], [], st.vars⟩ := by
  refine ⟨?_, ?_, ?_, ?_, ?_, ?_⟩ <;> rfl

/-! ### Sums -/

theorem termLines_eq (pr : R → Str) (regs : List Str) (t : DTerm R) :
    termLines pr regs t = [numLine pr regs t.powers t.valRe t.valIm false, numLine pr regs t.powers t.errRe t.errIm true] := rfl

/-- the entry of a term -/
def entryOf (isZero : R → Bool) (t : DTerm R) : Entry R := (t.powers, some (pyNum isZero t.valRe t.valIm), some (pyNum isZero t.errRe t.errIm))

theorem putCoef_new (ps : List ℤ) (v : PVal R) (l : List (Entry R)) (h : ps ∉ l.map Prod.fst) :
    putCoef ps false v l = l ++ [(ps, some v, none)] := by
  induction l with
  | nil => rfl
  | cons e l ih =>
    simp only [List.map_cons, List.mem_cons, not_or] at h
    rw [putCoef, if_neg (fun he => h.1 he.symm), ih h.2]; rfl

theorem putCoef_old (ps : List ℤ) (v : PVal R) (w : Option (PVal R)) (l : List (Entry R)) (h : ps ∉ l.map Prod.fst) :
    putCoef ps true v (l ++ [(ps, w, none)]) = l ++ [(ps, w, some v)] := by
  induction l with
  | nil => simp [putCoef]
  | cons e l ih =>
    simp only [List.map_cons, List.mem_cons, not_or] at h
    rw [List.cons_append, putCoef, if_neg (fun he => h.1 he.symm), ih h.2]; rfl

theorem read_terms (hp : SciPrinting fin pr rd) (isZero : R → Bool) {regs : List Str} (hr : ∀ r ∈ regs, Identifier r) (hne : regs ≠ []) :
    ∀ (ts : List (DTerm R)) (st : DState R), (∀ t ∈ ts, t.Fin fin) → (∀ t ∈ ts, t.powers.length = regs.length) →
      (st.coeffs.map Prod.fst ++ ts.map DTerm.powers).Nodup → st.vars = none ∨ st.vars = some regs →
      (ts.flatMap (termLines pr regs)).foldlM (readLine rd isZero) st =
        some ⟨st.result, st.coeffs ++ ts.map (entryOf isZero), if ts = [] then st.vars else some regs⟩
  | [], st, _, _, _, _ => by simp
  | t :: ts, st, hf, hl, hn, hv => by
    have hnew : t.powers ∉ st.coeffs.map Prod.fst := by
      intro h
      rw [List.map_cons, List.nodup_append] at hn
      exact hn.2.2 _ h _ (by simp) rfl
    have hft := hf t (by simp)
    have e1 := (readLine_num hp isZero hr hne (hl t (by simp)) t.valRe t.valIm false st hv).1 ⟨hft.1, hft.2.1⟩
    have e2 := (readLine_num hp isZero hr hne (hl t (by simp)) t.errRe t.errIm true
      ⟨st.result, putCoef t.powers false (pyNum isZero t.valRe t.valIm) st.coeffs, some regs⟩ (Or.inr rfl)).1 ⟨hft.2.2.1, hft.2.2.2⟩
    rw [List.flatMap_cons, termLines_eq, List.cons_append, List.cons_append, List.nil_append, List.foldlM_cons, e1]
    show (List.foldlM (readLine rd isZero) _ (_ :: _)) = _
    rw [List.foldlM_cons, e2]
    show (List.foldlM (readLine rd isZero) _ _) = _
    dsimp only
    rw [putCoef_new _ _ _ hnew, putCoef_old _ _ _ _ hnew]
    rw [read_terms hp isZero hr hne ts _ (fun x hx => hf x (List.mem_cons_of_mem _ hx)) (fun x hx => hl x (List.mem_cons_of_mem _ hx))
      (by simpa using hn) (Or.inr rfl)]
    simp [entryOf]

theorem read_sum (hp : SciPrinting fin pr rd) (isZero : R → Bool) {regs : List Str} (hr : ∀ r ∈ regs, Identifier r) (hne : regs ≠ [])
    (last : Bool) (ts : List (DTerm R)) (hts : ts ≠ []) (hf : ∀ t ∈ ts, t.Fin fin) (hl : ∀ t ∈ ts, t.powers.length = regs.length)
    (hn : (ts.map DTerm.powers).Nodup) (res : List (List (Entry R))) (vars : Option (List Str)) (hv : vars = none ∨ vars = some regs) :
    (sumLines pr regs last ts).foldlM (readLine rd isZero) ⟨res, [], vars⟩ =
      some (if last then ⟨res, ts.map (entryOf isZero), some regs⟩ else ⟨res ++ [ts.map (entryOf isZero)], [], some regs⟩) := by
  unfold sumLines
  rw [if_pos (List.length_pos_iff.2 hts), List.append_nil, List.foldlM_append, List.foldlM_append, List.foldlM_cons,
    (readLine_other rd isZero _).2.2.1]
  show ((ts.flatMap (termLines pr regs)).foldlM (readLine rd isZero) ⟨res, [], vars⟩ >>= _) = _
  rw [read_terms hp isZero hr hne ts ⟨res, [], vars⟩ hf hl (by simpa using hn) hv]
  show List.foldlM (readLine rd isZero) _ _ = _
  rw [List.foldlM_cons, if_neg hts]
  cases last with
  | true => simp only [if_true]; rw [(readLine_other rd isZero _).2.2.2.2.1]; rfl
  | false => simp only [Bool.false_eq_true, if_false]; rw [(readLine_other rd isZero _).2.2.2.2.2]; rfl

theorem read_sums (hp : SciPrinting fin pr rd) (isZero : R → Bool) {regs : List Str} (hr : ∀ r ∈ regs, Identifier r) (hne : regs ≠ []) :
    ∀ (sums : List (List (DTerm R))) (res : List (List (Entry R))) (vars : Option (List Str)), sums ≠ [] → (∀ ts ∈ sums, ts ≠ []) →
      (∀ ts ∈ sums, ∀ t ∈ ts, t.Fin fin) → (∀ ts ∈ sums, ∀ t ∈ ts, t.powers.length = regs.length) →
      (∀ ts ∈ sums, (ts.map DTerm.powers).Nodup) → vars = none ∨ vars = some regs →
      ∃ st, (sumsLines pr regs sums).foldlM (readLine rd isZero) ⟨res, [], vars⟩ = some st ∧ st.vars = some regs ∧
        st.result ++ [st.coeffs] = res ++ sums.map (fun ts => ts.map (entryOf isZero))
  | [], _, _, h, _, _, _, _, _ => absurd rfl h
  | [ts], res, vars, _, h1, h2, h3, h4, hv => by
    rw [sumsLines, read_sum hp isZero hr hne true ts (h1 ts (by simp)) (h2 ts (by simp)) (h3 ts (by simp)) (h4 ts (by simp)) res vars hv]
    exact ⟨_, rfl, rfl, by simp⟩
  | ts :: ts' :: rest, res, vars, _, h1, h2, h3, h4, hv => by
    rw [sumsLines, List.foldlM_append,
      read_sum hp isZero hr hne false ts (h1 ts (by simp)) (h2 ts (by simp)) (h3 ts (by simp)) (h4 ts (by simp)) res vars hv]
    · obtain ⟨st, e1, e2, e3⟩ := read_sums hp isZero hr hne (ts' :: rest) (res ++ [ts.map (entryOf isZero)]) (some regs) (by simp)
        (fun x hx => h1 x (List.mem_cons_of_mem _ hx)) (fun x hx => h2 x (List.mem_cons_of_mem _ hx))
        (fun x hx => h3 x (List.mem_cons_of_mem _ hx)) (fun x hx => h4 x (List.mem_cons_of_mem _ hx)) (Or.inr rfl)
      exact ⟨st, e1, e2, by rw [e3]; simp⟩
    · simp

theorem lines_nl (hp : SciPrinting fin pr rd) {regs : List Str} (hr : ∀ r ∈ regs, Identifier r) :
    ∀ sums : List (List (DTerm R)), ∀ l ∈ sumsLines pr regs sums, '\n' ∉ l := by
  have hnum : ∀ ps re im pm, '\n' ∉ numLine pr regs ps re im pm := by
    intro ps re im pm h
    have hpr : ∀ r, '\n' ∉ pr r := by
      intro r h
      rcases chars_pr hp r _ h with h | h | h | h <;> exact absurd h (by decide)
    unfold numLine at h
    simp only [List.mem_append] at h
    rcases h with ((((h | h) | h) | h) | h) | h
    · exact absurd h (by decide)
    · exact (stem_chars hr ps _ h).2 rfl
    · exact absurd h (by decide)
    · exact hpr _ h
    · exact hpr _ h
    · cases pm <;> exact absurd h (by decide)
  have hsum : ∀ last ts, ∀ l ∈ sumLines pr regs last ts, '\n' ∉ l := by
    intro last ts l hl
    unfold sumLines at hl
    simp only [List.mem_append, List.mem_flatMap, List.mem_singleton] at hl
    rcases hl with ((rfl | ⟨t, _, hl⟩) | hl) | rfl
    · decide
    · rw [termLines_eq] at hl
      simp only [List.mem_cons, List.not_mem_nil, or_false] at hl
      rcases hl with rfl | rfl <;> exact hnum _ _ _ _
    · split at hl
      · simp at hl
      · rw [List.mem_singleton.1 hl]; decide
    · cases last <;> decide
  intro sums
  induction sums with
  | nil => intro l hl; simp [sumsLines] at hl
  | cons ts rest ih =>
    intro l hl
    rcases rest with _ | ⟨ts', rest⟩
    · exact hsum true ts l hl
    · rw [sumsLines, List.mem_append] at hl
      · exact hl.elim (hsum false ts l) (ih l)
      · simp

/-- What is read from the text of a result. -/
theorem read_result (hp : SciPrinting fin pr rd) (isZero : R → Bool) (res : DResult R) (h : res.WF) (hf : ∀ ts ∈ res.sums, ∀ t ∈ ts, t.Fin fin) :
    parseDist rd isZero (resultText pr res) = (res.sums.map (fun ts => ts.map (entryOf isZero))).mapM (nest res.regulators 0) := by
  unfold parseDist resultText
  rw [splitLines_eq _ _ (by decide) (by decide) (by
    intro l hl
    rcases List.mem_cons.1 hl with rfl | hl
    · decide
    · exact lines_nl hp h.ids _ l hl)]
  rw [List.cons_append, List.foldlM_cons, (readLine_other rd isZero _).1]
  obtain ⟨st, e1, e2, e3⟩ := read_sums hp isZero h.ids h.regs res.sums [] none h.sums h.terms hf h.len h.nodup (Or.inl rfl)
  have : List.foldlM (readLine rd isZero) ⟨[], [], none⟩ (sumsLines pr res.regulators res.sums ++ ["]".toList]) = some st := by
    rw [List.foldlM_append, e1]
    show List.foldlM (readLine rd isZero) st _ = _
    rw [List.foldlM_cons, (readLine_other rd isZero _).2.1]; rfl
  show (List.foldlM (readLine rd isZero) ⟨[], [], none⟩ (sumsLines pr res.regulators res.sums ++ ["]".toList]) >>= _) = _
  rw [this]
  show (st.vars >>= _) = _
  rw [e2]
  show (st.result ++ [st.coeffs]).mapM _ = _
  rw [e3, List.nil_append]

end SeriesText
end SecDec
