import Verif.Spec.Template
import Mathlib.Tactic.Linarith
/-
C34: name validation and template substitution.
-/
namespace SecDec
namespace Template

/-! ### names -/

theorem matchLater_iff (s : Str) : matchLater s = true ↔
    ∃ core, (∀ c ∈ core, laterClass c = true) ∧ (s = core ∨ s = core ++ ['\n']) := by
  induction s with
  | nil => exact ⟨fun _ => ⟨[], by simp⟩, fun _ => by simp [matchLater]⟩
  | cons c cs ih =>
    simp only [matchLater, Bool.or_eq_true, Bool.and_eq_true, ih]
    constructor
    · rintro (h | ⟨h1, core, h2, h3⟩)
      · simp [atEnd] at h
        exact ⟨[], by simp, Or.inr (by simp [h])⟩
      · refine ⟨c :: core, ?_, ?_⟩
        · intro d hd
          rcases List.mem_cons.1 hd with rfl | hd
          · exact h1
          · exact h2 d hd
        · rcases h3 with rfl | rfl <;> simp
    · rintro ⟨core, h1, h2⟩
      cases core with
      | nil =>
        left
        rcases h2 with h2 | h2
        · simp at h2
        · simp [atEnd]; simpa using h2
      | cons d core =>
        right
        have hd : c = d := by rcases h2 with h2 | h2 <;> · simp at h2; exact h2.1
        subst hd
        refine ⟨h1 c (by simp), core, fun x hx => h1 x (by simp [hx]), ?_⟩
        rcases h2 with h2 | h2
        · left; simpa using h2
        · right; simpa using h2

theorem firstClass_later {c : Char} (h : firstClass c = true) : laterClass c = true := by
  unfold firstClass at h
  unfold laterClass
  simp only [Bool.or_eq_true] at h ⊢
  tauto

theorem matchName_iff (s : Str) : matchName s = true ↔
    ∃ c cs, firstClass c = true ∧ (∀ d ∈ cs, laterClass d = true) ∧ (s = c :: cs ∨ s = c :: cs ++ ['\n']) := by
  induction s with
  | nil => simp [matchName]
  | cons a as ih =>
    simp only [matchName, Bool.and_eq_true, Bool.or_eq_true]
    constructor
    · rintro ⟨h1, h2 | h2⟩
      · obtain ⟨c, cs, h3, h4, h5⟩ := ih.1 h2
        refine ⟨a, c :: cs, h1, ?_, ?_⟩
        · intro d hd
          rcases List.mem_cons.1 hd with rfl | hd
          · exact firstClass_later h3
          · exact h4 d hd
        · rcases h5 with rfl | rfl <;> simp
      · obtain ⟨core, h3, h4⟩ := (matchLater_iff as).1 h2
        exact ⟨a, core, h1, h3, by rcases h4 with rfl | rfl <;> simp⟩
    · rintro ⟨c, cs, h1, h2, h3⟩
      have hc : a = c := by rcases h3 with h3 | h3 <;> · simp at h3; exact h3.1
      subst hc
      refine ⟨h1, Or.inr ((matchLater_iff as).2 ⟨cs, h2, ?_⟩)⟩
      rcases h3 with h3 | h3
      · left; simpa using h3
      · right; simpa using h3

theorem firstClass_iff (c : Char) : firstClass c = true ↔ IsLetter c ∨ c = ',' ∨ c = '_' := by
  unfold firstClass IsLetter
  simp only [Bool.or_eq_true, Bool.and_eq_true, decide_eq_true_eq, beq_iff_eq]
  tauto

theorem laterClass_iff (c : Char) : laterClass c = true ↔ IsLetter c ∨ IsDigit c ∨ c = ',' ∨ c = '_' := by
  unfold laterClass IsLetter IsDigit
  simp only [Bool.or_eq_true, Bool.and_eq_true, decide_eq_true_eq, beq_iff_eq]
  tauto

theorem banned_prefix_iff (s : Str) : banstarts.any (fun b => (lower b).isPrefixOf (lower s)) = true ↔
    ∃ b ∈ banstarts, BeginsWith s b := by
  simp only [List.any_eq_true, List.isPrefixOf_iff_prefix, BeginsWith, List.IsPrefix]
  constructor
  · rintro ⟨b, hb, t, ht⟩; exact ⟨b, hb, t, ht.symm⟩
  · rintro ⟨b, hb, t, ht⟩; exact ⟨b, hb, t, ht.symm⟩

theorem not_letter_underscore : ¬ IsLetter '_' := by unfold IsLetter; decide
theorem not_letter_comma : ¬ IsLetter ',' := by unfold IsLetter; decide
theorem not_digit_underscore : ¬ IsDigit '_' := by unfold IsDigit; decide
theorem not_digit_comma : ¬ IsDigit ',' := by unfold IsDigit; decide
theorem not_letter_newline : ¬ IsLetter '\n' := by unfold IsLetter; decide
theorem not_digit_newline : ¬ IsDigit '\n' := by unfold IsDigit; decide

/-- **C34.** A name without commas and newlines is accepted exactly if it is an identifier (without underscores if they
are not allowed), is no reserved word and does not begin with a reserved prefix, in whatever capitalisation. -/
theorem C34_validate (s : Str) (allowUnderscore : Bool) (h1 : ',' ∉ s) (h2 : '\n' ∉ s) :
    validate s allowUnderscore = true ↔
      Identifier allowUnderscore s ∧ s ∉ banwords ∧ ∀ b ∈ banstarts, ¬ BeginsWith s b := by
  have hpre := banned_prefix_iff s
  unfold validate
  constructor
  · intro h
    split at h
    · simp at h
    rename_i hm
    split at h
    · simp at h
    rename_i hu
    split at h
    · simp at h
    rename_i hb
    split at h
    · simp at h
    rename_i hp
    have hp' : ∀ b ∈ banstarts, ¬ BeginsWith s b := by
      intro b hb hbw
      exact hp (hpre.2 ⟨b, hb, hbw⟩)
    refine ⟨?_, hb, hp'⟩
    obtain ⟨c, cs, g1, g2, g3⟩ := (matchName_iff s).1 (by simpa using hm)
    have g3' : s = c :: cs := by
      rcases g3 with g3 | g3
      · exact g3
      · exact absurd (by rw [g3]; simp) h2
    subst g3'
    refine ⟨?_, fun d hd => ?_⟩
    · rcases (firstClass_iff c).1 g1 with g | rfl | rfl
      · exact g
      · exact absurd (by simp) h1
      · exact absurd ⟨lower cs, rfl⟩ (hp' ['_'] (by decide))
    · rcases (laterClass_iff d).1 (g2 d hd) with g | g | rfl | rfl
      · exact Or.inl g
      · exact Or.inr (Or.inl g)
      · exact absurd (by simp [hd]) h1
      · refine Or.inr (Or.inr ⟨?_, rfl⟩)
        by_contra hf
        exact hu ⟨by simpa using hf, by simp [hd]⟩
  · rintro ⟨hid, hb, hp⟩
    cases s with
    | nil => exact absurd hid (by simp [Identifier])
    | cons c cs =>
      obtain ⟨g1, g2⟩ := hid
      have hm : matchName (c :: cs) = true := by
        refine (matchName_iff _).2 ⟨c, cs, (firstClass_iff c).2 (Or.inl g1), fun d hd => (laterClass_iff d).2 ?_, Or.inl rfl⟩
        rcases g2 d hd with g | g | ⟨-, rfl⟩
        · exact Or.inl g
        · exact Or.inr (Or.inl g)
        · exact Or.inr (Or.inr (Or.inr rfl))
      rw [if_neg (by simp [hm]), if_neg, if_neg hb, if_neg]
      · intro hp'
        obtain ⟨b, hb', hbw⟩ := hpre.1 hp'
        exact hp b hb' hbw
      · rintro ⟨hau, hu⟩
        rcases List.mem_cons.1 hu with hu | hu
        · exact not_letter_underscore (hu ▸ g1)
        · rcases g2 _ hu with g | g | ⟨g, -⟩
          · exact not_letter_underscore g
          · exact not_digit_underscore g
          · simp [hau] at g

/-- **C34.** An accepted name, even with commas and newlines, is never one of the reserved words and never begins with the
internal prefix, so it differs from all names made by the code generator. -/
theorem C34_validate_internal (s t : Str) (allowUnderscore : Bool) (h : validate s allowUnderscore = true) :
    s ∉ banwords ∧ s ≠ "SecDecInternal".toList ++ t := by
  unfold validate at h
  split at h
  · simp at h
  split at h
  · simp at h
  split at h
  · simp at h
  rename_i hb
  split at h
  · simp at h
  rename_i hp
  refine ⟨hb, ?_⟩
  rintro rfl
  refine hp ((banned_prefix_iff _).2 ⟨"SecDecInternal".toList, by decide, lower t, ?_⟩)
  simp [lower]

/-- **C34, deviation.** The character classes contain the comma, and `$` matches before a final newline: such names are accepted
although they are no identifiers. -/
theorem C34_validate_accepts_comma :
    validate "a,b".toList false = true ∧ validate ",".toList false = true ∧ validate "x\n".toList false = true := by
  decide +kernel

example : validate "msq".toList false = true ∧ validate "bubble_1L".toList true = true ∧
    validate "bubble_1L".toList false = false ∧ validate "1x".toList true = false ∧ validate "secdecinternalX".toList true = false ∧
    validate "int".toList true = false := by
  decide +kernel

/-! ### transforms -/

theorem mem_dedup_aux (l acc : List Str) (x : Str) :
    x ∈ l.foldl (fun acc i => if i ∈ acc then acc else acc ++ [i]) acc ↔ x ∈ acc ∨ x ∈ l := by
  induction l generalizing acc with
  | nil => simp
  | cons a l ih =>
    simp only [List.foldl_cons, ih, List.mem_cons]
    by_cases h : a ∈ acc
    · rw [if_pos h]
      constructor
      · rintro (h | h) <;> tauto
      · rintro (h' | rfl | h') <;> tauto
    · rw [if_neg h]; simp; tauto

theorem dedup_nodup_aux (l acc : List Str) (h : acc.Nodup) :
    (l.foldl (fun acc i => if i ∈ acc then acc else acc ++ [i]) acc).Nodup := by
  induction l generalizing acc with
  | nil => simpa
  | cons a l ih =>
    simp only [List.foldl_cons]
    apply ih
    by_cases h' : a ∈ acc
    · rwa [if_pos h']
    · rw [if_neg h', List.nodup_append]
      refine ⟨h, by simp, ?_⟩
      intro b hb c hc
      rw [List.mem_singleton] at hc
      subst hc
      rintro rfl
      exact h' hb

/-- `korobov<i>` stands for `korobov<i>x<i>`, everything else for itself. -/
def StandsFor (x y : Str) : Prop :=
  (∃ i ∈ ['1','2','3','4','5','6'], x = "korobov".toList ++ [i] ∧ y = "korobov".toList ++ [i] ++ ['x'] ++ [i]) ∨
    ((∀ i ∈ ['1','2','3','4','5','6'], x ≠ "korobov".toList ++ [i]) ∧ y = x)

/-- The documented options. -/
def Documented (y : Str) : Prop :=
  y = "none".toList ∨ y = "baker".toList ∨
    (∃ i ∈ ['1','2','3','4','5','6'], ∃ j ∈ ['1','2','3','4','5','6'], y = "korobov".toList ++ [i] ++ ['x'] ++ [j]) ∨
    (∃ i ∈ ['1','2','3','4','5','6'], y = "sidi".toList ++ [i])

theorem digits16_eq : digits16 = ['1','2','3','4','5','6'].map (fun c => [c]) := by decide

theorem canonicalTransform_iff (x y : Str) : y = canonicalTransform x ↔ StandsFor x y := by
  unfold canonicalTransform StandsFor korobovSymmetric
  rw [digits16_eq]
  by_cases h : ∃ i ∈ ['1','2','3','4','5','6'], x = "korobov".toList ++ [i]
  · obtain ⟨i, hi, rfl⟩ := h
    rw [if_pos (by simp only [List.map_map, List.mem_map]; exact ⟨i, hi, rfl⟩)]
    constructor
    · rintro rfl
      exact Or.inl ⟨i, hi, rfl, rfl⟩
    · rintro (⟨j, hj, h1, rfl⟩ | ⟨h1, -⟩)
      · have : i = j := by simpa using h1
        subst this; rfl
      · exact absurd rfl (h1 i hi)
  · rw [if_neg]
    · constructor
      · rintro rfl
        refine Or.inr ⟨fun i hi h' => h ⟨i, hi, h'⟩, rfl⟩
      · rintro (⟨i, hi, h', -⟩ | ⟨-, h'⟩)
        · exact absurd ⟨i, hi, h'⟩ h
        · exact h'
    · intro h'
      simp only [List.map_map, List.mem_map] at h'
      obtain ⟨i, hi, h'⟩ := h'
      exact h ⟨i, hi, h'.symm⟩

theorem mem_qmcOptions (y : Str) : y ∈ qmcOptions ↔ Documented y := by
  unfold qmcOptions Documented
  rw [digits16_eq]
  simp only [List.mem_append, List.mem_singleton, List.mem_flatMap, List.mem_map, exists_exists_and_eq_and]
  constructor
  · rintro (((h | h) | ⟨i, hi, j, hj, h⟩) | ⟨i, hi, h⟩)
    · exact Or.inl h
    · exact Or.inr (Or.inl h)
    · exact Or.inr (Or.inr (Or.inl ⟨i, hi, j, hj, h.symm⟩))
    · exact Or.inr (Or.inr (Or.inr ⟨i, hi, h.symm⟩))
  · rintro (h | h | ⟨i, hi, j, hj, h⟩ | ⟨i, hi, h⟩)
    · exact Or.inl (Or.inl (Or.inl h))
    · exact Or.inl (Or.inl (Or.inr h))
    · exact Or.inl (Or.inr ⟨i, hi, j, hj, h.symm⟩)
    · exact Or.inr ⟨i, hi, h.symm⟩

/-- **C34.** `validate_pylink_qmc_transforms` fails exactly if one of the transforms is not a documented one; otherwise it
returns the transforms without duplicates; the default is `korobov3x3`. -/
theorem C34_transforms (l : List Str) :
    (validateTransforms l = none ↔ ∃ x ∈ l, ∃ y, StandsFor x y ∧ ¬ Documented y) ∧
    ∀ r, validateTransforms l = some r → r.Nodup ∧ (∀ y ∈ r, Documented y) ∧
      (l ≠ [] → ∀ y, y ∈ r ↔ ∃ x ∈ l, StandsFor x y) ∧ (l = [] → r = ["korobov3x3".toList]) := by
  by_cases hl : l = []
  · subst hl
    have hd : validateTransforms [] = some ["korobov3x3".toList] := by decide +kernel
    rw [hd]
    refine ⟨by simp, ?_⟩
    rintro r hr
    simp only [Option.some.injEq] at hr
    subst hr
    refine ⟨by simp, ?_, by simp, by simp⟩
    intro y hy
    rw [List.mem_singleton] at hy
    subst hy
    exact (mem_qmcOptions _).1 (by decide)
  · unfold validateTransforms
    simp only [ne_eq, hl, not_false_eq_true, if_true]
    have hmem : ∀ y, y ∈ dedup (l.map canonicalTransform) ↔ ∃ x ∈ l, StandsFor x y := by
      intro y
      unfold dedup
      rw [mem_dedup_aux]
      simp only [List.not_mem_nil, false_or, List.mem_map, ← canonicalTransform_iff, eq_comm]
    constructor
    · constructor
      · intro h
        split at h
        · simp at h
        · rename_i h'
          push Not at h'
          obtain ⟨y, hy, hy'⟩ := h'
          obtain ⟨x, hx, hxy⟩ := (hmem y).1 hy
          exact ⟨x, hx, y, hxy, fun hdoc => hy' ((mem_qmcOptions y).2 hdoc)⟩
      · rintro ⟨x, hx, y, hxy, hy⟩
        rw [if_neg]
        intro h
        exact hy ((mem_qmcOptions y).1 (h y ((hmem y).2 ⟨x, hx, hxy⟩)))
    · intro r h
      split at h
      · rename_i hall
        simp only [Option.some.injEq] at h
        subst h
        exact ⟨dedup_nodup_aux _ _ (by simp), fun y hy => (mem_qmcOptions y).1 (hall y hy), fun _ => hmem, fun h => absurd h (by simp)⟩
      · simp at h

example : validateTransforms ["korobov3".toList, "none".toList, "korobov3x3".toList] =
    some ["korobov3x3".toList, "none".toList] := by decide +kernel

/-! ### templates -/

/-- The chunks of a text add up to the text, for every positive size of the chunks. -/
theorem writeLarge_eq (n : Nat) (hn : 0 < n) (s : Str) : writeLarge n s = s := by
  unfold writeLarge
  have key : ∀ k, (List.range k).flatMap (fun chunk => (s.drop (chunk*n)).take ((chunk+1)*n - chunk*n)) = s.take (k*n) := by
    intro k
    induction k with
    | zero => simp
    | succ k ih =>
      rw [List.range_succ, List.flatMap_append, ih]
      simp only [List.flatMap_cons, List.flatMap_nil, List.append_nil]
      have : (k+1)*n - k*n = n := by rw [Nat.add_mul]; omega
      rw [this, Nat.add_mul, Nat.one_mul, List.take_add]
  rw [key, List.take_of_length_le]
  have := Nat.div_add_mod s.length n
  have := Nat.mod_lt s.length hn
  nlinarith

theorem written_eq (v : Value) : written v = v.render := by
  match v with
  | .text s => rw [written, Value.render, writeLarge_eq _ (by norm_num)]
  | .int z => rw [written, Value.render, writeLarge_eq _ (by norm_num)]
  | .list l =>
    rw [written, Value.render]
    congr 1
    exact List.map_congr_left fun v _ => written_eq v.1
termination_by sizeOf v
decreasing_by
  have := List.sizeOf_lt_of_mem v.2
  simp
  omega

theorem split_nil : split [] = ([], []) := by rw [split]

theorem split_match {s k r : Str} (h : matchAt s = some (k, r)) : split s = ([], (k, (split r).1) :: (split r).2) := by
  cases s with
  | nil => simp [matchAt] at h
  | cons c cs =>
    rw [split]
    split
    · rename_i k' r' h'
      rw [h] at h'
      simp only [Option.some.injEq, Prod.mk.injEq] at h'
      obtain ⟨rfl, rfl⟩ := h'
      rfl
    · rename_i h'
      rw [h] at h'
      simp at h'

theorem split_cons {c : Char} {cs : Str} (h : matchAt (c :: cs) = none) : split (c :: cs) = (c :: (split cs).1, (split cs).2) := by
  rw [split]
  split
  · rename_i k' r' h'
    rw [h] at h'
    simp at h'
  · rfl

theorem matchAt_ne {c : Char} {cs : Str} (h : c ≠ '%') : matchAt (c :: cs) = none := by
  unfold matchAt
  split
  · rename_i h'; simp at h'; exact absurd h'.1 h
  · rfl

theorem matchAt_ne2 {cs : Str} (h : cs.head? ≠ some '(') : matchAt ('%' :: cs) = none := by
  unfold matchAt
  split
  · rename_i h'; simp at h'; subst h'; simp at h
  · rfl

theorem takeDrop {k : Str} {r : Str} (h : ')' ∉ k) :
    (k ++ ')' :: r).takeWhile (fun c => c != ')') = k ∧ (k ++ ')' :: r).dropWhile (fun c => c != ')') = ')' :: r := by
  induction k with
  | nil => simp
  | cons a k ih =>
    have h1 : a ≠ ')' := fun h' => h (by simp [h'])
    have h2 := ih (fun h' => h (by simp [h']))
    simp [h1, h2]

theorem split_str {k r : Str} (h : ')' ∉ k) :
    split (['%', '('] ++ k ++ [')', 's'] ++ r) = ([], (k, (split r).1) :: (split r).2) := by
  apply split_match
  obtain ⟨h1, h2⟩ := takeDrop (k := k) (r := 's' :: r) h
  simp only [List.cons_append, List.nil_append, List.append_assoc]
  unfold matchAt
  simp only [h1, h2]

theorem split_plain (a : Str) (ha : '%' ∉ a) (r : Str) : split (a ++ r) = (a ++ (split r).1, (split r).2) := by
  induction a with
  | nil => simp
  | cons c a ih =>
    have hc : c ≠ '%' := fun h => ha (by simp [h])
    rw [List.cons_append, split_cons (matchAt_ne hc), ih (fun h => ha (by simp [h]))]
    simp

theorem matchAt_num {k r : Str} {c : Char} (h : ')' ∉ k) (hc : c ≠ 's') :
    matchAt ('%' :: '(' :: (k ++ ')' :: c :: r)) = none := by
  obtain ⟨h1, h2⟩ := takeDrop (k := k) (r := c :: r) h
  unfold matchAt
  simp only [h2]
  split
  · rename_i h'; simp at h'; exact absurd h'.1 hc
  · rfl

/-- a part of a string in which nothing is matched -/
theorem split_nomatch (a : Str) (r : Str) (h : ∀ b c, a = b ++ c → c ≠ [] → matchAt (c ++ r) = none) :
    split (a ++ r) = (a ++ (split r).1, (split r).2) := by
  induction a with
  | nil => simp
  | cons c a ih =>
    rw [List.cons_append, split_cons (by simpa using h [] (c :: a) rfl (by simp)), ih ?_]
    · simp
    · intro b d hbd hd
      exact h (c :: b) d (by rw [hbd]; rfl) hd

theorem split_num {k r : Str} {c : Char} (h1 : '(' ∉ k) (h2 : ')' ∉ k) (hc : c = 'i' ∨ c = 'd') :
    split (['%', '('] ++ k ++ [')', c] ++ r) = (['%', '('] ++ k ++ [')', c] ++ (split r).1, (split r).2) := by
  have hcs : c ≠ 's' := by rcases hc with rfl | rfl <;> decide
  have hcp : c ≠ '%' := by rcases hc with rfl | rfl <;> decide
  have hcq : c ≠ '(' := by rcases hc with rfl | rfl <;> decide
  -- inside of the key
  have hin : ∀ (k : Str), '(' ∉ k → ∀ q : Str, split (k ++ [')', c] ++ q) = (k ++ [')', c] ++ (split q).1, (split q).2) := by
    intro k hk q
    induction k with
    | nil =>
      simp only [List.nil_append, List.cons_append]
      rw [split_cons (matchAt_ne (by decide)), split_cons (matchAt_ne hcp)]
    | cons a k ih =>
      have hm : matchAt (a :: (k ++ [')', c] ++ q)) = none := by
        by_cases ha : a = '%'
        · subst ha
          apply matchAt_ne2
          cases k with
          | nil => simp
          | cons b k =>
            simp only [List.cons_append, List.head?_cons, ne_eq, Option.some.injEq]
            rintro rfl
            exact hk (by simp)
        · exact matchAt_ne ha
      simp only [List.cons_append] at hm ⊢
      rw [split_cons hm, ih (fun h => hk (by simp [h]))]
  have hm : matchAt ('%' :: '(' :: (k ++ [')', c] ++ r)) = none := by
    have := matchAt_num (k := k) (r := r) h2 hcs
    simpa using this
  simp only [List.cons_append, List.nil_append] at hm ⊢
  rw [split_cons hm, split_cons (matchAt_ne (by decide))]
  have := hin k h1 r
  rw [this]

theorem split_percent {r : Str} (h : r.head? ≠ some '(') : split ('%' :: '%' :: r) = ('%' :: '%' :: (split r).1, (split r).2) := by
  rw [split_cons (matchAt_ne2 (by simp)), split_cons (matchAt_ne2 h)]

variable (repl : Str → Option Value)

theorem format_nil : format repl [] = some [] := by rw [format]

theorem format_plain (a : Str) (ha : '%' ∉ a) (r : Str) : format repl (a ++ r) = (format repl r).map (fun t => a ++ t) := by
  induction a with
  | nil => simp
  | cons c a ih =>
    have hc : c ≠ '%' := fun h => ha (by simp [h])
    rw [List.cons_append, format.eq_def]
    simp only [ne_eq, hc, not_false_eq_true, if_true]
    rw [ih (fun h => ha (by simp [h])), Option.map_map]
    rfl

theorem format_percent (r : Str) : format repl ('%' :: '%' :: r) = (format repl r).map (fun t => '%' :: t) := by
  rw [format.eq_def]; simp

theorem scanKey_simple (k r : Str) (h1 : '(' ∉ k) (h2 : ')' ∉ k) : scanKey 0 (k ++ ')' :: r) = some (k, r) := by
  induction k with
  | nil => simp [scanKey]
  | cons a k ih =>
    have ha : a ≠ ')' := fun h => h2 (by simp [h])
    have hb : a ≠ '(' := fun h => h1 (by simp [h])
    rw [List.cons_append, scanKey, if_neg ha, if_neg hb, ih (fun h => h1 (by simp [h])) (fun h => h2 (by simp [h]))]
    rfl

theorem format_num (k r : Str) (c : Char) (h1 : '(' ∉ k) (h2 : ')' ∉ k) (hc : c = 'i' ∨ c = 'd') :
    format repl (['%', '('] ++ k ++ [')', c] ++ r) =
      (repl k).bind (fun v => (convertInt v).bind (fun t => (format repl r).map (fun u => t ++ u))) := by
  simp only [List.cons_append, List.nil_append, List.append_assoc]
  have hs := scanKey_simple k (c :: r) h1 h2
  rw [format.eq_def]
  simp only [ne_eq, not_true_eq_false, if_false]
  split
  · rename_i k' r' h'
    rw [hs] at h'
    simp only [Option.some.injEq, Prod.mk.injEq, List.cons.injEq] at h'
    obtain ⟨-, rfl, -⟩ := h'
    simp at hc
  · rename_i k' r' h'
    rw [hs] at h'
    simp only [Option.some.injEq, Prod.mk.injEq, List.cons.injEq] at h'
    obtain ⟨rfl, -, rfl⟩ := h'
    simp [Option.map_eq_bind]
  · rename_i k' r' h'
    rw [hs] at h'
    simp only [Option.some.injEq, Prod.mk.injEq, List.cons.injEq] at h'
    obtain ⟨rfl, -, rfl⟩ := h'
    simp [Option.map_eq_bind]
  · rename_i h3 h4 h5
    rcases hc with rfl | rfl
    · exact absurd hs (h4 k r)
    · exact absurd hs (h5 k r)

/-- **C34.** `parse_template_file` replaces every instruction by the text of its value, every `%%` by a percent sign, and copies
everything else; it fails exactly if a key is missing or the value of `%(key)i`, `%(key)d` is not an integer. -/
theorem C34_template (t : List Seg) (h : ∀ s ∈ t, s.WF) (hn : NoEscapedInstruction t) :
    parse repl (source t) = result repl t := by
  induction t with
  | nil => simp [parse, source, result, split_nil, format_nil, formatParts]
  | cons s t ih =>
    have hs : s.WF := h s (by simp)
    have hsrc : source (s :: t) = s.source ++ source t := by simp [source]
    have ih' := ih (fun s hs => h s (by simp [hs])) (by cases s <;> simp_all [NoEscapedInstruction])
    have hres : result repl (s :: t) = (s.result repl).bind (fun a => (result repl t).map (fun b => a ++ b)) := by
      unfold result
      rw [List.mapM_cons]
      cases s.result repl with
      | none => simp
      | some a => simp [Function.comp_def, Option.map_map]; cases t.mapM (Seg.result repl) <;> simp
    rw [hsrc, hres, ← ih']
    cases s with
    | lit a =>
      simp only [Seg.source, Seg.result, parse, Option.bind_some]
      rw [split_plain a hs, format_plain repl a hs]
      cases format repl (split (source t)).1 <;> cases formatParts repl (split (source t)).2 <;> simp
    | percent =>
      simp only [Seg.source, Seg.result, parse, Option.bind_some, List.cons_append, List.nil_append]
      rw [split_percent hn.1, format_percent]
      cases format repl (split (source t)).1 <;> cases formatParts repl (split (source t)).2 <;> simp
    | str k =>
      simp only [Seg.source, Seg.result, parse]
      rw [split_str hs]
      simp only [format_nil, formatParts, written_eq, Option.bind_eq_bind, Option.bind_some, List.nil_append]
      cases repl k with
      | none => simp
      | some v =>
        cases format repl (split (source t)).1 <;> cases formatParts repl (split (source t)).2 <;> simp
    | num k c =>
      obtain ⟨h1, h2, h3⟩ := hs
      simp only [Seg.source, Seg.result, parse]
      rw [split_num h1 h2 h3, format_num repl k _ c h1 h2 h3]
      cases repl k with
      | none => simp
      | some v =>
        cases v <;> simp [convertInt]
        cases format repl (split (source t)).1 <;> cases formatParts repl (split (source t)).2 <;> simp

/-- **C34, deviation.** In the standard Python rules `%%(a)s` is the text `%(a)s`; here it is an error for all replacements. -/
theorem C34_escaped_instruction : parse repl "%%(a)s".toList = none := by
  have h : split "%%(a)s".toList = (['%'], [(['a'], [])]) := by
    show split ('%' :: (['%', '('] ++ ['a'] ++ [')', 's'] ++ [])) = _
    rw [split_cons (matchAt_ne2 (by simp)), split_str (by simp), split_nil]
  rw [parse, h, format.eq_def]
  simp

/-! a template with all kinds of parts -/
example : (∀ s ∈ [Seg.lit "x = ".toList, .str "name".toList, .percent, .num "n".toList 'i', .lit "(\n".toList], s.WF) ∧
    NoEscapedInstruction [Seg.lit "x = ".toList, .str "name".toList, .percent, .num "n".toList 'i', .lit "(\n".toList] ∧
    source [Seg.lit "x = ".toList, .str "name".toList, .percent, .num "n".toList 'i', .lit "(\n".toList] =
      "x = %(name)s%%%(n)i(\n".toList := by
  refine ⟨?_, ?_, by decide⟩
  · simp [Seg.WF]
  · simp [NoEscapedInstruction, source, Seg.source]

/-! ### directory trees -/

theorem writeFiles_eq (ren : Str → Option (Option Str)) (fs : List (Str × Str)) : writeFiles repl ren fs =
    (fs.filterMap (fun f => (rename ren f.1).map (fun n => (n, f.2)))).mapM (fun f => (parse repl f.2).map (fun c => (f.1, c))) := by
  induction fs with
  | nil => simp [writeFiles]
  | cons f fs ih =>
    obtain ⟨name, content⟩ := f
    rw [writeFiles]
    cases h : rename ren name with
    | none => simp [h, ih]
    | some n =>
      rw [List.filterMap_cons]
      simp only [h, Option.map_some, List.mapM_cons, ih]
      cases parse repl content <;> simp

theorem mapM_none_iff {α β : Type} (f : α → Option β) (l : List α) : l.mapM f = none ↔ ∃ a ∈ l, f a = none := by
  induction l with
  | nil => simp
  | cons a l ih =>
    rw [List.mapM_cons]
    cases h : f a with
    | none => simp [h]
    | some b =>
      cases h' : l.mapM f with
      | none => simp [h, ih.1 h']
      | some c =>
        have : ¬ ∃ a ∈ l, f a = none := fun hh => by simp [ih.2 hh] at h'
        simp [h]
        intro x hx hfx
        exact this ⟨x, hx, hfx⟩

theorem mapM_some_reverse {α β : Type} (f : α → Option β) (l : List α) : l.reverse.mapM f = (l.mapM f).map List.reverse := by
  induction l with
  | nil => simp
  | cons a l ih =>
    rw [List.reverse_cons, List.mapM_append, ih, List.mapM_cons]
    cases h : f a <;> cases h' : l.mapM f <;> simp [h, h']

theorem go_append (ren : Str → Option (Option Str)) (l l' : List (List Str × List (Str × Str))) :
    parseTree.go repl ren (l ++ l') = (parseTree.go repl ren l).bind (fun a => (parseTree.go repl ren l').map (fun b => a ++ b)) := by
  induction l with
  | nil => simp [parseTree.go]
  | cons p l ih =>
    obtain ⟨path, files⟩ := p
    rw [List.cons_append, parseTree.go, parseTree.go]
    cases path.reverse.mapM (rename ren) with
    | none => simp only [ih]
    | some q =>
      simp only [ih, Option.bind_eq_bind]
      cases writeFiles repl ren files <;> simp
      cases parseTree.go repl ren l <;> simp
      cases parseTree.go repl ren l' <;> simp

theorem go_flatten (ren : Str → Option (Option Str)) {α : Type} (ds : List α) (g : α → List (List Str × List (Str × Str)))
    (c : α → Option (List DirOut)) (h : ∀ d ∈ ds, parseTree.go repl ren (g d) = c d) :
    parseTree.go repl ren (ds.map g).flatten = (ds.mapM c).map List.flatten := by
  induction ds with
  | nil => simp [parseTree.go]
  | cons d ds ih =>
    rw [List.map_cons, List.flatten_cons, go_append, h d (by simp), ih (fun d hd => h d (by simp [hd])), List.mapM_cons]
    cases c d <;> simp
    cases ds.mapM c <;> simp

theorem go_walk (ren : Str → Option (Option Str)) (d : Dir) (path : List Str) :
    parseTree.go repl ren (walk path d) = match path.mapM (rename ren) with
      | none => some []
      | some p => copyTree repl ren p d := by
  match d with
  | .mk fs ds =>
    rw [walk, parseTree.go, mapM_some_reverse]
    have hsub : ∀ e ∈ ds.attach, parseTree.go repl ren (walk (path ++ [e.1.1]) e.1.2) =
        match path.mapM (rename ren) with
        | none => some []
        | some p => match rename ren e.1.1 with
          | none => some []
          | some name => copyTree repl ren (p ++ [name]) e.1.2 := by
      intro e _
      rw [go_walk ren e.1.2 (path ++ [e.1.1]), List.mapM_append]
      cases path.mapM (rename ren) with
      | none => simp
      | some p => cases h : rename ren e.1.1 <;> simp [h]
    rw [go_flatten repl ren ds.attach _ _ hsub]
    cases hp : path.mapM (rename ren) with
    | none =>
      simp only [Option.map_none]
      have : ds.attach.mapM (fun _ => (some [] : Option (List DirOut))) = some (ds.attach.map fun _ => []) := by
        induction ds.attach with
        | nil => simp
        | cons a l ih => simp [List.mapM_cons, ih]
      rw [this]
      simp
    | some p =>
      simp only [Option.map_some, List.reverse_reverse]
      rw [copyTree, writeFiles_eq]
      simp only [Option.bind_eq_bind]
      cases (fs.filterMap (fun f => (rename ren f.1).map (fun n => (n, f.2)))).mapM (fun f => (parse repl f.2).map (fun c => (f.1, c))) with
      | none => simp
      | some a =>
        simp only [Option.bind_some]
        cases List.mapM (fun e : {x // x ∈ ds} => match rename ren e.1.1 with
          | none => some []
          | some name => copyTree repl ren (p ++ [name]) e.1.2) ds.attach <;> simp
termination_by sizeOf d
decreasing_by
  obtain ⟨⟨a, b⟩, h⟩ := e
  have := List.sizeOf_lt_of_mem h
  simp at this ⊢
  omega

/-- **C34.** `parse_template_tree` makes the renamed tree: every directory and file is renamed, left out together with everything
below if its name is mapped to `None`, and every other file is parsed. -/
theorem C34_tree (ren : Str → Option (Option Str)) (d : Dir) : parseTree repl ren d = copyTree repl ren [] d := by
  have := go_walk repl ren d []
  simpa [parseTree] using this

end Template
end SecDec
