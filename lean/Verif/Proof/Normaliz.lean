import Verif.Spec.Normaliz
import Verif.Proof.SeriesText
import Verif.Proof.DistText
/-
Words, lines and arrays.
-/
namespace SecDec
namespace Normaliz
open SeriesText

/-- A word. -/
def Token (t : Str) : Prop := t ≠ [] ∧ ∀ c ∈ t, c.isWhitespace = false

/-- The text ends here or continues with white space. -/
def Stops (r : Str) : Prop := ∀ c, r.head? = some c → c.isWhitespace = true

theorem stops_nil : Stops [] := by intro c h; cases h
theorem stops_cons {c : Char} (h : c.isWhitespace = true) (r : Str) : Stops (c :: r) := by
  intro d hd; simp only [List.head?_cons, Option.some.injEq] at hd; rw [← hd]; exact h

theorem blank_ws {s : Str} (h : Blank s) : ∀ c ∈ s, c.isWhitespace = true := by
  intro c hc
  rcases h c hc with rfl | rfl <;> decide

theorem dec_sign (z : Int) : ∀ c ∈ dec z, c.isDigit = true ∨ c = '+' ∨ c = '-' := by
  intro c hc
  have h := List.all_eq_true.1 (int_signDigit z) c hc
  simp only [isSignDigit, Bool.or_eq_true, beq_iff_eq] at h
  tauto

theorem dec_char (z : Int) : ∀ c ∈ dec z, c.isWhitespace = false ∧ c ≠ '[' ∧ c ≠ ']' ∧ c ≠ '\n' := by
  intro c hc
  have h : c.isDigit = true ∨ c = '+' ∨ c = '-' := dec_sign z c hc
  rcases h with h | rfl | rfl
  · refine ⟨(tame_int z c hc).2.2.2.2.2.2.2, ?_, ?_, ?_⟩ <;> (rintro rfl; revert h; decide)
  · decide
  · decide

theorem dec_token (z : Int) : Token (dec z) := ⟨int_ne_nil z, fun c hc => (dec_char z c hc).1⟩

theorem words_blank {s : Str} (h : ∀ c ∈ s, c.isWhitespace = true) (r : Str) : words (s ++ r) = words r := by
  unfold words
  induction s with
  | nil => rfl
  | cons c s ih =>
    rw [List.cons_append, wordsFrom, if_pos (h c (by simp)), if_pos rfl]
    exact ih fun c hc => h c (by simp [hc])

theorem wordsFrom_token {t : Str} (h : ∀ c ∈ t, c.isWhitespace = false) (seg r : Str) : wordsFrom seg (t ++ r) = wordsFrom (t.reverse ++ seg) r := by
  induction t generalizing seg with
  | nil => rfl
  | cons c t ih =>
    rw [List.cons_append, wordsFrom, if_neg (by rw [h c (by simp)]; simp), ih fun c hc => h c (by simp [hc])]
    simp

theorem wordsFrom_stop {seg r : Str} (hs : seg ≠ []) (hr : Stops r) : wordsFrom seg r = seg.reverse :: words r := by
  cases r with
  | nil =>
    cases seg with
    | nil => exact absurd rfl hs
    | cons c s => rfl
  | cons c r =>
    have hc := hr c rfl
    unfold words
    rw [wordsFrom, if_pos hc, if_neg hs, wordsFrom, if_pos hc, if_pos rfl]

theorem words_token {t r : Str} (ht : Token t) (hr : Stops r) : words (t ++ r) = t :: words r := by
  unfold words
  rw [wordsFrom_token ht.2, wordsFrom_stop (by simpa using ht.1) hr]
  simp [words]

theorem wordsFrom_unindent (s seg : Str) : wordsFrom seg (unindent s) = wordsFrom seg s := by
  induction s using unindent.induct generalizing seg with
  | case1 => rfl
  | case2 r ih =>
    have e : unindent ('\n' :: ' ' :: r) = '\n' :: unindent r := by rw [unindent]
    have h1 : '\n'.isWhitespace = true := by decide
    have h2 : ' '.isWhitespace = true := by decide
    rw [e]
    simp only [wordsFrom, h1, h2, if_true, ih]
  | case3 c r h ih =>
    rw [unindent]
    · simp only [wordsFrom, ih]
    · exact h

theorem rowText_stops {sep : Nat → Str} (h : ∀ j, Blank (sep j) ∧ (0 < j → sep j ≠ [])) {r : Str} (hr : Stops r) (j : Nat) (xs : List Int) :
    Stops (rowText sep (j + 1) xs ++ r) := by
  cases xs with
  | nil => exact hr
  | cons x xs =>
    rw [rowText]
    obtain ⟨h1, h2⟩ := h (j + 1)
    cases hs : sep (j + 1) with
    | nil => exact absurd hs (h2 (by omega))
    | cons c s =>
      simp only [List.cons_append]
      exact stops_cons (blank_ws h1 c (by rw [hs]; simp)) _

theorem words_row {sep : Nat → Str} (h : ∀ j, Blank (sep j) ∧ (0 < j → sep j ≠ [])) {r : Str} (hr : Stops r) (j : Nat) (xs : List Int) :
    words (rowText sep j xs ++ r) = xs.map dec ++ words r := by
  induction xs generalizing j with
  | nil => rfl
  | cons x xs ih =>
    rw [rowText, List.append_assoc, List.append_assoc, words_blank (blank_ws (h j).1), words_token (dec_token x) (rowText_stops h hr j xs), ih]
    rfl

theorem row_no_bracket {sep : Nat → Str} (h : ∀ j, Blank (sep j)) (j : Nat) (xs : List Int) : ∀ c ∈ rowText sep j xs, c ≠ '[' ∧ c ≠ ']' := by
  induction xs generalizing j with
  | nil => simp [rowText]
  | cons x xs ih =>
    intro c hc
    rw [rowText, List.mem_append, List.mem_append] at hc
    rcases hc with (hc | hc) | hc
    · rcases h j c hc with rfl | rfl <;> decide
    · exact ⟨(dec_char x c hc).2.1, (dec_char x c hc).2.2.1⟩
    · exact ih (j + 1) c hc

/-- Without brackets. -/
def strippedRows (sep : Nat → Nat → Str) : Nat → Mat → Str
  | _, [] => []
  | i, [r] => rowText (sep i) 0 r
  | i, r :: rs => rowText (sep i) 0 r ++ ('\n' :: ' ' :: strippedRows sep (i + 1) rs)

theorem filter_rows {sep : Nat → Nat → Str} (h : ∀ i j, Blank (sep i j)) (i : Nat) (data : Mat) :
    ((rowsText sep i data).filter (fun c => c ≠ '[')).filter (fun c => c ≠ ']') = strippedRows sep i data := by
  have hrow : ∀ i (r : List Int), ((rowText (sep i) 0 r).filter (fun c => c ≠ '[')).filter (fun c => c ≠ ']') = rowText (sep i) 0 r := by
    intro i r
    have h1 : (rowText (sep i) 0 r).filter (fun c => c ≠ '[') = rowText (sep i) 0 r :=
      List.filter_eq_self.2 fun c hc => by simpa using (row_no_bracket (h i) 0 r c hc).1
    rw [h1]
    exact List.filter_eq_self.2 fun c hc => by simpa using (row_no_bracket (h i) 0 r c hc).2
  induction data generalizing i with
  | nil => rfl
  | cons r rs ih =>
    cases rs with
    | nil =>
      rw [rowsText, strippedRows, List.filter_cons_of_neg (by simp), List.filter_append, List.filter_append, hrow]
      simp
    | cons r' rs =>
      rw [rowsText, strippedRows, List.filter_cons_of_neg (by simp), List.filter_append, List.filter_append, hrow]
      · congr 1
        rw [← ih]
        simp
      · simp
      · simp

theorem words_stripped {sep : Nat → Nat → Str} (h : Layout sep) (i : Nat) (data : Mat) :
    words (strippedRows sep i data) = data.flatten.map dec := by
  induction data generalizing i with
  | nil => rfl
  | cons r rs ih =>
    cases rs with
    | nil =>
      rw [strippedRows, ← List.append_nil (rowText _ _ _), words_row (h i) stops_nil]
      simp [words, wordsFrom]
    | cons r' rs =>
      rw [strippedRows, words_row (h i) (stops_cons (by decide) _)]
      · have : words ('\n' :: ' ' :: strippedRows sep (i + 1) (r' :: rs)) = words (strippedRows sep (i + 1) (r' :: rs)) :=
          words_blank (s := ['\n', ' ']) (by decide) _
        rw [this, ih]; simp
      · simp

theorem words_plain {sep : Nat → Nat → Str} (h : Layout sep) (data : Mat) : words (plainText sep data) = data.flatten.map dec := by
  unfold plainText words
  rw [wordsFrom_unindent]
  unfold numpyText
  rw [List.filter_cons_of_neg (by simp), List.filter_append, List.filter_append, filter_rows fun i j => (h i j).1]
  have := words_stripped h 0 data
  unfold words at this
  simpa using this

/-! ### reading -/

theorem readLine_eq {l : Str} (h : '\n' ∉ l) (r : Str) : readLine (l ++ '\n' :: r) = (l ++ ['\n'], r) := by
  induction l with
  | nil => rw [List.nil_append, readLine, if_pos rfl]; rfl
  | cons c l ih =>
    rw [List.cons_append, readLine, if_neg (by rintro rfl; exact h (by simp)), ih fun hn => h (by simp [hn])]
    rfl

theorem pyInt_dec (z : Int) : pyInt (dec z ++ ['\n']) = some z := by
  have h : strip (dec z ++ ['\n']) = dec z := by
    have h1 : (dec z ++ ['\n']).dropWhile Char.isWhitespace = dec z ++ ['\n'] := by
      cases hd : dec z with
      | nil => exact absurd hd (dec_token z).1
      | cons c s => rw [List.cons_append, List.dropWhile_cons_of_neg (by rw [(dec_token z).2 c (by rw [hd]; simp)]; simp)]
    have h2 : (dec z).reverse.dropWhile Char.isWhitespace = (dec z).reverse := by
      cases hd : (dec z).reverse with
      | nil => exact absurd (List.reverse_eq_nil_iff.1 hd) (dec_token z).1
      | cons c s =>
        rw [List.dropWhile_cons_of_neg]
        rw [(dec_token z).2 c (List.mem_reverse.1 (by rw [hd]; simp))]; simp
    unfold strip
    rw [h1, List.reverse_append, List.reverse_singleton, List.singleton_append, List.dropWhile_cons_of_pos (by decide), h2, List.reverse_reverse]
  unfold pyInt
  rw [h]
  exact readInt_toString z

theorem readLines_eq (ls : List Str) (h : ∀ l ∈ ls, '\n' ∉ l) (r : Str) :
    readLines ls.length ((ls.flatMap fun l => l ++ ['\n']) ++ r) = (ls.flatMap fun l => l ++ ['\n'], r) := by
  induction ls with
  | nil => rfl
  | cons l ls ih =>
    rw [List.length_cons, readLines, List.flatMap_cons, List.append_assoc, List.append_assoc, List.singleton_append, readLine_eq (h l (by simp))]
    simp only
    rw [ih fun l hl => h l (by simp [hl])]

theorem chunks_eq (cols : Nat) (m : Mat) (h : ∀ r ∈ m, r.length = cols) : chunks cols m.length m.flatten = m := by
  induction m with
  | nil => rfl
  | cons r m ih =>
    have hr := h r (by simp)
    rw [List.length_cons, chunks, List.flatten_cons, List.take_append_of_le_length (by omega), List.take_of_length_le (by omega), List.drop_append_of_le_length (by omega),
      List.drop_of_length_le (by omega), List.nil_append, ih fun r hr => h r (by simp [hr])]

theorem flatten_length (cols : Nat) (m : Mat) (h : ∀ r ∈ m, r.length = cols) : m.flatten.length = m.length * cols := by
  induction m with
  | nil => simp
  | cons r m ih => rw [List.flatten_cons, List.length_append, ih fun r hr => h r (by simp [hr]), h r (by simp), List.length_cons, Nat.succ_mul, Nat.add_comm]

/-- The entries of a line. -/
def entries (blanks : Nat → Nat) (r : List Int) : Str := rowText (fun j => List.replicate (blanks j) ' ') 0 r

theorem rowText_flatMap (blanks : Nat → Nat) (j : Nat) (r : List Int) :
    rowText (fun j => List.replicate (blanks j) ' ') j r = (r.zipIdx j).flatMap fun p => List.replicate (blanks p.2) ' ' ++ dec p.1 := by
  induction r generalizing j with
  | nil => rfl
  | cons x r ih => rw [rowText, ih, List.zipIdx_cons, List.flatMap_cons]

theorem lineText_eq (blanks : Nat → Nat) (r : List Int) : lineText blanks r = entries blanks r ++ ['\n'] := by
  unfold lineText entries
  rw [rowText_flatMap]

theorem replicate_blank (k : Nat) : Blank (List.replicate k ' ') := by
  intro c hc; exact Or.inl (List.eq_of_mem_replicate hc)

theorem entries_line (blanks : Nat → Nat) (r : List Int) : '\n' ∉ entries blanks r := by
  unfold entries
  generalize 0 = j
  induction r generalizing j with
  | nil => simp [rowText]
  | cons x r ih =>
    rw [rowText, List.mem_append, List.mem_append]
    rintro ((h | h) | h)
    · have := List.eq_of_mem_replicate h; revert this; decide
    · exact (dec_char x _ h).2.2.2 rfl
    · exact ih _ h

theorem words_lines (b : Nat → Nat → Nat) (hb : ∀ i j, 0 < j → 0 < b i j) (m : Mat) (i : Nat) :
    words ((m.zipIdx i).flatMap fun p => entries (b p.2) p.1 ++ ['\n']) = m.flatten.map dec := by
  induction m generalizing i with
  | nil => rfl
  | cons r m ih =>
    rw [List.zipIdx_cons, List.flatMap_cons, List.append_assoc, entries,
      words_row (r := ['\n'] ++ _) (fun j => ⟨replicate_blank _, fun hj => by have := hb i j hj; simp only [ne_eq, List.replicate_eq_nil_iff]; omega⟩) (stops_cons (by decide) _)]
    rw [words_blank (s := ['\n']) (by decide), ih]
    simp

theorem mapM_dec (l : List Int) : (l.map dec).mapM readInt = some l := by
  induction l with
  | nil => rfl
  | cons x l ih =>
    rw [List.map_cons, List.mapM_cons, ih]
    have : readInt (dec x) = some x := readInt_toString x
    rw [this]; rfl

theorem readArray_block {b : Block} (h : b.Good) :
    readArray b.rows.length b.cols ((b.rows.zipIdx.flatMap fun p => entries (b.blanks p.2) p.1 ++ ['\n'])) = some b.rows := by
  unfold readArray
  rw [words_lines b.blanks h.blank, mapM_dec, Option.bind_some, if_pos (flatten_length b.cols b.rows h.length), chunks_eq b.cols b.rows h.length]

theorem readOutputs_cons {b : Block} (h : b.Good) (k : Nat) (r : Str) : readOutputs (k + 1) (b.text ++ r) = (readOutputs k r).map fun ms => b.rows :: ms := by
  have hmap : (b.rows.zipIdx.flatMap fun p => entries (b.blanks p.2) p.1 ++ ['\n']) =
      (b.rows.zipIdx.map fun p => entries (b.blanks p.2) p.1).flatMap fun l => l ++ ['\n'] := by
    rw [List.flatMap_map]
  have htext : b.text ++ r = dec b.rows.length ++ '\n' :: (dec b.cols ++ '\n' :: ((b.rows.zipIdx.flatMap fun p => entries (b.blanks p.2) p.1 ++ ['\n']) ++
      (b.kind ++ '\n' :: r))) := by
    unfold Block.text
    have : (fun p : List Int × Nat => lineText (b.blanks p.2) p.1) = fun p => entries (b.blanks p.2) p.1 ++ ['\n'] := by
      funext p; exact lineText_eq _ _
    rw [this]; simp
  have hno : ∀ z : Int, '\n' ∉ dec z := fun z hn => (dec_char z _ hn).2.2.2 rfl
  rw [htext, readOutputs, readLine_eq (hno _)]
  simp only
  rw [pyInt_dec, Option.bind_some, readLine_eq (hno _)]
  simp only
  rw [pyInt_dec, Option.bind_some, if_neg (by omega)]
  have hlen : ((b.rows.length : Int)).toNat = (b.rows.zipIdx.map fun p => entries (b.blanks p.2) p.1).length := by simp
  have hl := readLines_eq (b.rows.zipIdx.map fun p => entries (b.blanks p.2) p.1) (by
    intro l hl
    obtain ⟨p, -, rfl⟩ := List.mem_map.1 hl
    exact entries_line _ _) (b.kind ++ '\n' :: r)
  rw [← hlen, ← hmap] at hl
  rw [hl]
  simp only
  rw [readLine_eq h.line]
  simp only
  have : (if (b.rows.length : Int) = 0 then some [] else readArray (b.rows.length : Int).toNat (b.cols : Int).toNat
      (b.rows.zipIdx.flatMap fun p => entries (b.blanks p.2) p.1 ++ ['\n'])) = some b.rows := by
    split_ifs with h0
    · have : b.rows = [] := List.length_eq_zero_iff.1 (by omega)
      rw [this]
    · exact readArray_block h
  rw [this, Option.bind_some]

theorem readOutputs_blocks (bs : List Block) (h : ∀ b ∈ bs, b.Good) (r : Str) : readOutputs bs.length (bs.flatMap Block.text ++ r) = some (bs.map (·.rows)) := by
  induction bs with
  | nil => rfl
  | cons b bs ih =>
    rw [List.length_cons, List.flatMap_cons, List.append_assoc, readOutputs_cons (h b (by simp)), ih fun b hb => h b (by simp [hb])]
    rfl

end Normaliz
end SecDec
