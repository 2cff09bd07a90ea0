import Verif.Model.Func
import Mathlib.Data.List.FinRange
import Mathlib.Data.List.Count
import Mathlib.Algebra.BigOperators.Fin
/-
The names of derivatives are different.
-/
namespace SecDec
namespace Func
variable {n : ℕ}

/-- decimal digits -/
def digs (k : ℕ) : List Char := (toString k).toList

theorem digs_eq (k : ℕ) : digs k = Nat.toDigits 10 k := by
  unfold digs
  rw [Nat.toString_eq_repr, Nat.toList_repr]

theorem digs_inj {k l : ℕ} (h : digs k = digs l) : k = l := by
  rw [digs_eq, digs_eq] at h
  rw [← Nat.ofDigitChars_ten_toDigits (n := k), h, Nat.ofDigitChars_ten_toDigits]

theorem digs_digit {k : ℕ} {c : Char} (h : c ∈ digs k) : c.isDigit = true := by
  rw [digs_eq] at h
  exact Nat.isDigit_of_mem_toDigits (by decide) (by decide) h

theorem digs_ne_d {k : ℕ} {c : Char} (h : c ∈ digs k) : c ≠ 'd' := by
  rintro rfl
  have := digs_digit h
  exact absurd this (by decide)

theorem digs_ne_nil (k : ℕ) : digs k ≠ [] := by
  rw [digs_eq]; exact Nat.toDigits_ne_nil

/-- the suffix for a list of indices -/
def enc (l : List ℕ) : List Char := l.flatMap fun k => 'd' :: digs k

theorem takeWhile_enc (k : ℕ) (l : List ℕ) : (digs k ++ enc l).takeWhile (fun c => decide (c ≠ 'd')) = digs k := by
  rw [List.takeWhile_append_of_pos (by intro c hc; simpa using digs_ne_d hc)]
  cases l with
  | nil => simp [enc]
  | cons m l => simp [enc]

theorem enc_inj : ∀ {l l' : List ℕ}, enc l = enc l' → l = l' := by
  intro l
  induction l with
  | nil =>
    intro l' h
    cases l' with
    | nil => rfl
    | cons m l' => simp [enc] at h
  | cons k l ih =>
    intro l' h
    cases l' with
    | nil => simp [enc] at h
    | cons m l' =>
      have h1 : digs k ++ enc l = digs m ++ enc l' := by
        have : ('d' :: digs k) ++ enc l = ('d' :: digs m) ++ enc l' := h
        simpa using this
      have h2 : digs k = digs m := by rw [← takeWhile_enc k l, h1, takeWhile_enc]
      rw [h2] at h1
      rw [digs_inj h2, ih (List.append_cancel_left h1)]

theorem count_enc (l : List ℕ) : (enc l).count 'd' = l.length := by
  induction l with
  | nil => rfl
  | cons k l ih =>
    show (('d' :: digs k) ++ enc l).count 'd' = _
    rw [List.count_append, ih, List.count_cons_self, List.count_eq_zero_of_not_mem (fun h => digs_ne_d h rfl)]
    simp only [List.length_cons]; omega

/-- the indices of a multiindex with repetitions -/
def expand (α : Multi n) : List ℕ := (List.finRange n).flatMap fun i => List.replicate (α i) i.val

theorem suffix_eq (α : Multi n) : ((List.finRange n).flatMap fun i => (List.replicate (α i) ('d' :: (toString i.val).toList)).flatten) =
    enc (expand α) := by
  unfold enc expand
  rw [List.flatMap_assoc]
  congr 1
  funext i
  induction α i with
  | zero => rfl
  | succ k ih => rw [List.replicate_succ, List.replicate_succ, List.flatten_cons, List.flatMap_cons, ih]; rfl

theorem count_expand (α : Multi n) (i : Fin n) : (expand α).count i.val = α i := by
  unfold expand
  rw [List.count_flatMap]
  have : (List.map (List.count i.val ∘ fun i => List.replicate (α i) i.val) (List.finRange n)).sum =
      ∑ j : Fin n, if j = i then α i else 0 := by
    rw [Fin.sum_univ_def]
    congr 1
    refine List.map_congr_left (fun j _ => ?_)
    simp only [Function.comp_apply, List.count_replicate]
    by_cases h : j = i
    · subst h; simp
    · rw [if_neg h, if_neg]
      simpa using fun h' => h (Fin.ext h')
  rw [this]; simp

theorem expand_inj {α β : Multi n} (h : expand α = expand β) : α = β := by
  funext i
  rw [← count_expand α i, h, count_expand]

theorem length_expand (α : Multi n) : (expand α).length = ∑ i, α i := by
  unfold expand
  rw [List.length_flatMap, Fin.sum_univ_def]
  congr 1
  exact List.map_congr_left (fun i _ => by simp)

theorem name_eq (b : List Char) (α : Multi n) : derivativeName b α = List.replicate (∑ i, α i) 'd' ++ b ++ enc (expand α) := by
  rw [derivativeName, suffix_eq]

theorem enc_start (l : List ℕ) (k : ℕ) (m : List Char) (hk : 0 < k) (hm : m = [] ∨ ∃ m', m = 'd' :: m') (hl : l = [] → m ≠ []) :
    enc l ≠ List.replicate k 'd' ++ m := by
  intro h
  obtain ⟨k, rfl⟩ : ∃ j, k = j + 1 := ⟨k - 1, by omega⟩
  rw [List.replicate_succ] at h
  cases l with
  | nil => simp [enc] at h
  | cons a l =>
    have h1 : digs a ++ enc l = List.replicate k 'd' ++ m := by
      have : ('d' :: digs a) ++ enc l = 'd' :: List.replicate k 'd' ++ m := h
      simpa using this
    obtain ⟨c, r, hc⟩ := List.exists_cons_of_ne_nil (digs_ne_nil a)
    have hcd : c ≠ 'd' := digs_ne_d (k := a) (by rw [hc]; simp)
    rw [hc] at h1
    cases k with
    | succ k => rw [List.replicate_succ] at h1; simp at h1; exact hcd h1.1
    | zero =>
      rcases hm with rfl | ⟨m', rfl⟩
      · simp at h1
      · simp at h1; exact hcd h1.1

theorem shift_ne (b : List Char) (k : ℕ) (hk : 0 < k) (l l' : List ℕ) (hl : l' ≠ []) : b ++ enc l ≠ List.replicate k 'd' ++ b ++ enc l' := by
  induction b with
  | nil =>
    rw [List.append_nil, List.nil_append]
    refine enc_start l k (enc l') hk ?_ ?_
    · cases l' with
      | nil => exact Or.inl rfl
      | cons a l' => exact Or.inr ⟨_, rfl⟩
    · intro _
      obtain ⟨a, r, rfl⟩ := List.exists_cons_of_ne_nil hl
      simp [enc]
  | cons c b ih =>
    intro h
    obtain ⟨j, rfl⟩ : ∃ j, k = j + 1 := ⟨k - 1, by omega⟩
    have hc : c = 'd' := by
      rw [List.replicate_succ] at h
      simpa using congrArg List.head? h
    subst hc
    apply ih
    have h1 : 'd' :: (b ++ enc l) = 'd' :: (List.replicate j 'd' ++ 'd' :: b ++ enc l') := by
      rw [List.replicate_succ] at h
      simpa using h
    have h2 := (List.cons.inj h1).2
    rw [h2, List.replicate_succ']
    simp

/-- Different derivatives of one function have different names. -/
theorem name_inj {b : List Char} {α β : Multi n} (h : derivativeName b α = derivativeName b β) : α = β := by
  rw [name_eq, name_eq] at h
  rcases lt_trichotomy (∑ i, α i) (∑ i, β i) with hlt | heq | hgt
  · exfalso
    obtain ⟨k, hk⟩ := Nat.exists_eq_add_of_lt hlt
    have hne : expand β ≠ [] := by
      intro h0
      have := length_expand β
      rw [h0] at this; simp at this; omega
    refine shift_ne b (k+1) (by omega) (expand α) (expand β) hne ?_
    rw [hk, add_assoc, List.replicate_add, List.append_assoc, List.append_assoc, List.append_assoc] at h
    rw [List.append_cancel_left h, List.append_assoc]
  · rw [heq, List.append_assoc, List.append_assoc] at h
    exact expand_inj (enc_inj (List.append_cancel_left (List.append_cancel_left h)))
  · exfalso
    obtain ⟨k, hk⟩ := Nat.exists_eq_add_of_lt hgt
    have hne : expand α ≠ [] := by
      intro h0
      have := length_expand α
      rw [h0] at this; simp at this; omega
    refine shift_ne b (k+1) (by omega) (expand β) (expand α) hne ?_
    rw [hk, add_assoc, List.replicate_add, List.append_assoc, List.append_assoc, List.append_assoc] at h
    rw [← List.append_cancel_left h, List.append_assoc]

/-- number of leading d -/
theorem lead {b : List Char} (hb : b.head? ≠ some 'd') (hne : b ≠ []) (k : ℕ) (r : List Char) :
    ((List.replicate k 'd' ++ b ++ r).takeWhile (fun c => decide (c = 'd'))).length = k := by
  obtain ⟨c, b', rfl⟩ := List.exists_cons_of_ne_nil hne
  have hc : c ≠ 'd' := by simpa using hb
  rw [List.append_assoc, List.takeWhile_append_of_pos (by intro x hx; simpa using List.eq_of_mem_replicate hx)]
  simp [hc]

/-- Names of derivatives of functions whose names do not begin with `d` are different. -/
theorem name_inj2 {b b' : List Char} (hb : b.head? ≠ some 'd') (hne : b ≠ []) (hb' : b'.head? ≠ some 'd') (hne' : b' ≠ [])
    {m : ℕ} {α : Multi n} {β : Multi m} (h : derivativeName b α = derivativeName b' β) : b = b' ∧ expand α = expand β := by
  rw [name_eq, name_eq] at h
  have hs : ∑ i, α i = ∑ i, β i := by rw [← lead hb hne (∑ i, α i) (enc (expand α)), h, lead hb' hne']
  have hlen : (expand α).length = (expand β).length := by rw [length_expand, length_expand, hs]
  rw [hs, List.append_assoc, List.append_assoc] at h
  have h1 := List.append_cancel_left h
  have key : ∀ (b b' : List Char) (l l' : List ℕ), l.length = l'.length → b.length ≤ b'.length → b ++ enc l = b' ++ enc l' → b = b' := by
    intro b b' l l' hl hle h
    obtain ⟨z, rfl⟩ : ∃ z, b' = b ++ z := by
      have : b <+: b' := List.prefix_of_prefix_length_le ⟨enc l, h⟩ ⟨enc l', rfl⟩ hle
      obtain ⟨z, hz⟩ := this
      exact ⟨z, hz.symm⟩
    rw [List.append_assoc] at h
    have h2 := List.append_cancel_left h
    have hc := congrArg (List.count 'd') h2
    rw [List.count_append, count_enc, count_enc, hl] at hc
    have hz : 'd' ∉ z := by
      rw [← List.count_eq_zero]; omega
    cases z with
    | nil => simp
    | cons c z =>
      exfalso
      cases l with
      | nil => simp [enc] at h2
      | cons k l =>
        have : 'd' = c := by
          have : ('d' :: digs k) ++ enc l = (c :: z) ++ enc l' := h2
          simpa using congrArg List.head? this
        exact hz (by rw [← this]; exact List.mem_cons_self)
  have hbb : b = b' := by
    rcases le_total b.length b'.length with hle | hle
    · exact key b b' _ _ hlen hle h1
    · exact (key b' b _ _ hlen.symm hle h1.symm).symm
  subst hbb
  exact ⟨rfl, enc_inj (List.append_cancel_left h1)⟩

end Func
end SecDec
