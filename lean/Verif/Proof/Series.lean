import Verif.Spec.Series
import Mathlib.Tactic.Linarith
import Mathlib.Tactic.Ring
import Mathlib.Algebra.BigOperators.Intervals
import Mathlib.Tactic.FieldSimp
/- Proofs for C33. -/
namespace SecDec
namespace Cxx
open HahnSeries Finset
set_option linter.unusedSectionVars false
variable {S T K : Type*} [Field S] [Field K]

theorem mapM_list {α β : Type*} (f : α → Option β) (P : α → β → Prop) (l : List α)
    (h : ∀ a ∈ l, ∃ b, f a = some b ∧ P a b) :
    ∃ m, l.mapM f = some m ∧ m.length = l.length ∧
      ∀ (k : ℕ) (a : α) (b : β), l[k]? = some a → m[k]? = some b → P a b := by
  induction l with
  | nil => exact ⟨[], rfl, rfl, by simp⟩
  | cons a l ih =>
    obtain ⟨b, h1, h2⟩ := h a (by simp)
    obtain ⟨m, g1, g2, g3⟩ := ih fun x hx => h x (by simp [hx])
    refine ⟨b :: m, ?_, by simp [g2], ?_⟩
    · rw [List.mapM_cons, h1, g1]; rfl
    · intro k x y hx hy
      cases k with
      | zero => simp at hx hy; subst hx; subst hy; exact h2
      | succ k => simp at hx hy; exact g3 k x y hx hy

theorem mem_ints {a b i : ℤ} : i ∈ Series.ints a b ↔ a ≤ i ∧ i ≤ b := by
  unfold Series.ints
  rw [List.mem_map]
  constructor
  · rintro ⟨k, hk, rfl⟩; rw [List.mem_range] at hk; omega
  · rintro ⟨h1, h2⟩; exact ⟨(i - a).toNat, List.mem_range.2 (by omega), by omega⟩

theorem ints_get {a b i : ℤ} {k : ℕ} (h : (Series.ints a b)[k]? = some i) : i = a + k := by
  unfold Series.ints at h
  rw [List.getElem?_map] at h
  by_cases hk : k < (b + 1 - a).toNat
  · rw [List.getElem?_range hk] at h; simp at h; omega
  · rw [List.getElem?_eq_none (by simpa using hk)] at h; simp at h

theorem mapM_ints {β : Type*} (f : ℤ → Option β) (P : ℤ → β → Prop) (a b : ℤ)
    (h : ∀ i, a ≤ i → i ≤ b → ∃ x, f i = some x ∧ P i x) :
    ∃ m, (Series.ints a b).mapM f = some m ∧ m.length = (b + 1 - a).toNat ∧
      ∀ (k : ℕ) (x : β), m[k]? = some x → P (a + k) x := by
  obtain ⟨m, h1, h2, h3⟩ := mapM_list f P (Series.ints a b) fun i hi => h i (mem_ints.1 hi).1 (mem_ints.1 hi).2
  have hl : (Series.ints a b).length = (b + 1 - a).toNat := by simp [Series.ints]
  refine ⟨m, h1, by rw [h2, hl], fun k x hx => ?_⟩
  have hk : k < (Series.ints a b).length := by
    rw [← h2]; exact (List.getElem?_eq_some_iff.1 hx).1
  have := h3 k _ x (List.getElem?_eq_getElem hk) hx
  rwa [ints_get (List.getElem?_eq_getElem hk)] at this

theorem make_ok {a b : ℤ} {l : List T} {t : Bool} {p : String} (h : a ≤ b)
    (hl : (l.length : ℤ) = b - a + 1) : Series.make a b l t p = some ⟨a, b, l, t, p⟩ := by
  unfold Series.make
  rw [if_neg (by omega), if_neg (by omega)]

section
variable {R : T → K → Prop} {U : T → Prop} {p : String} {s s1 s2 : Series T} {A B : HahnSeries ℤ K}

theorem Expands.at' (h : Expands R p s A) {i : ℤ} (h1 : s.orderMin ≤ i) (h2 : i ≤ s.orderMax) :
    ∃ x, s.at' i = some x ∧ R x (A.coeff i) := by
  unfold Series.at'
  rw [if_neg (by omega)]
  have hk : (i - s.orderMin).toNat < s.content.length := by have := h.len; omega
  refine ⟨_, List.getElem?_eq_getElem hk, ?_⟩
  have := h.coeff _ _ (List.getElem?_eq_getElem hk)
  rwa [show s.orderMin + ((i - s.orderMin).toNat : ℤ) = i by omega] at this

theorem Expands.get (h : Expands R p s A) {k : ℕ} (hk : k < s.content.length) :
    ∃ x, s.content[k]? = some x ∧ R x (A.coeff (s.orderMin + k)) :=
  ⟨_, List.getElem?_eq_getElem hk, h.coeff _ _ (List.getElem?_eq_getElem hk)⟩

theorem Expands.pos (h : Expands R p s A) : 0 < s.content.length := by have := h.len; have := h.le; omega

theorem Expands.coeff_eq_zero (h : Expands R p s A) {i : ℤ} (hi : s.hasTerm i = false)
    (ht : s.truncated = true → i ≤ s.orderMax) : A.coeff i = 0 := by
  simp only [Series.hasTerm, Bool.and_eq_false_iff, decide_eq_false_iff_not, not_le] at hi
  rcases hi with hi | hi
  · exact h.below i hi
  · cases hb : s.truncated with
    | false => exact h.above hb i hi
    | true => have := ht hb; omega

theorem hasTerm_iff {i : ℤ} : s.hasTerm i = true ↔ s.orderMin ≤ i ∧ i ≤ s.orderMax := by
  simp [Series.hasTerm]

theorem sumMax_le1 (h : s1.truncated = true) : Series.sumMax s1 s2 ≤ s1.orderMax := by
  simp only [Series.sumMax, h, if_true]; split_ifs <;> omega
theorem sumMax_le2 (h : s2.truncated = true) : Series.sumMax s1 s2 ≤ s2.orderMax := by
  simp only [Series.sumMax, h, if_true]; split_ifs <;> omega
theorem le_sumMax1 (h1 : s1.truncated = false) (h2 : s2.truncated = false) :
    s1.orderMax ≤ Series.sumMax s1 s2 ∧ s2.orderMax ≤ Series.sumMax s1 s2 := by
  simp only [Series.sumMax, h1, h2]; simp
theorem min_le_sumMax (h1 : s1.orderMin ≤ s1.orderMax) (h2 : s2.orderMin ≤ s2.orderMax) :
    min s1.orderMin s2.orderMin ≤ Series.sumMax s1 s2 := by
  unfold Series.sumMax
  cases s1.truncated <;> cases s2.truncated <;> simp <;> (try split_ifs) <;> omega

variable [Cpp S T] {ι : S →+* K}

theorem add_ok (hs : Sound ι R U) (h1 : Expands R p s1 A) (h2 : Expands R p s2 B) :
    ∃ z, Series.add s1 s2 = some z ∧ Expands R p z (A + B) ∧ z.orderMin = min s1.orderMin s2.orderMin ∧
      z.orderMax = Series.sumMax s1 s2 ∧ z.truncated = (s1.truncated || s2.truncated) := by
  unfold Series.add
  rw [if_neg (by rw [h1.param, h2.param]; simp)]
  obtain ⟨m, g1, g2, g3⟩ := mapM_ints (fun i =>
      if s1.hasTerm i && s2.hasTerm i then do Cpp.add (← s1.at' i) (← s2.at' i)
      else if s1.hasTerm i then s1.at' i
      else if s2.hasTerm i then s2.at' i
      else do Cpp.zeroLike (← s1.content[0]?)) (fun i x => R x ((A + B).coeff i))
      (min s1.orderMin s2.orderMin) (Series.sumMax s1 s2) (by
    intro i hi1 hi2
    have z1 : s1.hasTerm i = false → A.coeff i = 0 := fun h => h1.coeff_eq_zero h fun ht => hi2.trans (sumMax_le1 ht)
    have z2 : s2.hasTerm i = false → B.coeff i = 0 := fun h => h2.coeff_eq_zero h fun ht => hi2.trans (sumMax_le2 ht)
    rw [HahnSeries.coeff_add]
    cases e1 : s1.hasTerm i <;> cases e2 : s2.hasTerm i <;>
      simp only [Bool.and_self, Bool.and_false, Bool.and_true, Bool.false_eq_true, if_false, if_true]
    · rw [z1 e1, z2 e2, add_zero]
      obtain ⟨x, q1, q2⟩ := h1.get h1.pos
      rw [q1]
      exact hs.zeroLike q2
    · rw [z1 e1, zero_add]
      exact h2.at' (hasTerm_iff.1 e2).1 (hasTerm_iff.1 e2).2
    · rw [z2 e2, add_zero]
      exact h1.at' (hasTerm_iff.1 e1).1 (hasTerm_iff.1 e1).2
    · obtain ⟨x, q1, q2⟩ := h1.at' (hasTerm_iff.1 e1).1 (hasTerm_iff.1 e1).2
      obtain ⟨y, r1, r2⟩ := h2.at' (hasTerm_iff.1 e2).1 (hasTerm_iff.1 e2).2
      rw [q1, r1]
      exact hs.add q2 r2)
  have hle := min_le_sumMax h1.le h2.le
  have hlen : (m.length : ℤ) = Series.sumMax s1 s2 - min s1.orderMin s2.orderMin + 1 := by omega
  refine ⟨⟨_, _, m, _, _⟩, ?_, ⟨h1.param, hle, hlen, ?_, g3, ?_⟩, rfl, rfl, rfl⟩
  · rw [g1]; exact make_ok hle hlen
  · intro i hi
    rw [HahnSeries.coeff_add, h1.below i (lt_of_lt_of_le hi (min_le_left _ _)),
      h2.below i (lt_of_lt_of_le hi (min_le_right _ _)), add_zero]
  · intro ht i hi
    have ht := Bool.or_eq_false_iff.1 (show (s1.truncated || s2.truncated) = false from ht)
    have := le_sumMax1 ht.1 ht.2
    rw [HahnSeries.coeff_add, h1.above ht.1 i (lt_of_le_of_lt this.1 hi), h2.above ht.2 i (lt_of_le_of_lt this.2 hi), add_zero]

theorem sub_ok (hs : Sound ι R U) (h1 : Expands R p s1 A) (h2 : Expands R p s2 B) :
    ∃ z, Series.subtract s1 s2 = some z ∧ Expands R p z (A - B) ∧ z.orderMin = min s1.orderMin s2.orderMin ∧
      z.orderMax = Series.sumMax s1 s2 ∧ z.truncated = (s1.truncated || s2.truncated) := by
  unfold Series.subtract
  rw [if_neg (by rw [h1.param, h2.param]; simp)]
  obtain ⟨m, g1, g2, g3⟩ := mapM_ints (fun i =>
      if s1.hasTerm i && s2.hasTerm i then do Cpp.sub (← s1.at' i) (← s2.at' i)
      else if s1.hasTerm i then s1.at' i
      else if s2.hasTerm i then do Cpp.neg (← s2.at' i)
      else do Cpp.zeroLike (← s1.content[0]?)) (fun i x => R x ((A - B).coeff i))
      (min s1.orderMin s2.orderMin) (Series.sumMax s1 s2) (by
    intro i hi1 hi2
    have z1 : s1.hasTerm i = false → A.coeff i = 0 := fun h => h1.coeff_eq_zero h fun ht => hi2.trans (sumMax_le1 ht)
    have z2 : s2.hasTerm i = false → B.coeff i = 0 := fun h => h2.coeff_eq_zero h fun ht => hi2.trans (sumMax_le2 ht)
    rw [HahnSeries.coeff_sub]
    cases e1 : s1.hasTerm i <;> cases e2 : s2.hasTerm i <;>
      simp only [Bool.and_self, Bool.and_false, Bool.and_true, Bool.false_eq_true, if_false, if_true]
    · rw [z1 e1, z2 e2, sub_zero]
      obtain ⟨x, q1, q2⟩ := h1.get h1.pos
      rw [q1]
      exact hs.zeroLike q2
    · rw [z1 e1, zero_sub]
      obtain ⟨y, r1, r2⟩ := h2.at' (hasTerm_iff.1 e2).1 (hasTerm_iff.1 e2).2
      rw [r1]
      exact hs.neg r2
    · rw [z2 e2, sub_zero]
      exact h1.at' (hasTerm_iff.1 e1).1 (hasTerm_iff.1 e1).2
    · obtain ⟨x, q1, q2⟩ := h1.at' (hasTerm_iff.1 e1).1 (hasTerm_iff.1 e1).2
      obtain ⟨y, r1, r2⟩ := h2.at' (hasTerm_iff.1 e2).1 (hasTerm_iff.1 e2).2
      rw [q1, r1]
      exact hs.sub q2 r2)
  have hle := min_le_sumMax h1.le h2.le
  have hlen : (m.length : ℤ) = Series.sumMax s1 s2 - min s1.orderMin s2.orderMin + 1 := by omega
  refine ⟨⟨_, _, m, _, _⟩, ?_, ⟨h1.param, hle, hlen, ?_, g3, ?_⟩, rfl, rfl, rfl⟩
  · rw [g1]; exact make_ok hle hlen
  · intro i hi
    rw [HahnSeries.coeff_sub, h1.below i (lt_of_lt_of_le hi (min_le_left _ _)),
      h2.below i (lt_of_lt_of_le hi (min_le_right _ _)), sub_zero]
  · intro ht i hi
    have ht := Bool.or_eq_false_iff.1 (show (s1.truncated || s2.truncated) = false from ht)
    have := le_sumMax1 ht.1 ht.2
    rw [HahnSeries.coeff_sub, h1.above ht.1 i (lt_of_le_of_lt this.1 hi), h2.above ht.2 i (lt_of_le_of_lt this.2 hi), sub_zero]

/-! ### products -/

theorem coeff_mul_range {A B : HahnSeries ℤ K} {a b : ℤ} (hA : ∀ i, i < a → A.coeff i = 0)
    (hB : ∀ i, i < b → B.coeff i = 0) (k : ℕ) :
    (A * B).coeff (a + b + k) = ∑ d ∈ range (k + 1), A.coeff (a + d) * B.coeff (b + (k - d : ℕ)) := by
  rw [HahnSeries.coeff_mul]
  have e : ∑ d ∈ range (k + 1), A.coeff (a + d) * B.coeff (b + (k - d : ℕ)) =
      ∑ ij ∈ (range (k + 1)).image (fun d : ℕ => (a + (d : ℤ), b + ((k - d : ℕ) : ℤ))), A.coeff ij.1 * B.coeff ij.2 := by
    rw [Finset.sum_image]
    intro x _ y _ h
    simp only [Prod.mk.injEq] at h
    omega
  rw [e]
  apply Finset.sum_subset
  · intro ij h
    rw [Finset.mem_antidiagonal] at h
    obtain ⟨h1, h2, h3⟩ := h
    have g1 : a ≤ ij.1 := by by_contra hc; exact h1 (hA _ (by omega))
    have g2 : b ≤ ij.2 := by by_contra hc; exact h2 (hB _ (by omega))
    rw [Finset.mem_image]
    refine ⟨(ij.1 - a).toNat, by rw [Finset.mem_range]; omega, ?_⟩
    apply Prod.ext <;> simp <;> omega
  · intro ij h1 h2
    rw [Finset.mem_image] at h1
    obtain ⟨d, hd, rfl⟩ := h1
    rw [Finset.mem_antidiagonal] at h2
    rw [Finset.mem_range] at hd
    simp only [HahnSeries.mem_support] at h2
    by_contra hc
    exact h2 ⟨left_ne_zero_of_mul hc, right_ne_zero_of_mul hc, by omega⟩

theorem coeff_mul_below {A B : HahnSeries ℤ K} {a b : ℤ} (hA : ∀ i, i < a → A.coeff i = 0)
    (hB : ∀ i, i < b → B.coeff i = 0) (i : ℤ) (hi : i < a + b) : (A * B).coeff i = 0 := by
  rw [HahnSeries.coeff_mul]
  apply Finset.sum_eq_zero
  intro ij h
  rw [Finset.mem_antidiagonal] at h
  obtain ⟨h1, h2, h3⟩ := h
  by_cases g : ij.1 < a
  · rw [hA _ g, zero_mul]
  · rw [hB _ (by omega), mul_zero]

theorem foldlM_inv {α β : Type*} (f : β → α → Option β) (Inv : List α → β → Prop) (Q : List α) (c0 : β)
    (h0 : Inv [] c0)
    (hstep : ∀ P q rest c, Q = P ++ q :: rest → Inv P c → ∃ c', f c q = some c' ∧ Inv (P ++ [q]) c') :
    ∃ c, Q.foldlM f c0 = some c ∧ Inv Q c := by
  suffices h : ∀ rest P c, Q = P ++ rest → Inv P c → ∃ c', rest.foldlM f c = some c' ∧ Inv Q c' from
    h Q [] c0 rfl h0
  intro rest
  induction rest with
  | nil => intro P c hQ hI; rw [List.append_nil] at hQ; subst hQ; exact ⟨c, rfl, hI⟩
  | cons q rest ih =>
    intro P c hQ hI
    obtain ⟨c', h1, h2⟩ := hstep P q rest c hQ hI
    obtain ⟨c'', g1, g2⟩ := ih (P ++ [q]) c' (by rw [hQ]; simp) h2
    exact ⟨c'', by rw [List.foldlM_cons, h1]; exact g1, g2⟩

theorem foldlM_range {β : Type*} (f : β → ℕ → Option β) (Inv : ℕ → β → Prop) (n : ℕ) (c0 : β) (h0 : Inv 0 c0)
    (hstep : ∀ i c, i < n → Inv i c → ∃ c', f c i = some c' ∧ Inv (i + 1) c') :
    ∃ c, (List.range n).foldlM f c0 = some c ∧ Inv n c := by
  induction n with
  | zero => exact ⟨c0, rfl, h0⟩
  | succ n ih =>
    obtain ⟨c, h1, h2⟩ := ih fun i c hi => hstep i c (by omega)
    obtain ⟨c', g1, g2⟩ := hstep n c (by omega) h2
    refine ⟨c', ?_, g2⟩
    rw [List.range_succ, List.foldlM_append, h1]
    simp [g1]

/-- the pairs of orders in the order of the loops -/
def pairs (s1 s2 : Series T) : List (ℤ × ℤ) :=
  (Series.ints s1.orderMin s1.orderMax).flatMap fun i => (Series.ints s2.orderMin s2.orderMax).map fun j => (i, j)

theorem mem_pairs {q : ℤ × ℤ} : q ∈ pairs s1 s2 ↔
    (s1.orderMin ≤ q.1 ∧ q.1 ≤ s1.orderMax) ∧ s2.orderMin ≤ q.2 ∧ q.2 ≤ s2.orderMax := by
  unfold pairs
  rw [List.mem_flatMap]
  constructor
  · rintro ⟨i, hi, hq⟩
    rw [List.mem_map] at hq
    obtain ⟨j, hj, rfl⟩ := hq
    exact ⟨mem_ints.1 hi, mem_ints.1 hj⟩
  · rintro ⟨h1, h2⟩
    exact ⟨q.1, mem_ints.2 h1, List.mem_map.2 ⟨q.2, mem_ints.2 h2, rfl⟩⟩

theorem pairwise_ints (a b : ℤ) : (Series.ints a b).Pairwise (· < ·) := by
  unfold Series.ints
  rw [List.pairwise_map]
  exact List.pairwise_lt_range.imp fun h => by omega

theorem pairwise_pairs : (pairs s1 s2).Pairwise fun q r => q.1 < r.1 ∨ (q.1 = r.1 ∧ q.2 < r.2) := by
  unfold pairs
  rw [List.pairwise_flatMap]
  constructor
  · intro i _
    rw [List.pairwise_map]
    exact (pairwise_ints _ _).imp fun h => Or.inr ⟨rfl, h⟩
  · refine (pairwise_ints _ _).imp fun {i i'} h => ?_
    intro q hq r hr
    rw [List.mem_map] at hq hr
    obtain ⟨_, _, rfl⟩ := hq
    obtain ⟨_, _, rfl⟩ := hr
    exact Or.inl h

theorem pred_mem {P rest : List (ℤ × ℤ)} {q : ℤ × ℤ} (h : pairs s1 s2 = P ++ q :: rest)
    (h0 : q.1 + q.2 ≠ s1.orderMin + s2.orderMin) : ∃ r ∈ P, r.1 + r.2 + 1 = q.1 + q.2 := by
  have hq := mem_pairs.1 (show q ∈ pairs s1 s2 by rw [h]; simp)
  have key : ∀ r : ℤ × ℤ, r ∈ pairs s1 s2 → (r.1 < q.1 ∨ (r.1 = q.1 ∧ r.2 < q.2)) → r ∈ P := by
    intro r hr hlt
    rw [h, List.mem_append, List.mem_cons] at hr
    rcases hr with hr | rfl | hr
    · exact hr
    · omega
    · have := pairwise_pairs (s1 := s1) (s2 := s2)
      rw [h, List.pairwise_append, List.pairwise_cons] at this
      have := this.2.1.1 r hr
      omega
  by_cases h1 : s1.orderMin < q.1
  · exact ⟨(q.1 - 1, q.2), key _ (mem_pairs.2 ⟨⟨by simp; omega, by simp; omega⟩, hq.2⟩) (Or.inl (by simp)), by simp; omega⟩
  · exact ⟨(q.1, q.2 - 1), key _ (mem_pairs.2 ⟨hq.1, by simp; omega, by simp; omega⟩)
      (Or.inr ⟨rfl, by simp⟩), by simp; omega⟩

theorem mulMax_le1 (h : s1.truncated = true) : Series.mulMax s1 s2 ≤ s1.orderMax + s2.orderMin := by
  unfold Series.mulMax; rw [h]; cases s2.truncated <;> simp
theorem mulMax_le2 (h : s2.truncated = true) : Series.mulMax s1 s2 ≤ s1.orderMin + s2.orderMax := by
  unfold Series.mulMax; rw [h]; cases s1.truncated <;> simp
theorem mulMax_le : Series.mulMax s1 s2 ≤ s1.orderMax + s2.orderMax := by
  unfold Series.mulMax; cases s1.truncated <;> cases s2.truncated <;> simp
theorem mulMax_eq (h1 : s1.truncated = false) (h2 : s2.truncated = false) :
    Series.mulMax s1 s2 = s1.orderMax + s2.orderMax := by simp [Series.mulMax, h1, h2]
theorem le_mulMax (h1 : s1.orderMin ≤ s1.orderMax) (h2 : s2.orderMin ≤ s2.orderMax) :
    s1.orderMin + s2.orderMin ≤ Series.mulMax s1 s2 := by
  unfold Series.mulMax; cases s1.truncated <;> cases s2.truncated <;> simp <;> omega

/-- loop invariant of the product -/
structure MulInv (R : T → K → Prop) (s1 s2 : Series T) (A B : HahnSeries ℤ K) (P : List (ℤ × ℤ)) (c : List T) : Prop where
  done : ∀ q ∈ P, q.1 + q.2 ≤ Series.mulMax s1 s2 → q.1 + q.2 - (s1.orderMin + s2.orderMin) < c.length
  len : (c.length : ℤ) ≤ Series.mulMax s1 s2 - (s1.orderMin + s2.orderMin) + 1
  val : ∀ (k : ℕ) (x : T), c[k]? = some x → R x
    (P.map fun q => if q.1 + q.2 = s1.orderMin + s2.orderMin + k then A.coeff q.1 * B.coeff q.2 else 0).sum

theorem mul_step (hs : Sound ι R U) (h1 : Expands R p s1 A) (h2 : Expands R p s2 B) {P rest : List (ℤ × ℤ)}
    {q : ℤ × ℤ} {c : List T} (hQ : pairs s1 s2 = P ++ q :: rest) (hI : MulInv R s1 s2 A B P c) :
    ∃ c', Series.mulBody s1 s2 c q = some c' ∧ MulInv R s1 s2 A B (P ++ [q]) c' := by
  have hq := mem_pairs.1 (show q ∈ pairs s1 s2 by rw [hQ]; simp)
  unfold Series.mulBody
  by_cases hle : q.1 + q.2 ≤ Series.mulMax s1 s2
  · rw [if_pos (by
      simp only [Bool.and_eq_true, decide_eq_true_eq]
      exact ⟨⟨⟨by omega, hle⟩, hasTerm_iff.2 hq.1⟩, hasTerm_iff.2 hq.2⟩)]
    obtain ⟨x, x1, x2⟩ := h1.at' hq.1.1 hq.1.2
    obtain ⟨y, y1, y2⟩ := h2.at' hq.2.1 hq.2.2
    obtain ⟨t, t1, t2⟩ := hs.mul x2 y2
    set k := (q.1 + q.2 - (s1.orderMin + s2.orderMin)).toNat with hk
    have hkk : q.1 + q.2 = s1.orderMin + s2.orderMin + k := by omega
    have hkl : k ≤ c.length := by
      by_cases h0 : q.1 + q.2 = s1.orderMin + s2.orderMin
      · omega
      · obtain ⟨r, r1, r2⟩ := pred_mem hQ h0
        have := hI.done r r1 (by omega)
        omega
    rw [x1, y1]
    by_cases hlt : k < c.length
    · obtain ⟨u, u1, u2⟩ := hs.add (hI.val k _ (List.getElem?_eq_getElem hlt)) t2
      rw [List.getElem?_eq_getElem hlt]
      simp only [Option.bind_eq_bind, Option.bind_some, t1, u1]
      refine ⟨_, rfl, ?_, by rw [List.length_set]; exact hI.len, ?_⟩
      · intro r hr hr2
        rw [List.length_set]
        rcases List.mem_append.1 hr with hr | hr
        · exact hI.done r hr hr2
        · rw [List.mem_singleton] at hr; subst hr; omega
      · intro k' z hz
        rw [List.map_append, List.sum_append, List.map_singleton, List.sum_singleton]
        by_cases hkk' : k = k'
        · subst hkk'
          rw [List.getElem?_set_self hlt] at hz
          cases hz
          rw [if_pos hkk]; exact u2
        · rw [List.getElem?_set_ne hkk'] at hz
          rw [if_neg (by omega), add_zero]
          exact hI.val k' z hz
    · have hke : k = c.length := by omega
      rw [List.getElem?_eq_none (by omega)]
      simp only [Option.bind_eq_bind, Option.bind_some, t1]
      refine ⟨_, rfl, ?_, by rw [List.length_append, List.length_singleton]; push_cast; omega, ?_⟩
      · intro r hr hr2
        rw [List.length_append, List.length_singleton]
        push_cast
        rcases List.mem_append.1 hr with hr | hr
        · have := hI.done r hr hr2; omega
        · rw [List.mem_singleton] at hr; subst hr; omega
      · intro k' z hz
        rw [List.map_append, List.sum_append, List.map_singleton, List.sum_singleton]
        by_cases hkk' : k' < c.length
        · rw [List.getElem?_append_left hkk'] at hz
          rw [if_neg (by omega), add_zero]
          exact hI.val k' z hz
        · have hk2 : k' = c.length := by
            have := (List.getElem?_eq_some_iff.1 hz).1
            rw [List.length_append, List.length_singleton] at this
            omega
          subst hk2
          rw [List.getElem?_append_right (le_refl _)] at hz
          simp at hz
          subst hz
          rw [if_pos (by omega)]
          have hz0 : (P.map fun q => if q.1 + q.2 = s1.orderMin + s2.orderMin + ((c.length : ℕ) : ℤ) then A.coeff q.1 * B.coeff q.2 else 0).sum = 0 := by
            apply List.sum_eq_zero
            intro v hv
            rw [List.mem_map] at hv
            obtain ⟨r, hr, rfl⟩ := hv
            split
            · rename_i hre
              have := hI.done r hr (by omega)
              omega
            · rfl
          rw [hz0, zero_add]; exact t2
  · rw [if_neg (by
      simp only [Bool.and_eq_true, decide_eq_true_eq]
      rintro ⟨⟨⟨_, h⟩, _⟩, _⟩; exact hle h)]
    refine ⟨c, rfl, ?_, hI.len, ?_⟩
    · intro r hr hr2
      rcases List.mem_append.1 hr with hr | hr
      · exact hI.done r hr hr2
      · rw [List.mem_singleton] at hr; subst hr; exact absurd hr2 hle
    · intro k' z hz
      have hkl := (List.getElem?_eq_some_iff.1 hz).1
      have := hI.len
      rw [List.map_append, List.sum_append, List.map_singleton, List.sum_singleton, if_neg (by omega), add_zero]
      exact hI.val k' z hz

theorem sum_ints (a b : ℤ) (f : ℤ → K) : ((Series.ints a b).map f).sum = ∑ d ∈ range (b + 1 - a).toNat, f (a + d) := by
  unfold Series.ints
  rw [List.map_map]
  rfl

theorem sum_flatMap' {α β : Type*} (l : List α) (g : α → List β) (f : β → K) :
    ((l.flatMap g).map f).sum = (l.map fun a => ((g a).map f).sum).sum := by
  induction l with
  | nil => simp
  | cons a l ih => simp [ih]

theorem sum_pairs (h1 : Expands R p s1 A) (h2 : Expands R p s2 B) (k : ℕ)
    (hk : s1.orderMin + s2.orderMin + k ≤ Series.mulMax s1 s2) :
    ((pairs s1 s2).map fun q => if q.1 + q.2 = s1.orderMin + s2.orderMin + k then A.coeff q.1 * B.coeff q.2 else 0).sum
      = (A * B).coeff (s1.orderMin + s2.orderMin + k) := by
  rw [coeff_mul_range h1.below h2.below]
  unfold pairs
  rw [sum_flatMap', sum_ints]
  have hin : ∀ d : ℕ, ((List.map (fun j => (s1.orderMin + (d : ℤ), j)) (Series.ints s2.orderMin s2.orderMax)).map
      fun q : ℤ × ℤ => if q.1 + q.2 = s1.orderMin + s2.orderMin + k then A.coeff q.1 * B.coeff q.2 else 0).sum =
      if d ≤ k then A.coeff (s1.orderMin + d) * B.coeff (s2.orderMin + (k - d : ℕ)) else 0 := by
    intro d
    rw [List.map_map, sum_ints]
    simp only [Function.comp]
    by_cases hd : d ≤ k
    · rw [if_pos hd]
      by_cases he : k - d < (s2.orderMax + 1 - s2.orderMin).toNat
      · rw [Finset.sum_eq_single (k - d)]
        · rw [if_pos (by omega)]
        · intro e _ hne; rw [if_neg (by omega)]
        · intro hn; exact absurd (Finset.mem_range.2 he) hn
      · rw [Finset.sum_eq_zero]
        · symm
          rw [h2.coeff_eq_zero (i := s2.orderMin + (k - d : ℕ)), mul_zero]
          · by_contra hc
            rw [Bool.not_eq_false] at hc
            have := hasTerm_iff.1 hc
            omega
          · intro ht
            have := mulMax_le2 (s1 := s1) ht
            omega
        · intro e he'
          rw [Finset.mem_range] at he'
          rw [if_neg (by omega)]
    · rw [if_neg hd]
      apply Finset.sum_eq_zero
      intro e _
      rw [if_neg (by omega)]
  rw [Finset.sum_congr rfl fun d _ => hin d]
  have hz : ∀ d : ℕ, ¬ d < (s1.orderMax + 1 - s1.orderMin).toNat → d ≤ k → A.coeff (s1.orderMin + d) = 0 := by
    intro d hd hdk
    apply h1.coeff_eq_zero
    · by_contra hc
      rw [Bool.not_eq_false] at hc
      have := hasTerm_iff.1 hc
      omega
    · intro ht
      have := mulMax_le1 (s2 := s2) ht
      omega
  rw [← Finset.sum_filter]
  apply Finset.sum_subset
  · intro d hd
    rw [Finset.mem_filter] at hd
    exact Finset.mem_range.2 (by omega)
  · intro d hd hd2
    rw [Finset.mem_range] at hd
    rw [Finset.mem_filter, Finset.mem_range] at hd2
    rw [hz d (by omega) (by omega), zero_mul]

theorem coeff_mul_above (h1 : Expands R p s1 A) (h2 : Expands R p s2 B) (t1 : s1.truncated = false)
    (t2 : s2.truncated = false) (i : ℤ) (hi : s1.orderMax + s2.orderMax < i) : (A * B).coeff i = 0 := by
  rw [HahnSeries.coeff_mul]
  apply Finset.sum_eq_zero
  intro ij h
  rw [Finset.mem_antidiagonal] at h
  obtain ⟨_, _, h3⟩ := h
  by_cases g : s1.orderMax < ij.1
  · rw [h1.above t1 _ g, zero_mul]
  · rw [h2.above t2 _ (by omega), mul_zero]

theorem mul_ok (hs : Sound ι R U) (h1 : Expands R p s1 A) (h2 : Expands R p s2 B) :
    ∃ z, Series.multiply s1 s2 = some z ∧ Expands R p z (A * B) ∧ z.orderMin = s1.orderMin + s2.orderMin ∧
      z.orderMax = Series.mulMax s1 s2 ∧ z.truncated = (s1.truncated || s2.truncated) := by
  unfold Series.multiply
  rw [if_neg (by rw [h1.param, h2.param]; simp)]
  have hle := le_mulMax h1.le h2.le
  obtain ⟨c, g1, g2⟩ := foldlM_inv (Series.mulBody s1 s2) (MulInv R s1 s2 A B) (pairs s1 s2) []
    ⟨by simp, by simp; omega, by simp⟩ fun P q rest c hQ hI => mul_step hs h1 h2 hQ hI
  have hlen : (c.length : ℤ) = Series.mulMax s1 s2 - (s1.orderMin + s2.orderMin) + 1 := by
    apply le_antisymm g2.len
    have hm := mulMax_le (s1 := s1) (s2 := s2)
    have e1 := h1.le
    have e2 := h2.le
    have := g2.done (min s1.orderMax (Series.mulMax s1 s2 - s2.orderMin),
      Series.mulMax s1 s2 - min s1.orderMax (Series.mulMax s1 s2 - s2.orderMin))
      (mem_pairs.2 ⟨⟨by simp; omega, by simp⟩, by simp only; omega, by simp only; omega⟩) (by simp)
    simp only [add_sub_cancel] at this
    omega
  refine ⟨⟨_, _, c, _, _⟩, ?_, ⟨h1.param, hle, hlen, coeff_mul_below h1.below h2.below, ?_, ?_⟩, rfl, rfl, rfl⟩
  · rw [show (Series.ints s1.orderMin s1.orderMax).flatMap (fun i =>
      (Series.ints s2.orderMin s2.orderMax).map fun j => (i, j)) = pairs s1 s2 from rfl, g1]
    exact make_ok hle hlen
  · intro k x hx
    have hk := (List.getElem?_eq_some_iff.1 hx).1
    have hk : k < c.length := hk
    have := g2.val k x hx
    rwa [sum_pairs h1 h2 k (by omega)] at this
  · intro ht i hi
    have ht := Bool.or_eq_false_iff.1 (show (s1.truncated || s2.truncated) = false from ht)
    exact coeff_mul_above h1 h2 ht.1 ht.2 i (by rw [← mulMax_eq ht.1 ht.2]; exact hi)

/-! ### elementwise operations -/

theorem map_ok {p' : String} (f : T → Option T) (g : K → K) (hg : g 0 = 0) (hp : s.param = p')
    (hf : ∀ x a, R x a → ∃ z, f x = some z ∧ R z (g a)) (h : Expands R p s A) (G : HahnSeries ℤ K)
    (hG : ∀ i, G.coeff i = g (A.coeff i)) :
    ∃ z, ((Series.ints s.orderMin s.orderMax).mapM fun i => (s.at' i).bind f).bind (fun l =>
        Series.make s.orderMin s.orderMax l s.truncated s.param) = some z ∧ Expands R p z G ∧ z.orderMin = s.orderMin ∧
      z.orderMax = s.orderMax ∧ z.truncated = s.truncated := by
  obtain ⟨m, g1, g2, g3⟩ := mapM_ints (fun i => (s.at' i).bind f) (fun i x => R x (G.coeff i)) s.orderMin s.orderMax (by
    intro i hi1 hi2
    obtain ⟨x, x1, x2⟩ := h.at' hi1 hi2
    rw [x1, hG]
    exact hf x _ x2)
  have hlen : (m.length : ℤ) = s.orderMax - s.orderMin + 1 := by have := h.le; omega
  refine ⟨⟨_, _, m, _, _⟩, ?_, ⟨h.param, h.le, hlen, ?_, g3, ?_⟩, rfl, rfl, rfl⟩
  · rw [g1]; exact make_ok h.le hlen
  · intro i hi; rw [hG, h.below i hi, hg]
  · intro ht i hi; rw [hG, h.above ht i hi, hg]

theorem neg_ok (hs : Sound ι R U) (h : Expands R p s A) :
    ∃ z, Series.negate s = some z ∧ Expands R p z (-A) ∧ z.orderMin = s.orderMin ∧
      z.orderMax = s.orderMax ∧ z.truncated = s.truncated :=
  map_ok _ (fun a => -a) neg_zero h.param (fun _ _ hx => hs.neg hx) h (-A) fun i => by simp

theorem smul_ok (hs : Sound ι R U) (c : S) (h : Expands R p s A) :
    ∃ z, Series.multiplyScalar true s c = some z ∧ Expands R p z (constHom ι c * A) ∧ z.orderMin = s.orderMin ∧
      z.orderMax = s.orderMax ∧ z.truncated = s.truncated := by
  refine map_ok (fun x => Cpp.smul c x) (fun a => ι c * a) (mul_zero _) h.param (fun _ _ hx => hs.smul c hx) h _ fun i => ?_
  simp [constHom, HahnSeries.C_apply, HahnSeries.coeff_single_zero_mul]

theorem muls_ok (hs : Sound ι R U) (c : S) (h : Expands R p s A) :
    ∃ z, Series.multiplyScalar false s c = some z ∧ Expands R p z (A * constHom ι c) ∧ z.orderMin = s.orderMin ∧
      z.orderMax = s.orderMax ∧ z.truncated = s.truncated := by
  refine map_ok (fun x => Cpp.muls x c) (fun a => a * ι c) (zero_mul _) h.param (fun _ _ hx => hs.muls c hx) h _ fun i => ?_
  simp [constHom, HahnSeries.C_apply]

theorem divs_ok (hs : Sound ι R U) (c : S) (hc : c ≠ 0) (h : Expands R p s A) :
    ∃ z, Series.divideScalar s c = some z ∧ Expands R p z (A / constHom ι c) ∧ z.orderMin = s.orderMin ∧
      z.orderMax = s.orderMax ∧ z.truncated = s.truncated := by
  have hG : ∀ i, (A / constHom ι c).coeff i = A.coeff i / ι c := by
    intro i
    rw [div_eq_mul_inv, ← map_inv₀, div_eq_mul_inv, ← map_inv₀]
    simp [constHom, HahnSeries.C_apply]
  unfold Series.divideScalar
  obtain ⟨m, g1, g2, g3⟩ := mapM_list (fun x => Cpp.divs x c)
    (fun x z => ∀ a, R x a → R z (a / ι c)) s.content (by
      intro x hx
      obtain ⟨k, hk⟩ := List.mem_iff_getElem?.1 hx
      obtain ⟨z, z1, _⟩ := hs.divs c hc (h.coeff k x hk)
      refine ⟨z, z1, fun a ha => ?_⟩
      obtain ⟨z', z2, z3⟩ := hs.divs c hc ha
      rw [z1] at z2; cases z2; exact z3)
  have hlen : (m.length : ℤ) = s.orderMax - s.orderMin + 1 := by rw [g2]; exact h.len
  refine ⟨⟨_, _, m, _, _⟩, ?_, ⟨h.param, h.le, hlen, ?_, ?_, ?_⟩, rfl, rfl, rfl⟩
  · rw [g1]; exact make_ok h.le hlen
  · intro i hi; rw [hG, h.below i hi, zero_div]
  · intro k z hz
    have hk : k < s.content.length := by rw [← g2]; exact (List.getElem?_eq_some_iff.1 hz).1
    rw [hG]
    exact g3 k _ z (List.getElem?_eq_getElem hk) hz _ (h.coeff k _ (List.getElem?_eq_getElem hk))
  · intro ht i hi; rw [hG, h.above ht i hi, zero_div]

theorem const_ok {x : T} {a : K} (hx : R x a) : ∃ z, Series.make 0 0 [x] false p = some z ∧ Expands R p z (HahnSeries.C a) ∧
    z.orderMin = 0 ∧ z.orderMax = 0 ∧ z.truncated = false := by
  refine ⟨⟨0, 0, [x], false, p⟩, make_ok le_rfl (by simp), ⟨rfl, le_rfl, by simp, ?_, ?_, ?_⟩, rfl, rfl, rfl⟩
  · intro i hi
    rw [HahnSeries.C_apply, HahnSeries.coeff_single_of_ne (ne_of_lt hi)]
  · intro k y hy
    cases k with
    | zero => simp at hy; subst hy; simpa [HahnSeries.C_apply] using hx
    | succ k => simp at hy
  · intro _ i hi
    rw [HahnSeries.C_apply, HahnSeries.coeff_single_of_ne (ne_of_gt hi)]

theorem zeroLike_ok (hs : Sound ι R U) (h : Expands R p s A) :
    ∃ z, Series.zeroLike s = some z ∧ Expands R p z 0 := by
  obtain ⟨x, x1, x2⟩ := h.get h.pos
  obtain ⟨y, y1, y2⟩ := hs.zeroLike x2
  obtain ⟨z, z1, z2, _⟩ := const_ok (p := p) y2
  refine ⟨z, ?_, by rwa [map_zero] at z2⟩
  simp only [Series.zeroLike, x1, h.param, Option.bind_eq_bind, Option.bind_some, y1]
  exact z1

theorem ofScalar_ok (hs : Sound ι R U) (c : S) (h : Expands R p s A) :
    ∃ z, Series.ofScalar s c = some z ∧ Expands R p z (constHom ι c) ∧
    z.orderMin = 0 ∧ z.orderMax = 0 ∧ z.truncated = false := by
  obtain ⟨x, x1, x2⟩ := h.get h.pos
  obtain ⟨y, y1, y2⟩ := hs.ofScalar c x2
  obtain ⟨z, z1, z2, z3⟩ := const_ok (p := p) y2
  refine ⟨z, ?_, z2, z3⟩
  simp only [Series.ofScalar, x1, h.param, Option.bind_eq_bind, Option.bind_some, y1]
  exact z1

/-! ### quotients -/

/-- number of computed orders -/
theorem divMax_lt1 (h : s1.truncated = true) :
    Series.divMax s1 s2 - (s1.orderMin - s2.orderMin) + 1 ≤ s1.content.length := by
  unfold Series.divMax; rw [h]; cases s2.truncated <;> simp <;> omega
theorem divMax_lt2 (h : s2.truncated = true) :
    Series.divMax s1 s2 - (s1.orderMin - s2.orderMin) + 1 ≤ s2.content.length := by
  unfold Series.divMax; rw [h]; cases s1.truncated <;> simp <;> omega
theorem divMax_lt : Series.divMax s1 s2 - (s1.orderMin - s2.orderMin) + 1 ≤
    (max s1.content.length s2.content.length : ℕ) := by
  unfold Series.divMax; cases s1.truncated <;> cases s2.truncated <;> simp <;> omega
theorem le_divMax (h1 : 0 < s1.content.length) (h2 : 0 < s2.content.length) :
    s1.orderMin - s2.orderMin ≤ Series.divMax s1 s2 := by
  unfold Series.divMax; cases s1.truncated <;> cases s2.truncated <;> simp <;> omega

theorem Expands.coeff_out (h : Expands R p s A) {i : ℕ} (hi : s.content.length ≤ i)
    (ht : s.truncated = true → i < s.content.length) : A.coeff (s.orderMin + i) = 0 := by
  cases hb : s.truncated with
  | false => exact h.above hb _ (by have := h.len; omega)
  | true => have := ht hb; omega

section div
variable (h1 : Expands R p s1 A) (h2 : Expands R p s2 B) (hB : B.coeff s2.orderMin ≠ 0)
include h1 h2 hB

theorem B_ne : B ≠ 0 := by rintro rfl; exact hB (by simp)

theorem div_below (i : ℤ) (hi : i < s1.orderMin - s2.orderMin) : (A / B).coeff i = 0 := by
  by_contra hc
  have hB0 : B ≠ 0 := B_ne h1 h2 hB
  have hD0 : A / B ≠ 0 := by intro h; rw [h] at hc; simp at hc
  have hA : A / B * B = A := div_mul_cancel₀ A hB0
  have hA0 : A ≠ 0 := by intro h; rw [h, zero_div] at hD0; exact hD0 rfl
  have o1 : (A / B).order ≤ i := HahnSeries.order_le_of_coeff_ne_zero hc
  have o2 : B.order ≤ s2.orderMin := HahnSeries.order_le_of_coeff_ne_zero hB
  have o3 := HahnSeries.order_mul hD0 hB0
  rw [hA] at o3
  have o4 : A.coeff A.order ≠ 0 := by rw [← HahnSeries.leadingCoeff_eq]; exact HahnSeries.leadingCoeff_ne_zero.2 hA0
  exact o4 (h1.below _ (by omega))

theorem div_rec (i : ℕ) : A.coeff (s1.orderMin + i) =
    (∑ j ∈ range i, (A / B).coeff (s1.orderMin - s2.orderMin + j) * B.coeff (s2.orderMin + (i - j : ℕ))) +
      (A / B).coeff (s1.orderMin - s2.orderMin + i) * B.coeff s2.orderMin := by
  have hB0 : B ≠ 0 := B_ne h1 h2 hB
  have := coeff_mul_range (div_below h1 h2 hB) h2.below i
  rw [div_mul_cancel₀ A hB0, sub_add_cancel, Finset.sum_range_succ] at this
  rw [this]; simp

theorem div_val (i : ℕ) : (A / B).coeff (s1.orderMin - s2.orderMin + i) =
    (A.coeff (s1.orderMin + i) - ∑ j ∈ range i, (A / B).coeff (s1.orderMin - s2.orderMin + j) *
      B.coeff (s2.orderMin + (i - j : ℕ))) / B.coeff s2.orderMin := by
  rw [div_rec h1 h2 hB i, add_sub_cancel_left, mul_div_cancel_right₀ _ hB]

end div

theorem divInner_ok (hs : Sound ι R U) (h1 : Expands R p s1 A) (h2 : Expands R p s2 B) (D : ℕ → K)
    {content : List T} {i : ℕ} (hi : 0 < i) (hc : content.length = i)
    (hcv : ∀ k x, content[k]? = some x → R x (D k))
    (hN : (i : ℤ) < Series.divMax s1 s2 - (s1.orderMin - s2.orderMin) + 1) (old : T) :
    ∃ r, (List.range i).foldlM (Series.divInner content s2.content i)
        (if h : i < s1.content.length then (s1.content[i], true) else (old, false)) = some (r, true) ∧
      R r (A.coeff (s1.orderMin + i) - ∑ j ∈ range i, D j * B.coeff (s2.orderMin + (i - j : ℕ))) := by
  have hA0 : ¬ i < s1.content.length → A.coeff (s1.orderMin + i) = 0 := fun h =>
    h1.coeff_out (by omega) fun ht => by have := divMax_lt1 (s2 := s2) ht; omega
  have hB0 : ∀ j, ¬ i - j < s2.content.length → B.coeff (s2.orderMin + (i - j : ℕ)) = 0 := fun j h =>
    h2.coeff_out (by omega) fun ht => by have := divMax_lt2 (s1 := s1) ht; omega
  obtain ⟨⟨r, b⟩, g1, g2⟩ := foldlM_range (Series.divInner content s2.content i)
    (fun j st => if st.2 = true then
        R st.1 (A.coeff (s1.orderMin + i) - ∑ j' ∈ range j, D j' * B.coeff (s2.orderMin + (i - j' : ℕ)))
      else s1.content.length ≤ i ∧ (∀ j' < j, s2.content.length ≤ i - j')) i
    (if h : i < s1.content.length then (s1.content[i], true) else (old, false))
    (by
      by_cases h : i < s1.content.length
      · rw [dif_pos h, if_pos rfl]
        simpa using h1.coeff i _ (List.getElem?_eq_getElem h)
      · rw [dif_neg h, if_neg (by simp)]
        exact ⟨by omega, by omega⟩)
    (by
      rintro j ⟨t, b⟩ hj hI
      unfold Series.divInner
      by_cases hin : i - j < s2.content.length
      · rw [if_pos hin]
        have hjc : j < content.length := by omega
        have q1 := List.getElem?_eq_getElem hjc
        have q2 := hcv j _ q1
        obtain ⟨y, y1, y2⟩ := h2.get hin
        cases b with
        | true =>
          rw [if_pos rfl] at hI
          obtain ⟨m, m1, m2⟩ := hs.mul q2 y2
          obtain ⟨w, w1, w2⟩ := hs.sub hI m2
          refine ⟨(w, true), ?_, ?_⟩
          · simp only [if_true, q1, y1, Option.bind_eq_bind, Option.bind_some, m1, w1]
          · rw [if_pos rfl, Finset.sum_range_succ, ← sub_sub]; exact w2
        | false =>
          rw [if_neg (by simp)] at hI
          obtain ⟨m, m1, m2⟩ := hs.neg q2
          obtain ⟨w, w1, w2⟩ := hs.mul m2 y2
          refine ⟨(w, true), ?_, ?_⟩
          · simp only [Bool.false_eq_true, if_false, q1, y1, Option.bind_eq_bind, Option.bind_some, m1, w1]
          · rw [if_pos rfl, Finset.sum_range_succ, hA0 (by omega), Finset.sum_eq_zero]
            · rw [zero_add, zero_sub, ← neg_mul]; exact w2
            · intro j' hj'
              rw [hB0 j' (by have := hI.2 j' (Finset.mem_range.1 hj'); omega), mul_zero]
      · rw [if_neg hin]
        refine ⟨_, rfl, ?_⟩
        cases b with
        | true =>
          rw [if_pos rfl] at hI ⊢
          rw [Finset.sum_range_succ, hB0 j hin, mul_zero, add_zero]
          exact hI
        | false =>
          rw [if_neg (by simp)] at hI ⊢
          refine ⟨hI.1, fun j' hj' => ?_⟩
          rcases Nat.lt_succ_iff_lt_or_eq.1 hj' with h | rfl
          · exact hI.2 j' h
          · omega)
  cases b with
  | true => rw [if_pos rfl] at g2; exact ⟨r, g1, g2⟩
  | false =>
    rw [if_neg (by simp)] at g2
    exfalso
    have := g2.2 (i - 1) (by omega)
    have h3 := divMax_lt (s1 := s1) (s2 := s2)
    have := h1.pos
    have := g2.1
    omega

theorem div_ok (hs : Sound ι R U) (h1 : Expands R p s1 A) (h2 : Expands R p s2 B) (hU : LeadUnit U s2) :
    ∃ z, Series.divide s1 s2 = some z ∧ Expands R p z (A / B) ∧ z.orderMin = s1.orderMin - s2.orderMin ∧
      z.orderMax = Series.divMax s1 s2 ∧
      z.truncated = (if s2.orderMin = s2.orderMax then s1.truncated || s2.truncated else true) := by
  obtain ⟨b0, u1, u2⟩ := hU
  have rb : R b0 (B.coeff s2.orderMin) := by have := h2.coeff 0 b0 u1; simpa using this
  have hB : B.coeff s2.orderMin ≠ 0 := hs.ne_zero rb u2
  obtain ⟨a0, v1, v2⟩ := h1.get h1.pos
  obtain ⟨t0, w1, w2⟩ := hs.div v2 rb u2
  have hle := le_divMax h1.pos h2.pos
  unfold Series.divide
  rw [if_neg (by rw [h1.param, h2.param]; simp)]
  obtain ⟨⟨c, t⟩, g1, g2, g3, _⟩ := foldlM_range (Series.divOuter s1.content s2.content)
    (fun i st => st.1.length = i ∧ (∀ (k : ℕ) (x : T), st.1[k]? = some x → R x ((A / B).coeff (s1.orderMin - s2.orderMin + k))) ∧
      (i = 0 → R st.2 ((A / B).coeff (s1.orderMin - s2.orderMin + i))))
    (Series.divMax s1 s2 - (s1.orderMin - s2.orderMin) + 1).toNat ([], t0)
    (by
      refine ⟨rfl, by simp, fun _ => ?_⟩
      rw [div_val h1 h2 hB 0]; simpa using w2)
    (by
      rintro i ⟨c, t⟩ hi ⟨i1, i2, i3⟩
      have push : ∀ x, R x ((A / B).coeff (s1.orderMin - s2.orderMin + i)) →
          ∀ (k : ℕ) (y : T), (c ++ [x])[k]? = some y → R y ((A / B).coeff (s1.orderMin - s2.orderMin + k)) := by
        intro x hx k y hy
        have i1 : c.length = i := i1
        by_cases hk : k < c.length
        · rw [List.getElem?_append_left hk] at hy; exact i2 k y hy
        · have hk2 : k = c.length := by
            have := (List.getElem?_eq_some_iff.1 hy).1
            rw [List.length_append, List.length_singleton] at this
            omega
          subst hk2
          rw [List.getElem?_append_right (le_refl _)] at hy
          simp at hy
          subst hy
          rw [i1]; exact hx
      unfold Series.divOuter
      by_cases h0 : i = 0
      · rw [if_pos h0]
        exact ⟨_, rfl, by simp [i1], push t (i3 h0), by omega⟩
      · rw [if_neg h0]
        obtain ⟨r, r1, r2⟩ := divInner_ok hs h1 h2 (fun k => (A / B).coeff (s1.orderMin - s2.orderMin + k))
          (content := c) (i := i) (by omega) i1 i2 (by omega) t
        obtain ⟨q, q1, q2⟩ := hs.div r2 rb u2
        refine ⟨(c ++ [q], q), ?_, by simpa using i1, push q ?_, by omega⟩
        · by_cases hlt : i < s1.content.length
          · rw [dif_pos hlt] at r1
            simp only [if_pos hlt, List.getElem?_eq_getElem hlt, Option.bind_eq_bind, Option.bind_some, r1, u1, q1]
          · rw [dif_neg hlt] at r1
            simp only [if_neg hlt, Option.bind_eq_bind, Option.bind_some, r1, u1, q1]
        · rw [div_val h1 h2 hB i]; exact q2)
  have hlen : (c.length : ℤ) = Series.divMax s1 s2 - (s1.orderMin - s2.orderMin) + 1 := by
    have g2 : c.length = _ := g2
    omega
  refine ⟨⟨_, _, c, _, _⟩, ?_, ⟨h1.param, hle, hlen, div_below h1 h2 hB, g3, ?_⟩, rfl, rfl, rfl⟩
  · simp only [v1, u1, Option.bind_eq_bind, Option.bind_some, w1, g1]
    exact make_ok hle hlen
  · intro ht
    have ht : (if s2.orderMin = s2.orderMax then s1.truncated || s2.truncated else true) = false := ht
    by_cases he : s2.orderMin = s2.orderMax
    · rw [if_pos he] at ht
      have ht := Bool.or_eq_false_iff.1 ht
      have l2 := h2.len
      have hz : ∀ n, (∀ m < n, s1.content.length ≤ m → (A / B).coeff (s1.orderMin - s2.orderMin + (m : ℕ)) = 0) →
          s1.content.length ≤ n → (A / B).coeff (s1.orderMin - s2.orderMin + (n : ℕ)) = 0 := by
        intro n _ hn
        rw [div_val h1 h2 hB, h1.coeff_out hn (by simp [ht.1]), Finset.sum_eq_zero, sub_zero, zero_div]
        intro j hj
        rw [Finset.mem_range] at hj
        rw [h2.coeff_out (i := n - j) (by omega) (by simp [ht.2]), mul_zero]
      intro i hi
      have hi : Series.divMax s1 s2 < i := hi
      have hdm : Series.divMax s1 s2 = s1.orderMin - s2.orderMin + ((max s1.content.length s2.content.length : ℕ) : ℤ) - 1 := by
        simp [Series.divMax, ht.1, ht.2]
      have hp := h1.pos
      have := hz (i - (s1.orderMin - s2.orderMin)).toNat (fun m _ hm => by
        rw [div_val h1 h2 hB, h1.coeff_out hm (by simp [ht.1]), Finset.sum_eq_zero, sub_zero, zero_div]
        intro j hj
        rw [Finset.mem_range] at hj
        rw [h2.coeff_out (i := m - j) (by omega) (by simp [ht.2]), mul_zero]) (by omega)
      rwa [show s1.orderMin - s2.orderMin + ((i - (s1.orderMin - s2.orderMin)).toNat : ℤ) = i by omega] at this
    · rw [if_neg he] at ht; simp at ht

/-- Nested series: if the coefficient operations are sound, so are the series operations. -/
theorem sound_series (p : String) (hs : Sound ι R U) :
    Sound (T := Series T) (constHom ι) (Expands R p) (LeadUnit U) where
  add h1 h2 := by obtain ⟨z, z1, z2, _⟩ := add_ok hs h1 h2; exact ⟨z, z1, z2⟩
  sub h1 h2 := by obtain ⟨z, z1, z2, _⟩ := sub_ok hs h1 h2; exact ⟨z, z1, z2⟩
  mul h1 h2 := by obtain ⟨z, z1, z2, _⟩ := mul_ok hs h1 h2; exact ⟨z, z1, z2⟩
  div h1 h2 hU := by obtain ⟨z, z1, z2, _⟩ := div_ok hs h1 h2 hU; exact ⟨z, z1, z2⟩
  neg h := by obtain ⟨z, z1, z2, _⟩ := neg_ok hs h; exact ⟨z, z1, z2⟩
  zeroLike h := zeroLike_ok hs h
  ofScalar c h := by obtain ⟨z, z1, z2, _⟩ := ofScalar_ok hs c h; exact ⟨z, z1, z2⟩
  smul c h := by obtain ⟨z, z1, z2, _⟩ := smul_ok hs c h; exact ⟨z, z1, z2⟩
  muls c h := by obtain ⟨z, z1, z2, _⟩ := muls_ok hs c h; exact ⟨z, z1, z2⟩
  divs c hc h := by obtain ⟨z, z1, z2, _⟩ := divs_ok hs c hc h; exact ⟨z, z1, z2⟩
  ne_zero h hU := by
    obtain ⟨x, x1, x2⟩ := hU
    have := hs.ne_zero (h.coeff 0 x x1) x2
    rintro rfl
    simp at this

theorem sound_field (K : Type*) [Field K] : @Sound K K K _ _ (Cpp.ofField K) (RingHom.id K) Eq (· ≠ 0) := by
  letI := Cpp.ofField K
  refine ⟨?_, ?_, ?_, ?_, ?_, ?_, ?_, ?_, ?_, ?_, ?_⟩
  · rintro x y _ _ rfl rfl; exact ⟨_, rfl, rfl⟩
  · rintro x y _ _ rfl rfl; exact ⟨_, rfl, rfl⟩
  · rintro x y _ _ rfl rfl; exact ⟨_, rfl, rfl⟩
  · rintro x y _ _ rfl rfl _; exact ⟨_, rfl, rfl⟩
  · rintro x _ rfl; exact ⟨_, rfl, rfl⟩
  · rintro x _ rfl; exact ⟨_, rfl, rfl⟩
  · rintro x _ c rfl; exact ⟨_, rfl, rfl⟩
  · rintro x _ c rfl; exact ⟨_, rfl, rfl⟩
  · rintro x _ c rfl; exact ⟨_, rfl, rfl⟩
  · rintro x _ c _ rfl; exact ⟨_, rfl, rfl⟩
  · rintro x _ rfl h; exact h

end
end Cxx
end SecDec
