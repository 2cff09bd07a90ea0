import Verif.Proof.SamplerReduce
import Mathlib.Data.List.Range
/-
Proofs for C68: the loop over packages of shifts, and the loop of the integrator.
-/
namespace SecDec
namespace Sampler

/-- What is known of the previous iterations: either nothing for the size `n`, or the estimate of the values `l`. -/
def Prev (previous : List Result) (n : ℕ) (l : List ℂ) (ev : ℕ) : Prop :=
  previous.head?.elim 0 Result.evaluations = ev ∧
    (l = [] ∧ (∀ p ∈ previous.head?, p.n ≠ n) ∨ 2 ≤ l.length ∧ ∃ p rest, previous = p :: rest ∧ Holds p n l)

theorem reduce_prev (r : ℕ → ℂ) (rsize n m : ℕ) (hn : 0 < n) (previous : List Result) (l : List ℂ) (ev : ℕ) (hp : Prev previous n l ev)
    (h2 : l ≠ [] ∨ 2 ≤ m) :
    Holds (reduce r rsize n m previous).1 n (l ++ shiftSums r rsize m) ∧ (reduce r rsize n m previous).1.evaluations = n * m + ev ∧
      Prev (reduce r rsize n m previous).2 n (l ++ shiftSums r rsize m) (n * m + ev) ∧ 2 ≤ (l ++ shiftSums r rsize m).length := by
  obtain ⟨hev, h | ⟨hl, p, rest, rfl, h⟩⟩ := hp
  · obtain ⟨rfl, h⟩ := h
    obtain ⟨h1, h3, h4⟩ := reduce_fresh r rsize n m previous h
    have hm : 2 ≤ m := by rcases h2 with h2 | h2; exact absurd rfl h2; exact h2
    rw [hev] at h4
    rw [List.nil_append]
    refine ⟨h1, h4, ⟨?_, .inr ⟨?_, _, _, h3, h1⟩⟩, ?_⟩
    · rw [h3]; exact h4
    · rwa [shiftSums_length]
    · rwa [shiftSums_length]
  · obtain ⟨h1, h3, h4⟩ := reduce_more r rsize n m hn p rest l hl h
    have hev' : p.evaluations = ev := hev
    rw [hev'] at h4
    refine ⟨h1, h4, ⟨?_, .inr ⟨?_, _, _, h3, h1⟩⟩, ?_⟩
    · rw [h3]; exact h4
    · rw [List.length_append]; omega
    · rw [List.length_append]; omega

theorem sampleLoop_spec (T : ℕ) (rs : ℕ → ℕ → ℂ) (n m maxm : ℕ) (hn : 0 < n) (its : List ℕ) : ∀ (res : Option Result) (previous : List Result)
    (l : List ℂ) (ev : ℕ), Prev previous n l ev → its ≠ [] → (l ≠ [] ∨ ∀ i ∈ its.head?, 2 ≤ shiftsOf m maxm i) →
    ∃ out prev', sampleLoop T rs n m maxm its res previous = (some out, prev') ∧
      Holds out n (l ++ its.flatMap fun i => shiftSums (rs i) (shiftsOf m maxm i * T) (shiftsOf m maxm i)) ∧
      out.evaluations = n * (its.map (shiftsOf m maxm)).sum + ev ∧
      Prev prev' n (l ++ its.flatMap fun i => shiftSums (rs i) (shiftsOf m maxm i * T) (shiftsOf m maxm i)) (n * (its.map (shiftsOf m maxm)).sum + ev) ∧
      2 ≤ (l ++ its.flatMap fun i => shiftSums (rs i) (shiftsOf m maxm i * T) (shiftsOf m maxm i)).length := by
  induction its with
  | nil => intro _ _ _ _ _ h; exact absurd rfl h
  | cons i its ih =>
    intro res previous l ev hp _ h2
    obtain ⟨a1, a2, a3, a4⟩ := reduce_prev (rs i) (shiftsOf m maxm i * T) n (shiftsOf m maxm i) hn previous l ev hp
      (h2.imp id fun h => h i rfl)
    rw [sampleLoop]
    simp only [List.flatMap_cons, List.map_cons, List.sum_cons]
    by_cases hits : its = []
    · subst hits
      refine ⟨_, _, rfl, ?_, ?_, ?_, ?_⟩
      · simpa using a1
      · simpa using a2
      · simpa using a3
      · simpa using a4
    · obtain ⟨out, prev', b1, b2, b3, b4, b5⟩ := ih _ _ _ a3 hits
        (.inl (by intro h; rw [h] at a4; simp at a4)) (res := some (reduce (rs i) (shiftsOf m maxm i * T) n (shiftsOf m maxm i) previous).1)
      rw [List.append_assoc] at b2 b4 b5
      refine ⟨out, prev', b1, b2, ?_, ?_, b5⟩
      · rw [b3]; ring
      · rw [Nat.mul_add, show n * shiftsOf m maxm i + n * (its.map (shiftsOf m maxm)).sum + ev
          = n * (its.map (shiftsOf m maxm)).sum + (n * shiftsOf m maxm i + ev) by ring]
        exact b4

/-- The iterations cover the shifts. -/
theorem shifts_cover (m maxm : ℕ) (hm : 0 < m) (hM : 0 < maxm) (S : ℕ → ℂ) :
    ((List.range ((m + maxm - 1) / maxm)).flatMap fun i => (List.range (shiftsOf m maxm i)).map fun k => S (i * maxm + k)) = (List.range m).map S ∧
      ((List.range ((m + maxm - 1) / maxm)).map (shiftsOf m maxm)).sum = m ∧ (m + maxm - 1) / maxm ≠ 0 := by
  obtain ⟨q, t, ht, rfl⟩ : ∃ q t, t < maxm ∧ m = q * maxm + t + 1 :=
    ⟨(m - 1) / maxm, (m - 1) % maxm, Nat.mod_lt _ hM, by have := Nat.div_add_mod (m - 1) maxm; rw [mul_comm]; omega⟩
  have hI : (q * maxm + t + 1 + maxm - 1) / maxm = q + 1 := by
    rw [show q * maxm + t + 1 + maxm - 1 = t + (q + 1) * maxm by ring_nf; omega, Nat.add_mul_div_right _ _ hM, Nat.div_eq_of_lt ht]; omega
  have hlast : shiftsOf (q * maxm + t + 1) maxm q = t + 1 := by
    unfold shiftsOf
    rw [hI, if_pos (by omega)]
    rcases Nat.lt_or_ge (t + 1) maxm with h | h
    · have : (q * maxm + t + 1) % maxm = t + 1 := by
        rw [add_assoc, Nat.mul_add_mod', Nat.mod_eq_of_lt h]
      rw [this, if_neg (by omega)]
    · have e : t + 1 = maxm := by omega
      have : (q * maxm + t + 1) % maxm = 0 := by
        rw [add_assoc, e, Nat.mul_add_mod', Nat.mod_self]
      rw [this, if_pos rfl]
      have h1 : maxm ≤ q * maxm + t + 1 := by
        have := Nat.zero_le (q * maxm); omega
      rw [min_eq_right h1]; exact e.symm
  have hfull : ∀ i < q, shiftsOf (q * maxm + t + 1) maxm i = maxm := by
    intro i hi
    unfold shiftsOf
    rw [hI, if_neg (by omega)]
    refine min_eq_right ?_
    have : 1 * maxm ≤ q * maxm := Nat.mul_le_mul_right _ (by omega)
    omega
  have hpart : ∀ c ≤ q, ((List.range c).flatMap fun i => (List.range (shiftsOf (q * maxm + t + 1) maxm i)).map fun k => S (i * maxm + k)) =
      (List.range (c * maxm)).map S := by
    intro c hc
    induction c with
    | zero => simp
    | succ c ih =>
      rw [List.range_succ, List.flatMap_append, ih (by omega)]
      simp only [List.flatMap_cons, List.flatMap_nil, List.append_nil]
      rw [hfull c (by omega), Nat.succ_mul, List.range_add, List.map_append, List.map_map]
      rfl
  have hsum : ∀ c ≤ q, ((List.range c).map (shiftsOf (q * maxm + t + 1) maxm)).sum = c * maxm := by
    intro c hc
    induction c with
    | zero => simp
    | succ c ih =>
      rw [List.range_succ, List.map_append, List.sum_append, ih (by omega)]
      simp only [List.map_cons, List.map_nil, List.sum_cons, List.sum_nil]
      rw [hfull c (by omega)]; ring
  rw [hI]
  refine ⟨?_, ?_, by omega⟩
  · rw [List.range_succ, List.flatMap_append, hpart q le_rfl]
    simp only [List.flatMap_cons, List.flatMap_nil, List.append_nil]
    have e := List.range_add (n := q * maxm) (m := t + 1)
    rw [hlast, add_assoc, e, List.map_append, List.map_map]
    rfl
  · rw [List.range_succ, List.map_append, List.sum_append, hsum q le_rfl]
    simp only [List.map_cons, List.map_nil, List.sum_cons, List.sum_nil]
    rw [hlast]; ring

theorem shiftSums_eq (r : ℕ → ℂ) (T m : ℕ) (S : ℕ → ℂ) (h : ∀ k < m, ∑ j ∈ Finset.range T, r (k * T + j) = S k) :
    shiftSums r (m * T) m = (List.range m).map S := by
  unfold shiftSums
  refine List.map_congr_left fun k hk => ?_
  rw [List.mem_range] at hk
  have hm : 0 < m := by omega
  rw [Nat.mul_div_cancel_left _ hm, ← h k hk]
  rw [show k * (m * T) / m = k * T by rw [show k * (m * T) = m * (k * T) by ring, Nat.mul_div_cancel_left _ hm]]
  have := List.sum_toFinset (f := fun i => r (k * T + i)) (List.nodup_range (n := T))
  rw [← this, List.toFinset_range]

theorem shiftsOf_zero (m maxm : ℕ) (hm : 2 ≤ m) (hM : 2 ≤ maxm) : 2 ≤ shiftsOf m maxm 0 := by
  unfold shiftsOf
  by_cases h : m ≤ maxm
  · have : (m + maxm - 1) / maxm = 1 := by
      rw [show m + maxm - 1 = (m - 1) + maxm by omega, Nat.add_div_right _ (by omega), Nat.div_eq_of_lt (by omega)]
    rw [this, if_pos rfl]
    rcases eq_or_lt_of_le h with h | h
    · subst h; simp [hm]
    · rw [Nat.mod_eq_of_lt h, if_neg (by omega)]; exact hm
  · have h2 : 1 ≤ (m - 1) / maxm := (Nat.le_div_iff_mul_le (by omega)).2 (by omega)
    have : (m + maxm - 1) / maxm = (m - 1) / maxm + 1 := by
      rw [show m + maxm - 1 = (m - 1) + maxm by omega, Nat.add_div_right _ (by omega)]
    rw [this, if_neg (by omega)]
    omega

/-- `sample` is the reduction of all shifts. -/
theorem sample_spec (T : ℕ) (rs : ℕ → ℕ → ℂ) (n m maxm : ℕ) (hn : 0 < n) (hm : 0 < m) (hM : 2 ≤ maxm) (S : ℕ → ℂ)
    (hS : ∀ it k, k < shiftsOf m maxm it → ∑ j ∈ Finset.range T, rs it (k * T + j) = S (it * maxm + k))
    (previous : List Result) (l : List ℂ) (ev : ℕ) (hp : Prev previous n l ev) (h2 : l ≠ [] ∨ 2 ≤ m) :
    ∃ out prev', sample T rs n m maxm previous = (some out, prev') ∧ Holds out n (l ++ (List.range m).map S) ∧
      out.evaluations = n * m + ev ∧ Prev prev' n (l ++ (List.range m).map S) (n * m + ev) ∧ 2 ≤ (l ++ (List.range m).map S).length := by
  obtain ⟨c1, c2, c3⟩ := shifts_cover m maxm hm (by omega) S
  have e : ((List.range ((m + maxm - 1) / maxm)).flatMap fun i => shiftSums (rs i) (shiftsOf m maxm i * T) (shiftsOf m maxm i)) = (List.range m).map S := by
    rw [← c1]
    congr 1; funext i
    exact shiftSums_eq (rs i) T _ (fun k => S (i * maxm + k)) fun k hk => hS i k hk
  have := sampleLoop_spec T rs n m maxm hn (List.range ((m + maxm - 1) / maxm)) none previous l ev hp
    (by intro h; rw [List.range_eq_nil] at h; exact c3 h) (h2.imp id fun h i hi => by
      obtain ⟨c, hc⟩ := Nat.exists_eq_succ_of_ne_zero c3
      rw [hc, List.range_succ_eq_map, List.head?_cons, Option.mem_some_iff] at hi
      subst hi
      exact shiftsOf_zero m maxm h hM)
  rw [e, c2] at this
  exact this

/-! ### The loop of the integrator -/

/-- A lattice size that can be used. -/
def Valid (O : Options) (n : ℕ) : Prop := n ∈ O.sizes ∨ 0 < O.latticecandidates ∧ ∀ t ∈ O.sizes, t < n

theorem getNextN_valid (O : Options) (p q : ℕ) (h : getNextN O p = some q) :
    Valid O q ∧ q < O.limit ∧ (q ∈ O.sizes ∧ p ≤ q ∧ (∀ t ∈ O.sizes, p ≤ t → q ≤ t) ∨ q = p ∨ q ≤ p) := by
  unfold getNextN at h
  dsimp only at h
  rw [Option.bind_eq_some_iff] at h
  obtain ⟨n, h1, h2⟩ := h
  split at h2
  · cases h2
  · rename_i hl
    rw [Option.some_inj] at h2
    subst h2
    push Not at hl
    split at h1
    · rename_i hne
      rw [Option.some_inj] at h1
      have hmem := Finset.min'_mem _ hne
      rw [h1, Finset.mem_filter] at hmem
      refine ⟨.inl hmem.1, hl, .inl ⟨hmem.1, hmem.2, fun t ht hpt => ?_⟩⟩
      rw [← h1]
      exact Finset.min'_le _ _ (Finset.mem_filter.2 ⟨ht, hpt⟩)
    · rename_i hne
      rw [Finset.not_nonempty_iff_eq_empty, Finset.filter_eq_empty_iff] at hne
      split at h1
      · rename_i hc
        rw [Option.some_inj] at h1
        subst h1
        exact ⟨.inr ⟨hc, fun t ht => not_le.1 (hne ht)⟩, hl, .inr (.inl rfl)⟩
      · split at h1
        · rename_i hs
          rw [Option.some_inj] at h1
          have hmem := Finset.max'_mem _ hs
          rw [h1] at hmem
          exact ⟨.inl hmem, hl, .inr (.inr (not_le.1 (hne hmem)).le)⟩
        · cases h1

theorem getNextN_le (O : Options) (p q n : ℕ) (h : getNextN O p = some q) (hn : Valid O n) (hp : p ≤ n) : q ≤ n := by
  obtain ⟨-, -, ⟨hq, h1, h2⟩ | rfl | h1⟩ := getNextN_valid O p q h
  · rcases hn with hn | ⟨-, hn⟩
    · exact h2 n hn hp
    · exact (hn q hq).le
  · exact hp
  · omega

theorem update_spec (O : Options) (res : Result) (n m n' m' : ℕ) (hn : 0 < n) (hv : Valid O n) (hm : 0 < m) (hminm : 2 ≤ O.minm)
    (hr : 1 < errorRatio O res) (hev : res.evaluations ≤ O.maxeval) (h : update O res n m = some (n', m')) :
    n ≤ n' ∧ 0 < m' ∧ (n' ≠ n → 2 ≤ m') ∧ Valid O n' := by
  unfold update at h
  dsimp only at h
  set ratio := min (errorRatio O res) 20 with hratio
  have hr1 : 1 ≤ ratio := le_min hr.le (by norm_num)
  rw [if_neg (not_lt.2 hr1), if_neg (not_lt.2 hev), Option.bind_eq_some_iff] at h
  obtain ⟨N, hN, h⟩ := h
  have hNv := (getNextN_valid O _ N hN).1
  have hM : 1 ≤ ⌊(m : ℝ) * ratio * ratio⌋₊ + 1 - m := by
    have : m ≤ ⌊(m : ℝ) * ratio * ratio⌋₊ := by
      refine Nat.le_floor ?_
      have hm0 : (0 : ℝ) ≤ m := by positivity
      nlinarith [mul_nonneg hm0 (sub_nonneg.2 hr1), mul_le_mul_of_nonneg_left hr1 hm0]
    omega
  by_cases hb : N ≤ n ∨ ratio * ratio - 1 < (N : ℝ) / n
  · simp only [hb, if_true] at h
    rw [Option.bind_eq_some_iff] at h
    obtain ⟨N2, hN2, h⟩ := h
    have e : N2 = n := by
      split at hN2
      · rename_i ho
        rw [Option.map_eq_some_iff] at hN2
        obtain ⟨q, hq, rfl⟩ := hN2
        refine max_eq_left (getNextN_le O _ q n hq hv ?_)
        refine (Nat.div_lt_of_lt_mul ?_).le
        rw [mul_comm]; omega
      · exact (Option.some_inj.1 hN2).symm
    subst e
    rw [Option.some_inj, Prod.mk.injEq] at h
    obtain ⟨rfl, rfl⟩ := h
    refine ⟨le_rfl, ?_, fun h => absurd rfl h, hv⟩
    split
    · exact lt_of_lt_of_le one_pos (le_max_left _ _)
    · exact hM
  · simp only [hb, if_false] at h
    rw [Option.bind_eq_some_iff] at h
    obtain ⟨N2, hN2, h⟩ := h
    have hNn : n < N := by
      by_contra hh
      exact hb (.inl (not_lt.1 hh))
    have e : n ≤ N2 ∧ Valid O N2 := by
      split at hN2
      · rw [Option.map_eq_some_iff] at hN2
        obtain ⟨q, hq, rfl⟩ := hN2
        refine ⟨le_max_left _ _, ?_⟩
        rcases le_total q n with hqn | hqn
        · rwa [max_eq_left hqn]
        · rw [max_eq_right hqn]; exact (getNextN_valid O _ q hq).1
      · rw [Option.some_inj] at hN2
        subst hN2
        exact ⟨hNn.le, hNv⟩
    rw [Option.some_inj, Prod.mk.injEq] at h
    obtain ⟨rfl, rfl⟩ := h
    refine ⟨e.1, ?_, fun hne => ?_, e.2⟩
    · split
      · exact lt_of_lt_of_le one_pos (le_max_left _ _)
      · omega
    · rw [if_neg (fun hh => hne hh.1.symm)]
      exact hminm

theorem update_none (O : Options) (res : Result) (n m : ℕ) (h : update O res n m = none) : ∃ p, getNextN O p = none := by
  by_contra hh
  push Not at hh
  have hs : ∀ p, ∃ q, getNextN O p = some q := fun p => Option.ne_none_iff_exists'.1 (hh p)
  unfold update at h
  dsimp only at h
  split at h
  · cases h
  split at h
  · cases h
  obtain ⟨q, hq⟩ := hs ⌊(n : ℝ) * (min (errorRatio O res) 20) ^ (1 / (0.8 : ℝ))⌋₊
  rw [hq, Option.bind_some] at h
  rw [Option.bind_eq_none_iff] at h
  have key : ∀ (c : Prop) [Decidable c] (a p : ℕ), ∃ v, (if c then (getNextN O p).map (max n) else some a) = some v := by
    intro c _ a p
    obtain ⟨v, hv⟩ := hs p
    by_cases hc : c
    · exact ⟨max n v, by rw [if_pos hc, hv]; rfl⟩
    · exact ⟨a, by rw [if_neg hc]⟩
  have fin : ∀ (x : Option ℕ), (∃ v, x = some v) → (∀ a, x = some a → False) → False := fun x ⟨v, hv⟩ hx => hx v hv
  split at h
  · exact fin _ (key _ _ _) fun a ha => absurd (h a ha) (by simp)
  · exact fin _ (key _ _ _) fun a ha => absurd (h a ha) (by simp)

theorem getNextN_none (O : Options) (p : ℕ) (h : getNextN O p = none) : O.sizes = ∅ ∨ (∃ t ∈ O.sizes, O.limit ≤ t) ∨ 0 < O.latticecandidates := by
  by_contra hh
  push Not at hh
  obtain ⟨h1, h2, h3⟩ := hh
  have key : ∀ t ∈ O.sizes, ¬ t ≥ O.limit := fun t ht => not_le.2 (h2 t ht)
  unfold getNextN at h
  dsimp only at h
  split at h
  · rename_i hne
    have := Finset.min'_mem _ hne
    rw [Finset.mem_filter] at this
    rw [Option.bind_some, if_neg (key _ this.1)] at h
    cases h
  · rw [if_neg (by omega), Option.bind_some, if_neg (key _ (Finset.max'_mem _ _))] at h
    cases h

theorem minRatio_le (e a s : ℝ) (_he : 0 ≤ e) (ha : 0 < a) (hs : 0 ≤ s) : minRatio e a s ≤ 1 ↔ e ≤ a ∨ e ≤ s := by
  unfold minRatio
  split
  · rename_i h
    rw [div_le_one ha]
    constructor
    · exact .inl
    · rintro (h1 | h1)
      · exact h1
      · linarith
  · rename_i h
    have hs' : 0 < s := lt_of_le_of_ne hs (Ne.symm h)
    rw [min_le_iff, div_le_one ha, div_le_one hs']

theorem reached_iff (O : Options) (ha : 0 < O.epsabs) (hrel : 0 ≤ O.epsrel) (res : Result) (h1 : 0 ≤ res.error.re) (h2 : 0 ≤ res.error.im) :
    errorRatio O res ≤ 1 ↔ Reached O res := by
  unfold errorRatio Reached
  split
  · rw [minRatio_le _ _ _ (le_max_of_le_left h1) ha (mul_nonneg (le_max_of_le_left (abs_nonneg _)) hrel), mul_comm O.epsrel]
  · rw [max_le_iff, minRatio_le _ _ _ h1 ha (abs_nonneg _), minRatio_le _ _ _ h2 ha (abs_nonneg _), abs_mul, abs_mul, abs_of_nonneg hrel,
      mul_comm O.epsrel, mul_comm O.epsrel]

/-- The calls of `sample` whose shifts are combined in the result: the number of the call and the number of its shifts. -/
def values (S : ℕ → ℕ → ℕ → ℂ) (n : ℕ) (calls : List (ℕ × ℕ)) : List ℂ := calls.flatMap fun c => (List.range c.2).map (S c.1 n)

theorem integrateLoop_spec (O : Options) (T : ℕ) (rs : ℕ → ℕ → ℕ → ℕ → ℕ → ℂ) (S : ℕ → ℕ → ℕ → ℂ) (hmaxm : 2 ≤ O.maxmperpackage) (hminm : 2 ≤ O.minm)
    (hS : ∀ call n m it k, 0 < n → k < shiftsOf m O.maxmperpackage it → ∑ j ∈ Finset.range T, rs call n m it (k * T + j) = S call n (it * O.maxmperpackage + k)) :
    ∀ (fuel call n m : ℕ) (previous : List Result) (calls : List (ℕ × ℕ)) (ev : ℕ),
      0 < n → Valid O n → 0 < m → Prev previous n (values S n calls) ev → (values S n calls ≠ [] ∨ 2 ≤ m) →
      (calls.map Prod.fst).Pairwise (· < ·) → (∀ c ∈ calls, c.1 < call ∧ 0 < c.2) → O.maxeval < ev + fuel → (0 < fuel) →
      (integrateLoop O T rs fuel call n m previous = some none ∧ ∃ p, getNextN O p = none) ∨
      ∃ res, integrateLoop O T rs fuel call n m previous = some (some res) ∧
        (errorRatio O res ≤ 1 ∨ O.maxeval ≤ res.evaluations) ∧ 0 < res.n ∧ Valid O res.n ∧
        ∃ calls : List (ℕ × ℕ), (calls.map Prod.fst).Pairwise (· < ·) ∧ (∀ c ∈ calls, 0 < c.2) ∧ 2 ≤ (values S res.n calls).length ∧
          Holds res res.n (values S res.n calls) := by
  intro fuel
  induction fuel with
  | zero => intro _ _ _ _ _ _ _ _ _ _ _ _ _ _ h; omega
  | succ fuel ih =>
    intro call n m previous calls ev hn hv hm hp h2 hsort hlt hfuel _
    obtain ⟨out, prev', s1, s2, s3, s4, s5⟩ := sample_spec T (rs call n m) n m O.maxmperpackage hn hm hmaxm (S call n)
      (fun it k hk => hS call n m it k hn hk) previous _ ev hp h2
    have hvals : values S n calls ++ (List.range m).map (S call n) = values S n (calls ++ [(call, m)]) := by simp [values]
    rw [hvals] at s2 s4 s5
    have hsort' : ((calls ++ [(call, m)]).map Prod.fst).Pairwise (· < ·) := by
      rw [List.map_append, List.pairwise_append]
      refine ⟨hsort, by simp, ?_⟩
      intro a ha b hb
      rw [List.mem_map] at ha
      obtain ⟨c, hc, rfl⟩ := ha
      simp only [List.map_cons, List.map_nil, List.mem_singleton] at hb
      subst hb
      exact (hlt c hc).1
    have hpos' : ∀ c ∈ calls ++ [(call, m)], 0 < c.2 := by
      intro c hc
      rw [List.mem_append, List.mem_singleton] at hc
      rcases hc with hc | rfl
      · exact (hlt c hc).2
      · exact hm
    rw [integrateLoop, s1]
    dsimp only
    cases hu : update O out n m with
    | none => exact .inl ⟨rfl, update_none O out n m hu⟩
    | some nm =>
      obtain ⟨n', m'⟩ := nm
      dsimp only
      by_cases hc : errorRatio O out > 1 ∧ out.evaluations < O.maxeval
      · rw [if_pos hc]
        obtain ⟨u1, u2, u3, u4⟩ := update_spec O out n m n' m' hn hv hm hminm hc.1 hc.2.le hu
        have hnm : 0 < n * m := Nat.mul_pos hn hm
        rw [s3] at hc
        by_cases hne : n' = n
        · subst hne
          exact ih (call + 1) n' m' prev' (calls ++ [(call, m)]) (n' * m + ev) hn hv u2 s4 (.inl (by intro h; rw [h] at s5; simp at s5)) hsort'
            (fun c hc => ⟨by
              rw [List.mem_append, List.mem_singleton] at hc
              rcases hc with hc | rfl
              · have := (hlt c hc).1; omega
              · exact Nat.lt_succ_self _, hpos' c hc⟩) (by omega) (by omega)
        · refine ih (call + 1) n' m' prev' [] (n * m + ev) (by omega) u4 u2 ⟨s4.1, .inl ⟨rfl, ?_⟩⟩ (.inr (u3 hne)) (by simp) (by simp) (by omega)
            (by omega)
          rcases s4.2 with ⟨h, -⟩ | ⟨-, p, rest, rfl, hh⟩
          · rw [h] at s5; simp at s5
          · intro p' hp'
            rw [List.head?_cons, Option.mem_some_iff] at hp'
            subst hp'
            rw [hh.size]
            exact fun h => hne h.symm
      · rw [if_neg hc]
        have hsz : out.n = n := s2.size
        refine .inr ⟨out, rfl, ?_, by rw [hsz]; exact hn, by rw [hsz]; exact hv, calls ++ [(call, m)], hsort', hpos', by rw [hsz]; exact s5,
          by rw [hsz]; exact s2⟩
        by_contra hh
        push Not at hh
        exact hc ⟨hh.1, hh.2⟩

end Sampler
end SecDec
