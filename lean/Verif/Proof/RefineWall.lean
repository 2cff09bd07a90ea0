import Verif.Proof.Refine
/-
Helper lemmas: time limit, termination and errors of the refinement loop.
-/
namespace SecDec
namespace Refine
open Unc
variable {ι : Type} [DecidableEq ι] [Fintype ι]

omit [DecidableEq ι] in
/-- The estimate after a pass is not smaller than the one computed from the new numbers. -/
theorem wallPass_time {s : State ι} {f : ℝ} (hn : ∀ i, 1 ≤ (s i).n) (ht : ∀ i, 0 ≤ (s i).time) (hf : 0 ≤ f) :
    timeNext (wallPass s f).1 1 (fun i => decide (((wallPass s f).1 i).next > ((wallPass s f).1 i).n)) ≤ (wallPass s f).2.1 := by
  simp only [wallPass]
  unfold timeNext
  refine Finset.sum_le_sum fun i _ => ?_
  by_cases h : (s i).next > (s i).n
  · have hn' : (0 : ℝ) < (s i).n := by exact_mod_cast hn i
    by_cases h2 : ⌊((s i).next : ℝ) / (s i).n * f * (s i).n⌋₊ > (s i).n
    · have h3 : max ⌊((s i).next : ℝ) / (s i).n * f * (s i).n⌋₊ (s i).n = ⌊((s i).next : ℝ) / (s i).n * f * (s i).n⌋₊ :=
        max_eq_left h2.le
      simp only [h, h2, if_true, Integral.setNext, h3, and_self, decide_true, mul_one]
      refine mul_le_mul_of_nonneg_left ?_ (ht i)
      rw [div_le_iff₀ hn']
      exact Nat.floor_le (by positivity)
    · have h3 : max ⌊((s i).next : ℝ) / (s i).n * f * (s i).n⌋₊ (s i).n = (s i).n := max_eq_right (not_lt.1 h2)
      simp [h, h2, Integral.setNext, h3]
  · simp [h]

theorem wallLoop_time {B : ℕ} {s0 : State ι} (hn : ∀ i, 1 ≤ (s0 i).n) (ht : ∀ i, 0 ≤ (s0 i).time) {m a : ℝ} (hm : 0 ≤ m) (ha : 0 ≤ a)
    (passes : ℕ) : ∀ {s : State ι} {time : ℝ} {rep : Bool}, PlanInv B s0 (s, rep) → (time ≠ 0 → Opn s) → ∑ i, (s i).next < passes →
      timeNext s 1 (fun i => decide ((s i).next > (s i).n)) ≤ time →
      timeNext (wallLoop m a passes s time rep).1 1 (fun i => decide (((wallLoop m a passes s time rep).1 i).next >
        ((wallLoop m a passes s time rep).1 i).n)) ≤ a ∧ ∀ i, ((wallLoop m a passes s time rep).1 i).next ≤ (s i).next := by
  induction passes with
  | zero => intro s time rep h _ h2; omega
  | succ p ih =>
    intro s time rep h hopn hsum htime
    unfold wallLoop
    by_cases h1 : a < time
    · rw [if_pos h1]
      have ht0 : 0 < time := by linarith
      have hlt : a / time < 1 := (div_lt_one ht0).2 h1
      dsimp only
      set f := if a / time > m then m else a / time with hf
      have hf1 : f < 1 := by rw [hf]; split <;> linarith
      have hf0 : 0 ≤ f := by rw [hf]; split; exacts [hm, div_nonneg ha ht0.le]
      obtain ⟨w1, w2, w3⟩ := wallPass_inv h hf1 hn
      have hlt := w2 (hopn ht0.ne')
      have hn' : ∀ i, 1 ≤ (s i).n := fun i => by rw [(h.same i).1]; exact hn i
      have ht' : ∀ i, 0 ≤ (s i).time := fun i => by rw [(h.same i).2.2.2]; exact ht i
      obtain ⟨r1, r2⟩ := ih w1 w3 (by omega) (wallPass_time hn' ht' hf0)
      refine ⟨r1, fun i => (r2 i).trans ?_⟩
      simp only [wallPass]
      split
      · rename_i h4
        simp only [Integral.setNext, if_true]
        refine max_le ?_ h4.le
        have hn0 : ((s i).n : ℝ) ≠ 0 := by have := hn' i; positivity
        have e : ((s i).next : ℝ) / (s i).n * f * (s i).n = (s i).next * f := by field_simp
        rw [e]
        refine Nat.floor_le_of_le ?_
        have : (0 : ℝ) ≤ (s i).next := by positivity
        nlinarith
      · exact le_rfl
    · rw [if_neg h1]
      exact ⟨htime.trans (not_lt.1 h1), fun i => le_rfl⟩

/-- The plan after `ensure_wall_clock_limit`. -/
theorem ensureWallClock_time {cfg : Config} (hmd : 0 ≤ cfg.minDecreaseFactor) {limit : ℝ} (hl : cfg.wallClockLimit = some limit)
    {pct : ℝ} (hp : 0 ≤ pct) {e : ℝ} {B : ℕ} {s0 : State ι} (hn : ∀ i, 1 ≤ (s0 i).n) (ht : ∀ i, 0 ≤ (s0 i).time)
    {st : State ι × Bool} (h : PlanInv B s0 st) :
    (e < limit → timeNext (ensureWallClock cfg pct e st).1 1 (fun i => decide (((ensureWallClock cfg pct e st).1 i).next >
        ((ensureWallClock cfg pct e st).1 i).n)) ≤ (limit - e) * pct) ∧
    (limit ≤ e → (∀ i, ((ensureWallClock cfg pct e st).1 i).next = ((ensureWallClock cfg pct e st).1 i).n) ∧
      (ensureWallClock cfg pct e st).2 = false) ∧
    ∀ i, ((ensureWallClock cfg pct e st).1 i).next ≤ (st.1 i).next := by
  unfold ensureWallClock
  simp only [hl]
  by_cases h1 : limit - e ≤ 0
  · rw [if_pos h1]
    refine ⟨fun h2 => by linarith, fun _ => ⟨fun i => by simp [Integral.setNext], rfl⟩, fun i => ?_⟩
    simp only [Integral.setNext, if_true, max_self]
    exact (h.planned i).1
  · rw [if_neg h1]
    obtain ⟨r1, r2⟩ := wallLoop_time (m := cfg.minDecreaseFactor) (a := (limit - e) * pct) hn ht hmd
      (mul_nonneg (by linarith) hp) (∑ i, (st.1 i).next + 1) (s := st.1) (rep := st.2)
      (time := timeNext st.1 1 fun i => decide ((st.1 i).next > (st.1 i).n)) h (fun hne => by
        by_contra hc
        refine hne (timeNext_nonpos_of_closed fun i => ?_)
        rw [decide_eq_false_iff_not]
        exact fun h3 => hc ⟨i, h3⟩) (Nat.lt_succ_self _) le_rfl
    exact ⟨fun _ => r1, fun h2 => by linarith, r2⟩

/-! ### termination -/

/-- The state between the rounds. -/
structure Base (s : State ι) : Prop where
  settled : Settled s
  computed : ∀ i, 1 ≤ (s i).n

theorem base_evaluate {kind : ι → Kind} {env : Env ι} (he : Honest kind env) {B : ℕ} {s s1 : State ι} {b : Bool}
    (hs : Base s) (h : PlanInv B s (s1, b)) : Base (evaluate kind env s1) ∧
      (b = true → rank B (evaluate kind env s1) < rank B s) := by
  have hev := evaluate_spec he h.planned
  have hrank : rank B s1 = rank B s := by
    unfold rank
    refine Finset.sum_congr rfl fun i _ => ?_
    rw [(h.same i).1, (h.same i).2.1]
  refine ⟨⟨hev.1, fun i => ?_⟩, fun hb => ?_⟩
  · have := hev.2.1 i
    rw [(h.same i).1] at this
    exact (hs.computed i).trans this
  · rw [← hrank]; exact hev.2.2 (h.opn hb)

omit [Fintype ι] in
theorem mineval_next {i : ι} {sums : List (Sum ι)} : ∀ {s : State ι},
    (s i).next ≤ (sums.foldl ensureMineval s i).next ∧
    (∀ S ∈ sums, (∃ c, (i, c) ∈ S.summands) → S.mineval ≤ (sums.foldl ensureMineval s i).next) := by
  have one : ∀ (S : Sum ι) (s : State ι), (s i).next ≤ (ensureMineval s S i).next ∧
      ((∃ c, (i, c) ∈ S.summands) → S.mineval ≤ (ensureMineval s S i).next) := by
    intro S s
    unfold ensureMineval
    generalize S.summands = l
    induction l generalizing s with
    | nil => exact ⟨le_rfl, fun ⟨c, hc⟩ => by simp at hc⟩
    | cons t l ih =>
      rw [List.foldl_cons]
      obtain ⟨i1, i2⟩ := ih (Function.update s t.1 ((s t.1).setNext S.mineval false))
      by_cases h : i = t.1
      · subst h
        rw [Function.update_self] at i1
        have h1 : ((s t.1).setNext S.mineval false).next = max (max (s t.1).next S.mineval) (s t.1).n := by simp [Integral.setNext]
        rw [h1] at i1
        exact ⟨le_trans (le_trans (le_max_left _ _) (le_max_left _ _)) i1,
          fun _ => le_trans (le_trans (le_max_right _ _) (le_max_left _ _)) i1⟩
      · rw [Function.update_of_ne h] at i1
        refine ⟨i1, fun ⟨c, hc⟩ => i2 ⟨c, ?_⟩⟩
        rcases List.mem_cons.1 hc with rfl | hc
        · exact absurd rfl h
        · exact hc
  induction sums with
  | nil => intro s; exact ⟨le_rfl, fun S hS => by simp at hS⟩
  | cons S sums ih =>
    intro s
    rw [List.foldl_cons]
    obtain ⟨i1, i2⟩ := ih (s := ensureMineval s S)
    obtain ⟨o1, o2⟩ := one S s
    refine ⟨o1.trans i1, fun T hT hc => ?_⟩
    rcases List.mem_cons.1 hT with rfl | hT
    · exact (o2 hc).trans i1
    · exact i2 T hT hc

/-- The first evaluation succeeds. -/
theorem start_some {kind : ι → Kind} {sums : List (Sum ι)} {env : Env ι} (he : Honest kind env) {next : ι → ℕ}
    (hqmc : ∀ i g, kind i = .qmc g → ∀ m, 1 ≤ g m)
    (hmin : ∀ i, 1 ≤ next i ∨ ∃ S ∈ sums, 1 ≤ S.mineval ∧ ∃ c, (i, c) ∈ S.summands) :
    ∃ s, start kind sums env (initial next) = some s := by
  unfold start
  dsimp only
  rw [if_pos]
  · exact ⟨_, rfl⟩
  intro i
  have hsame : Same (initial next) (sums.foldl ensureMineval (initial next)) := by
    refine foldl_inv (fun s => Same (initial next) s) _ _ (fun s hs S _ => ?_) _ (Same.refl _)
    exact foldl_inv (fun s => Same (initial next) s) _ _ (fun s hs t _ => hs.trans (same_update _ _ _)) _ hs
  set s := sums.foldl ensureMineval (initial next) with hs
  have hnext : 1 ≤ (s i).next := by
    obtain ⟨h1, h2⟩ := mineval_next (i := i) (sums := sums) (s := initial next)
    rcases hmin i with h | ⟨S, hS, hm, hc⟩
    · exact le_trans h h1
    · exact hm.trans (h2 S hS hc)
  have hn : (s i).n = 0 := (hsame i).1
  have ha : (s i).allowRefine = true := (hsame i).2.1
  simp only [evaluate, compute]
  rw [if_pos ⟨ha, by omega⟩]
  show 0 < _
  rcases hk : kind i with g | b | _
  · have := hqmc i g hk (s i).next
    simp only [computeImpl, hn, le_refl, if_true]
    by_cases hlt : g (s i).next < (s i).next <;> simp [hlt, Integral.setNext, hn] <;> omega
  · have := he i b hk (s i).next
    cases b <;> simp [computeImpl, Integral.setNext, hn] <;> omega
  · simp only [computeImpl]; omega

/-! ### the errors -/

/-- The numbers of evaluations do not decrease, and the errors of integrals computed with the QMC do not increase. -/
def Better (kind : ι → Kind) (s s' : State ι) : Prop :=
  ∀ i, (s i).n ≤ (s' i).n ∧ ((∃ g, kind i = .qmc g) → ‖(s' i).result.uncertainty‖ ≤ ‖(s i).result.uncertainty‖)

omit [DecidableEq ι] [Fintype ι] in
theorem Better.refl (kind : ι → Kind) (s : State ι) : Better kind s s := fun _ => ⟨le_rfl, fun _ => le_rfl⟩
omit [DecidableEq ι] [Fintype ι] in
theorem Better.trans {kind : ι → Kind} {a b c : State ι} (h : Better kind a b) (h' : Better kind b c) : Better kind a c := fun i =>
  ⟨(h i).1.trans (h' i).1, fun hq => ((h' i).2 hq).trans ((h i).2 hq)⟩

theorem better_evaluate {kind : ι → Kind} {env : Env ι} (he : Honest kind env) {B : ℕ} {s s1 : State ι} {b : Bool}
    (hs : Base s) (h : PlanInv B s (s1, b)) : Better kind s (evaluate kind env s1) := by
  intro i
  have hev := (evaluate_spec he h.planned).2.1 i
  rw [(h.same i).1] at hev
  refine ⟨hev, ?_⟩
  rintro ⟨g, hg⟩
  rw [← (h.same i).2.2.1]
  simp only [evaluate, compute]
  split
  · have hn : 1 ≤ (s1 i).n := by rw [(h.same i).1]; exact hs.computed i
    have hn' : ¬ (s1 i).n ≤ 0 := by omega
    rw [hg]
    simp only [computeImpl]
    by_cases hlt : g (s1 i).next < (s1 i).next
    all_goals
      simp only [hlt, if_true, if_false, Integral.setNext, hn']
      split
      · rename_i h2; exact h2.le
      · exact le_rfl
  · exact le_rfl

omit [DecidableEq ι] [Fintype ι] in
/-- `do … while` preserves an invariant and a preorder. -/
theorem doWhile_rel {round : ℕ → State ι → State ι × Bool} (P : State ι → Prop) (R : State ι → State ι → Prop)
    (hrefl : ∀ a, R a a) (htr : ∀ a b c, R a b → R b c → R a c)
    (hr : ∀ k s, P s → P (round k s).1 ∧ R s (round k s).1) (fuel : ℕ) :
    ∀ {k : ℕ} {s s' : State ι}, P s → doWhile round fuel k s = some s' → P s' ∧ R s s' := by
  induction fuel with
  | zero => intro k s s' _ h; simp [doWhile] at h
  | succ n ih =>
    intro k s s' hP h
    unfold doWhile at h
    dsimp only at h
    split at h
    · obtain ⟨h1, h2⟩ := ih (hr k s hP).1 h
      exact ⟨h1, htr _ _ _ (hr k s hP).2 h2⟩
    · simp only [Option.some.injEq] at h
      subst h
      exact hr k s hP

/-! ### the lists of terms -/

omit [Fintype ι] in
theorem addTerm_sum {M : Type*} [CommRing M] [Algebra ℂ M] (v : ι → M) (a : List (ι × ℂ)) (y : ι × ℂ) :
    ((addTerm a y).map fun t => t.2 • v t.1).sum = (a.map fun t => t.2 • v t.1).sum + y.2 • v y.1 := by
  induction a with
  | nil => simp [addTerm]
  | cons x a ih =>
    unfold addTerm
    split
    · rename_i h
      simp only [List.map_cons, List.sum_cons, h, add_smul]
      ring
    · simp only [List.map_cons, List.sum_cons, ih]
      ring

omit [Fintype ι] in
theorem addTerm_keys (a : List (ι × ℂ)) (y : ι × ℂ) :
    (addTerm a y).map Prod.fst = if y.1 ∈ a.map Prod.fst then a.map Prod.fst else a.map Prod.fst ++ [y.1] := by
  induction a with
  | nil => simp [addTerm]
  | cons x a ih =>
    unfold addTerm
    split
    · rename_i h; simp [h]
    · rename_i h
      simp only [List.map_cons, ih, List.mem_cons]
      have h' : ¬ y.1 = x.1 := fun e => h e.symm
      by_cases h2 : y.1 ∈ a.map Prod.fst <;> simp [h2, h']

end Refine
end SecDec
