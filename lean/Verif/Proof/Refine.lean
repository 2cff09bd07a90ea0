import Verif.Proof.RefineFac
import Verif.Spec.Refine
import Mathlib.Algebra.Order.BigOperators.Group.Finset
namespace SecDec
namespace Refine
open Unc
variable {ι : Type} [DecidableEq ι]

/-- Two states differ in the planned numbers of evaluations only. -/
def Same (s0 s : State ι) : Prop :=
  ∀ i, (s i).n = (s0 i).n ∧ (s i).allowRefine = (s0 i).allowRefine ∧ (s i).result = (s0 i).result ∧ (s i).time = (s0 i).time

/-- More evaluations are planned for refinable integrals only, which have less than `B` evaluations. -/
def Planned (B : ℕ) (s : State ι) : Prop :=
  ∀ i, (s i).n ≤ (s i).next ∧ ((s i).n < (s i).next → (s i).allowRefine = true ∧ (s i).n < B)

/-- Nothing is planned. -/
def Settled (s : State ι) : Prop := ∀ i, (s i).next = (s i).n

def Opn (s : State ι) : Prop := ∃ i, (s i).n < (s i).next

theorem Same.refl (s : State ι) : Same s s := fun _ => ⟨rfl, rfl, rfl, rfl⟩
theorem Same.trans {a b c : State ι} (h : Same a b) (h' : Same b c) : Same a c := fun i =>
  ⟨(h' i).1.trans (h i).1, (h' i).2.1.trans (h i).2.1, (h' i).2.2.1.trans (h i).2.2.1, (h' i).2.2.2.trans (h i).2.2.2⟩

theorem Settled.planned {s : State ι} (h : Settled s) (B : ℕ) : Planned B s := fun i => by
  rw [h i]; exact ⟨le_rfl, fun h => absurd h (lt_irrefl _)⟩

theorem same_update {s : State ι} (i : ι) (new : ℕ) (b : Bool) : Same s (Function.update s i ((s i).setNext new b)) := by
  intro j
  by_cases h : j = i
  · subst h; simp [Integral.setNext]
  · simp [h]

theorem planned_update {B : ℕ} {s : State ι} (h : Planned B s) (i : ι) (new : ℕ) (b : Bool)
    (hn : (s i).n < new → (s i).allowRefine = true ∧ (s i).n < B) :
    Planned B (Function.update s i ((s i).setNext new b)) := by
  intro j
  by_cases hj : j = i
  · subst hj
    simp only [Function.update_self, Integral.setNext]
    refine ⟨by split <;> simp, ?_⟩
    intro hlt
    split at hlt
    · exact hn (by simpa using hlt)
    · rcases lt_max_iff.1 hlt with h1 | h1
      · rcases lt_max_iff.1 h1 with h2 | h2
        · exact (h j).2 h2
        · exact hn h2
      · exact absurd h1 (lt_irrefl _)
  · simpa [hj] using h j

/-- Planning more never removes a plan. -/
theorem opn_update {s : State ι} (h : Opn s) (i : ι) (new : ℕ) : Opn (Function.update s i ((s i).setNext new false)) := by
  obtain ⟨j, hj⟩ := h
  refine ⟨j, ?_⟩
  by_cases h : j = i
  · subst h; simp [Integral.setNext, hj]
  · simpa [h] using hj

/-- What the planning functions preserve: the base of the state, plans only where allowed, and a plan if `repeat` is set. -/
structure PlanInv (B : ℕ) (s0 : State ι) (st : State ι × Bool) : Prop where
  same : Same s0 st.1
  planned : Planned B st.1
  opn : st.2 = true → Opn st.1

theorem foldl_inv {α β : Type*} (P : β → Prop) (f : β → α → β) (l : List α) (hf : ∀ b, P b → ∀ a ∈ l, P (f b a)) :
    ∀ b, P b → P (l.foldl f b) := by
  induction l with
  | nil => intro b hb; exact hb
  | cons a l ih =>
    intro b hb
    exact ih (fun b hb a ha => hf b hb a (List.mem_cons_of_mem _ ha)) _ (hf b hb a (List.mem_cons_self ..))

theorem minPrecTerm_inv {kind : ι → Kind} {S : Sum ι} {B : ℕ} (hB : S.maxeval ≤ B) {s0 : State ι} {st : State ι × Bool}
    (h : PlanInv B s0 st) (t : ι × ℂ) : PlanInv B s0 (minPrecTerm kind S st t) := by
  unfold minPrecTerm
  dsimp only
  split
  · rename_i h1
    split
    · split
      · rename_i h3
        refine ⟨h.same.trans (same_update _ _ _), planned_update h.planned _ _ _ fun _ => ⟨h1.1, lt_of_lt_of_le h1.2 hB⟩, fun _ => ?_⟩
        refine ⟨t.1, ?_⟩
        simp only [Function.update_self, Integral.setNext, Bool.false_eq_true, if_false]
        refine lt_max_of_lt_left (lt_max_of_lt_right ?_)
        split
        · exact h1.2
        · exact h3
      · exact h
    · exact h
  · exact h

theorem cOf_refine {p : Part} {S : Sum ι} {I : Integral} {c : ℂ} (h : cOf p S I c > 0) : I.allowRefine = true := by
  unfold cOf at h
  dsimp only at h
  split at h
  · norm_num at h
  · rename_i h1
    push Not at h1
    simpa using h1.1

theorem storeTerm_inv {S : Sum ι} {B : ℕ} (hB : S.maxeval ≤ B) {fac : ℝ} {s0 : State ι} {st : State ι × Bool}
    (h : PlanInv B s0 st) (t : ι × TermData) (ht : t.2.c > 0 → (s0 t.1).allowRefine = true) : PlanInv B s0 (storeTerm S fac st t) := by
  unfold storeTerm
  dsimp only
  split
  · rename_i h1
    set m := proposedN S (st.1 t.1) t.2.c t.2.scaleexpo fac with hm
    have hle : m ≤ S.maxeval := min_le_left _ _
    refine ⟨h.same.trans (same_update _ _ _), planned_update h.planned _ _ _ fun hlt => ⟨?_, by omega⟩, fun hr => ?_⟩
    · rw [(h.same t.1).2.1]; exact ht h1
    · rcases Bool.or_eq_true_iff.1 hr with h2 | h2
      · exact opn_update (h.opn h2) _ _
      · refine ⟨t.1, ?_⟩
        simp only [Function.update_self, Integral.setNext, Bool.false_eq_true, if_false]
        exact lt_max_of_lt_left (lt_max_of_lt_right (by simpa using h2))
  · exact h

theorem ensureErrorGoal_inv {kind : ι → Kind} {cfg : Config} {env : Env ι} {mode : ErrorMode} {S : Sum ι} {B : ℕ}
    (hB : S.maxeval ≤ B) {s0 : State ι} {st : State ι × Bool} (h : PlanInv B s0 st) :
    PlanInv B s0 (ensureErrorGoal kind cfg env mode st S) := by
  unfold ensureErrorGoal
  dsimp only
  split
  · exact h
  · refine foldl_inv (PlanInv B s0) _ _ (fun st' h' t ht => ?_) st h
    refine storeTerm_inv hB h' t fun hc => ?_
    obtain ⟨t', -, rfl⟩ := List.mem_map.1 ht
    have := cOf_refine hc
    rw [(h.same t'.1).2.1] at this
    exact this

theorem maxinc_inv {B : ℕ} {s0 : State ι} (hn : ∀ i, 1 ≤ (s0 i).n) (sums : List (Sum ι)) (hf : ∀ S ∈ sums, 2 ≤ S.maxincreasefac)
    {st : State ι × Bool} (h : PlanInv B s0 st) : PlanInv B s0 (sums.foldl ensureMaxincreasefac st.1, st.2) := by
  have := foldl_inv (fun s => PlanInv B s0 (s, st.2)) ensureMaxincreasefac sums (fun s hs S hS => ?_) st.1 h
  · exact this
  · unfold ensureMaxincreasefac
    refine foldl_inv (fun s => PlanInv B s0 (s, st.2)) _ _ (fun s hs t _ => ?_) s hs
    dsimp only
    split
    · rename_i h1
      have h2 : (s t.1).n < ⌊((s t.1).n : ℝ) * S.maxincreasefac⌋₊ := by
        have h3 : 1 ≤ (s t.1).n := by rw [(hs.same t.1).1]; exact hn _
        have h4 : ((2 * (s t.1).n : ℕ) : ℝ) ≤ ((s t.1).n : ℝ) * S.maxincreasefac := by
          push_cast; nlinarith [hf S hS, (Nat.cast_nonneg (s t.1).n : (0:ℝ) ≤ _)]
        have := Nat.le_floor h4
        omega
      refine ⟨hs.same.trans (same_update _ _ _), planned_update hs.planned _ _ _ fun _ => (hs.planned t.1).2 (h2.trans h1), fun hr => ?_⟩
      exact ⟨t.1, by simpa [Integral.setNext] using h2⟩
    · exact hs

variable [Fintype ι]

theorem timeNext_nonpos_of_closed {s : State ι} {f : ℝ} {o : ι → Bool} (h : ∀ i, o i = false) : timeNext s f o = 0 := by
  unfold timeNext
  exact Finset.sum_eq_zero fun i _ => by simp [h i]

theorem wallPass_inv {B : ℕ} {s0 s : State ι} {rep : Bool} (h : PlanInv B s0 (s, rep)) {f : ℝ} (hf : f < 1) (hn : ∀ i, 1 ≤ (s0 i).n) :
    PlanInv B s0 ((wallPass s f).1, (wallPass s f).2.2) ∧ (Opn s → ∑ i, ((wallPass s f).1 i).next < ∑ i, (s i).next) ∧
    ((wallPass s f).2.1 ≠ 0 → Opn (wallPass s f).1) := by
  have hred : ∀ i, (s i).n < (s i).next → ⌊((s i).next : ℝ) / (s i).n * f * (s i).n⌋₊ < (s i).next := by
    intro i hi
    have hn' : 1 ≤ (s i).n := by rw [(h.same i).1]; exact hn i
    have hn0 : ((s i).n : ℝ) ≠ 0 := by positivity
    have e : ((s i).next : ℝ) / (s i).n * f * (s i).n = (s i).next * f := by field_simp
    have hp : (0 : ℝ) < (s i).next := by exact_mod_cast (by omega : 0 < (s i).next)
    rw [e]
    by_cases hf0 : 0 ≤ f
    · exact (Nat.floor_lt (by positivity)).2 (by nlinarith)
    · rw [Nat.floor_of_nonpos (by nlinarith)]; omega
  refine ⟨⟨?_, ?_, ?_⟩, ?_, ?_⟩
  · intro i
    simp only [wallPass]
    split
    · exact ⟨(h.same i).1, (h.same i).2.1, (h.same i).2.2.1, (h.same i).2.2.2⟩
    · exact h.same i
  · intro i
    simp only [wallPass]
    split
    · rename_i h1
      refine ⟨by simp [Integral.setNext], fun _ => (h.planned i).2 h1⟩
    · exact h.planned i
  · intro hr
    simp only [wallPass, decide_eq_true_eq] at hr
    obtain ⟨i, h1, h2⟩ := hr
    refine ⟨i, ?_⟩
    simp only [wallPass, h1, if_true]
    simpa [Integral.setNext] using h2
  · rintro ⟨i, hi⟩
    refine Finset.sum_lt_sum (fun j _ => ?_) ⟨i, Finset.mem_univ _, ?_⟩
    · simp only [wallPass]
      split
      · rename_i h1
        simp only [Integral.setNext, if_true]
        exact max_le (hred j h1).le h1.le
      · exact le_rfl
    · have hi' : (s i).next > (s i).n := hi
      simp only [wallPass, hi', if_true, Integral.setNext]
      exact max_lt (hred i hi) hi
  · intro hne
    by_contra hc
    apply hne
    simp only [wallPass]
    refine timeNext_nonpos_of_closed fun i => ?_
    rw [decide_eq_false_iff_not]
    rintro ⟨h1, h2⟩
    exact hc ⟨i, by simp only [wallPass, h1, if_true]; simpa [Integral.setNext] using h2⟩

theorem wallLoop_inv {B : ℕ} {s0 : State ι} (hn : ∀ i, 1 ≤ (s0 i).n) {m a : ℝ} (ha : 0 ≤ a) (passes : ℕ) :
    ∀ {s : State ι} {time : ℝ} {rep : Bool}, PlanInv B s0 (s, rep) → PlanInv B s0 (wallLoop m a passes s time rep) := by
  induction passes with
  | zero => intro s time rep h; exact h
  | succ p ih =>
    intro s time rep h
    unfold wallLoop
    split
    · rename_i h1
      refine ih (wallPass_inv h ?_ hn).1
      have ht : 0 < time := by linarith
      have : a / time < 1 := (div_lt_one ht).2 h1
      split
      · linarith
      · exact this
    · exact h

theorem ensureWallClock_inv {cfg : Config} {pct : ℝ} (hp : 0 ≤ pct) {e : ℝ} {B : ℕ} {s0 : State ι} (hn : ∀ i, 1 ≤ (s0 i).n)
    {st : State ι × Bool} (h : PlanInv B s0 st) : PlanInv B s0 (ensureWallClock cfg pct e st) := by
  unfold ensureWallClock
  split
  · exact h
  · split
    · refine ⟨fun i => h.same i, fun i => ?_, fun hr => by simp at hr⟩
      simp [Integral.setNext]
    · rename_i h1
      push Not at h1
      exact wallLoop_inv hn (mul_nonneg h1.le hp) _ h

/-- The number of rounds that are still possible. -/
def rank (B : ℕ) (s : State ι) : ℕ := ∑ i, if (s i).allowRefine = true then 1 + (B - (s i).n) else 0

/-- The integrators of Cuba use at least the number of points they are asked for. -/
def Honest (kind : ι → Kind) (env : Env ι) : Prop := ∀ i b, kind i = .cuba b → ∀ m, m ≤ (env.answer i m).neval

omit [Fintype ι] in
theorem compute_spec {kind : ι → Kind} {env : Env ι} (he : Honest kind env) (i : ι) (I : Integral) (hI : I.n ≤ I.next)
    (hI' : I.n < I.next → I.allowRefine = true) :
    (compute (kind i) (env.answer i) I).next = (compute (kind i) (env.answer i) I).n ∧
    I.n ≤ (compute (kind i) (env.answer i) I).n ∧
    ((compute (kind i) (env.answer i) I).allowRefine = true → I.allowRefine = true) ∧
    (I.n < I.next → (compute (kind i) (env.answer i) I).allowRefine = true → I.n < (compute (kind i) (env.answer i) I).n) := by
  unfold compute
  by_cases h : I.n < I.next
  · rw [if_pos ⟨hI' h, h⟩]
    refine ⟨rfl, ?_⟩
    dsimp only
    cases hk : kind i with
    | qmc getNext =>
      have key : (computeImpl (.qmc getNext) (env.answer i) I).next = max (getNext I.next) I.n ∧
          ((computeImpl (.qmc getNext) (env.answer i) I).allowRefine = true → ¬ getNext I.next < I.next) := by
        unfold computeImpl
        dsimp only
        by_cases h1 : getNext I.next < I.next <;> simp only [h1, if_true, if_false, Integral.setNext] <;>
          (split <;> [skip; split]) <;> simp [h1]
      rw [key.1]
      refine ⟨le_max_right _ _, fun _ => hI' h, fun _ h2 => ?_⟩
      have := key.2 h2
      exact lt_max_of_lt_left (by omega)
    | cuba b =>
      have key : (computeImpl (.cuba b) (env.answer i) I).next = max (env.answer i I.next).neval I.n := by
        unfold computeImpl
        cases b <;> simp [Integral.setNext]
      rw [key]
      have := he i b hk I.next
      exact ⟨le_max_right _ _, fun _ => hI' h, fun _ _ => lt_max_of_lt_left (by omega)⟩
    | single =>
      simp only [computeImpl]
      exact ⟨hI, fun _ => hI' h, fun h1 h2 => by simp at h2⟩
  · rw [if_neg (fun hh => h hh.2)]
    exact ⟨by omega, le_rfl, fun h => h, fun h' => absurd h' h⟩

/-- After an evaluation nothing is planned any more, and if something was planned, the rank decreases. -/
theorem evaluate_spec {kind : ι → Kind} {env : Env ι} (he : Honest kind env) {B : ℕ} {s : State ι} (h : Planned B s) :
    Settled (evaluate kind env s) ∧ (∀ i, (s i).n ≤ (evaluate kind env s i).n) ∧
    (Opn s → rank B (evaluate kind env s) < rank B s) := by
  have hc := fun i => compute_spec he i (s i) (h i).1 (fun hlt => ((h i).2 hlt).1)
  refine ⟨fun i => (hc i).1, fun i => (hc i).2.1, ?_⟩
  rintro ⟨i, hi⟩
  unfold rank
  refine Finset.sum_lt_sum (fun j _ => ?_) ⟨i, Finset.mem_univ _, ?_⟩
  · have := hc j
    by_cases h1 : (evaluate kind env s j).allowRefine = true
    · rw [if_pos h1, if_pos (this.2.2.1 h1)]
      have : (s j).n ≤ (evaluate kind env s j).n := this.2.1
      omega
    · rw [if_neg h1]; exact Nat.zero_le _
  · have := hc i
    have h2 := (h i).2 hi
    rw [if_pos h2.1]
    by_cases h1 : (evaluate kind env s i).allowRefine = true
    · rw [if_pos h1]
      have : (s i).n < (evaluate kind env s i).n := this.2.2.2 hi h1
      omega
    · rw [if_neg h1]; omega

theorem doWhile_terminates {round : ℕ → State ι → State ι × Bool} {B : ℕ} (P : State ι → Prop)
    (hr : ∀ k s, P s → P (round k s).1 ∧ ((round k s).2 = true → rank B (round k s).1 < rank B s)) :
    ∀ (m : ℕ) (k : ℕ) (s : State ι), P s → rank B s ≤ m → ∃ s', doWhile round (m + 1) k s = some s' ∧ P s' := by
  intro m
  induction m with
  | zero =>
    intro k s hP hm
    have := hr k s hP
    refine ⟨(round k s).1, ?_, this.1⟩
    unfold doWhile
    dsimp only
    rw [if_neg]
    intro h
    have := this.2 h
    omega
  | succ m ih =>
    intro k s hP hm
    have := hr k s hP
    unfold doWhile
    dsimp only
    split
    · rename_i h
      exact ih (k+1) _ this.1 (by have := this.2 h; omega)
    · exact ⟨_, rfl, this.1⟩

theorem doWhile_more {round : ℕ → State ι → State ι × Bool} (fuel : ℕ) :
    ∀ {k : ℕ} {s s' : State ι}, doWhile round fuel k s = some s' → ∀ fuel' ≥ fuel, doWhile round fuel' k s = some s' := by
  induction fuel with
  | zero => intro k s s' h; simp [doWhile] at h
  | succ n ih =>
    intro k s s' h fuel' hf
    obtain ⟨m, rfl⟩ : ∃ m, fuel' = m + 1 := ⟨fuel' - 1, by omega⟩
    unfold doWhile at h ⊢
    dsimp only at h ⊢
    split
    · rename_i h1
      rw [if_pos h1] at h
      exact ih h m (by omega)
    · rename_i h1
      rwa [if_neg h1] at h

/-- The loop ends with a round that does not set `repeat`. -/
theorem doWhile_last {round : ℕ → State ι → State ι × Bool} (P : State ι → Prop) (hr : ∀ k s, P s → P (round k s).1) (fuel : ℕ) :
    ∀ {k : ℕ} {s s' : State ι}, P s → doWhile round fuel k s = some s' → ∃ k' s'', P s'' ∧ round k' s'' = (s', false) := by
  induction fuel with
  | zero => intro k s s' _ h; simp [doWhile] at h
  | succ n ih =>
    intro k s s' hP h
    unfold doWhile at h
    dsimp only at h
    split at h
    · exact ih (hr k s hP) h
    · rename_i h1
      refine ⟨k, s, hP, ?_⟩
      simp only [Option.some.injEq] at h
      rw [← h]
      ext
      · rfl
      · simpa using h1

theorem precRound_inv {kind : ι → Kind} {cfg : Config} (hp : 0 ≤ cfg.decreaseToPercentage) {sums : List (Sum ι)} {B : ℕ}
    (hB : ∀ S ∈ sums, S.maxeval ≤ B) (hf : ∀ S ∈ sums, 2 ≤ S.maxincreasefac) (env : Env ι) {s : State ι} (hs : Settled s)
    (hn : ∀ i, 1 ≤ (s i).n) : ∃ s1, PlanInv B s (s1, (precRound kind cfg sums env s).2) ∧
      (precRound kind cfg sums env s).1 = evaluate kind env s1 := by
  refine ⟨_, ?_, rfl⟩
  refine ensureWallClock_inv hp hn (maxinc_inv hn sums hf ?_)
  refine foldl_inv (PlanInv B s) _ _ (fun st h S hS => ?_) _ ⟨Same.refl s, hs.planned B, fun h => by simp at h⟩
  exact foldl_inv (PlanInv B s) _ _ (fun st h t _ => minPrecTerm_inv (hB S hS) h t) _ h

theorem goalRound_inv {kind : ι → Kind} {cfg : Config} {sums : List (Sum ι)} {B : ℕ}
    (hB : ∀ S ∈ sums, S.maxeval ≤ B) (hf : ∀ S ∈ sums, 2 ≤ S.maxincreasefac) (env : Env ι) {s : State ι} (hs : Settled s)
    (hn : ∀ i, 1 ≤ (s i).n) : ∃ s1, PlanInv B s (s1, (goalRound kind cfg sums env s).2) ∧
      (goalRound kind cfg sums env s).1 = evaluate kind env s1 := by
  refine ⟨_, ?_, rfl⟩
  refine ensureWallClock_inv zero_le_one hn (maxinc_inv hn sums hf ?_)
  have h0 : PlanInv B s (s, false) := ⟨Same.refl s, hs.planned B, fun h => by simp at h⟩
  have hfold : ∀ mode st, PlanInv B s st → PlanInv B s (sums.foldl (ensureErrorGoal kind cfg env mode) st) := fun mode st h =>
    foldl_inv (PlanInv B s) _ _ (fun st h S hS => ensureErrorGoal_inv (hB S hS) h) _ h
  split
  · exact hfold _ _ (hfold _ _ h0)
  · exact hfold _ _ h0

theorem start_spec {kind : ι → Kind} {sums : List (Sum ι)} {env : Env ι} (he : Honest kind env) {next : ι → ℕ} {s : State ι}
    (h : start kind sums env (initial next) = some s) : Settled s ∧ ∀ i, 1 ≤ (s i).n := by
  unfold start at h
  dsimp only at h
  split at h
  · rename_i h1
    simp only [Option.some.injEq] at h
    subst h
    refine ⟨?_, h1⟩
    have hp : Planned 1 (sums.foldl ensureMineval (initial next)) ∧ Same (initial next) (sums.foldl ensureMineval (initial next)) := by
      refine foldl_inv (fun s => Planned 1 s ∧ Same (initial next) s) _ _ (fun s hs S _ => ?_) _ ⟨fun i => ?_, Same.refl _⟩
      · refine foldl_inv (fun s => Planned 1 s ∧ Same (initial next) s) _ _ (fun s hs t _ => ?_) _ hs
        refine ⟨planned_update hs.1 _ _ _ fun _ => ?_, hs.2.trans (same_update _ _ _)⟩
        rw [(hs.2 t.1).1, (hs.2 t.1).2.1]
        exact ⟨rfl, by simp [initial]⟩
      · exact ⟨by simp [initial], fun _ => ⟨rfl, by simp [initial]⟩⟩
    exact (evaluate_spec he hp.1).1
  · simp at h

/-! ### a round that does not set `repeat` -/

theorem foldl_quiet {α β : Type*} (f : β × Bool → α → β × Bool) (s0 : β) (l : List α)
    (hmono : ∀ st a, st.2 = true → (f st a).2 = true)
    (hq : ∀ a ∈ l, (f (s0, false) a).2 = false → (f (s0, false) a).1 = s0) (h : (l.foldl f (s0, false)).2 = false) :
    l.foldl f (s0, false) = (s0, false) ∧ ∀ a ∈ l, f (s0, false) a = (s0, false) := by
  have hm : ∀ (l : List α) st, st.2 = true → (l.foldl f st).2 = true := by
    intro l
    induction l with
    | nil => intro st h; exact h
    | cons a l ih => intro st h; exact ih _ (hmono st a h)
  induction l with
  | nil => exact ⟨rfl, by simp⟩
  | cons a l ih =>
    rw [List.foldl_cons] at h ⊢
    have h1 : (f (s0, false) a).2 = false := by
      by_contra hc
      rw [hm l _ (by simpa using hc)] at h
      simp at h
    have h2 : f (s0, false) a = (s0, false) := Prod.ext (hq a (List.mem_cons_self ..) h1) h1
    rw [h2] at h ⊢
    have := ih (fun a ha => hq a (List.mem_cons_of_mem _ ha)) h
    refine ⟨this.1, fun b hb => ?_⟩
    rcases List.mem_cons.1 hb with rfl | hb
    · exact h2
    · exact this.2 b hb

omit [Fintype ι] in
theorem storeTerm_mono {S : Sum ι} {fac : ℝ} (st : State ι × Bool) (t : ι × TermData) (h : st.2 = true) :
    (storeTerm S fac st t).2 = true := by
  unfold storeTerm
  dsimp only
  split
  · simp [h]
  · exact h

omit [Fintype ι] in
theorem update_setNext {s : State ι} (hs : Settled s) (i : ι) {new : ℕ} (b : Bool) (hn : new ≤ (s i).n) :
    Function.update s i ((s i).setNext new b) = s := by
  have h : (s i).setNext new b = s i := by
    have := hs i
    cases hI : s i
    rw [hI] at this hn
    simp only at this hn
    cases b <;> simp [Integral.setNext, this, hn]
  rw [h, Function.update_eq_self]

omit [Fintype ι] in
theorem storeTerm_quiet {S : Sum ι} {fac : ℝ} {s : State ι} (hs : Settled s) (t : ι × TermData)
    (h : (storeTerm S fac (s, false) t).2 = false) : (storeTerm S fac (s, false) t).1 = s ∧
      (t.2.c > 0 → proposedN S (s t.1) t.2.c t.2.scaleexpo fac ≤ (s t.1).n) := by
  unfold storeTerm at h ⊢
  dsimp only at h ⊢
  split
  · rename_i h1
    rw [if_pos h1] at h
    simp only [Bool.false_or, decide_eq_false_iff_not, not_lt] at h
    exact ⟨update_setNext hs _ _ h, fun _ => h⟩
  · rename_i h1
    exact ⟨rfl, fun h => absurd h h1⟩

omit [Fintype ι] in
theorem ensureErrorGoal_mono {kind : ι → Kind} {cfg : Config} {env : Env ι} {mode : ErrorMode} (st : State ι × Bool) (S : Sum ι)
    (h : st.2 = true) : (ensureErrorGoal kind cfg env mode st S).2 = true := by
  unfold ensureErrorGoal
  dsimp only
  split
  · exact h
  · exact foldl_inv (fun st : State ι × Bool => st.2 = true) _ _ (fun st h t _ => storeTerm_mono st t h) st h

omit [Fintype ι] in
theorem ensureErrorGoal_quiet {kind : ι → Kind} {cfg : Config} {env : Env ι} {mode : ErrorMode} {s : State ι} (hs : Settled s) (S : Sum ι)
    (h : (ensureErrorGoal kind cfg env mode (s, false) S).2 = false) :
    (ensureErrorGoal kind cfg env mode (s, false) S).1 = s ∧
    ((partOf mode (computeSum s S).uncertainty).apply (computeSum s S).uncertainty < errorGoal mode S (computeSum s S) ∨
      ∀ t ∈ S.summands, (termData kind (partOf mode (computeSum s S).uncertainty) S s t).c > 0 →
        proposedN S (s t.1) (termData kind (partOf mode (computeSum s S).uncertainty) S s t).c (kind t.1).scaleexpo
          (facOf cfg env (S.summands.map (termData kind (partOf mode (computeSum s S).uncertainty) S s))
            (errorGoal mode S (computeSum s S))) ≤ (s t.1).n) := by
  unfold ensureErrorGoal at h ⊢
  dsimp only at h ⊢
  split
  · rename_i h1
    exact ⟨rfl, Or.inl h1⟩
  · rename_i h1
    rw [if_neg h1] at h
    have := foldl_quiet _ s _ storeTerm_mono (fun t _ ht => (storeTerm_quiet hs t ht).1) h
    refine ⟨by rw [this.1], Or.inr fun t ht => ?_⟩
    have h2 := this.2 _ (List.mem_map_of_mem ht)
    have h3 := (storeTerm_quiet hs _ (by rw [h2])).2
    rw [List.map_map] at h3
    exact h3

omit [Fintype ι] in
theorem maxinc_settled {s : State ι} (hs : Settled s) (sums : List (Sum ι)) : sums.foldl ensureMaxincreasefac s = s := by
  refine foldl_inv (fun s' => s' = s) _ _ (fun s' h S _ => ?_) s rfl
  subst h
  unfold ensureMaxincreasefac
  refine foldl_inv (fun s'' => s'' = s') _ _ (fun s'' h t _ => ?_) s' rfl
  subst h
  dsimp only
  split
  · rename_i h1
    refine update_setNext hs _ _ ?_
    rw [hs t.1] at h1
    exact h1.le
  · rfl

omit [Fintype ι] [DecidableEq ι] in
theorem evaluate_settled {kind : ι → Kind} {env : Env ι} {s : State ι} (hs : Settled s) : evaluate kind env s = s := by
  funext i
  simp only [evaluate, compute]
  rw [if_neg]
  rintro ⟨-, h⟩
  rw [hs i] at h
  exact lt_irrefl _ h

/-- A round without `repeat` changes nothing, and the condition of every sum was found to hold. -/
theorem goalRound_quiet {kind : ι → Kind} {cfg : Config} (hlim : cfg.wallClockLimit = none) {sums : List (Sum ι)} {env : Env ι}
    {s s' : State ι} (hs : Settled s) (h : goalRound kind cfg sums env s = (s', false)) :
    s' = s ∧ ∀ S ∈ sums, ∀ mode ∈ (if cfg.errormode = .all then [ErrorMode.real, .imag] else [cfg.errormode]),
      (ensureErrorGoal kind cfg env mode (s, false) S).2 = false := by
  have key : ∀ mode st, st = (s, false) ∨ st.2 = true →
      (sums.foldl (ensureErrorGoal kind cfg env mode) st).2 = false → st = (s, false) ∧
        sums.foldl (ensureErrorGoal kind cfg env mode) st = (s, false) ∧
        ∀ S ∈ sums, (ensureErrorGoal kind cfg env mode (s, false) S).2 = false := by
    intro mode st hst h
    rcases hst with rfl | hst
    · have := foldl_quiet _ s sums ensureErrorGoal_mono (fun S _ hS => (ensureErrorGoal_quiet hs S hS).1) h
      exact ⟨rfl, this.1, fun S hS => by rw [this.2 S hS]⟩
    · have := foldl_inv (fun st : State ι × Bool => st.2 = true) (ensureErrorGoal kind cfg env mode) sums
        (fun st h S _ => ensureErrorGoal_mono st S h) st hst
      rw [this] at h
      simp at h
  unfold goalRound at h
  simp only [ensureWallClock, hlim] at h
  split at h
  · rename_i hall
    obtain ⟨h1, h2⟩ := Prod.mk.inj h
    have hor : sums.foldl (ensureErrorGoal kind cfg env .real) (s, false) = (s, false) ∨
        (sums.foldl (ensureErrorGoal kind cfg env .real) (s, false)).2 = true := by
      by_cases hb : (sums.foldl (ensureErrorGoal kind cfg env .real) (s, false)).2 = true
      · exact Or.inr hb
      · exact Or.inl (key .real _ (Or.inl rfl) (by simpa using hb)).2.1
    have k2 := key .imag _ hor h2
    have k1 := key .real _ (Or.inl rfl) (by rw [k2.1])
    rw [k2.2.1] at h1
    rw [maxinc_settled hs, evaluate_settled hs] at h1
    refine ⟨h1.symm, fun S hS mode hm => ?_⟩
    simp only [hall, if_true, List.mem_cons, List.not_mem_nil, or_false] at hm
    rcases hm with rfl | rfl
    · exact k1.2.2 S hS
    · exact k2.2.2 S hS
  · rename_i hall
    obtain ⟨h1, h2⟩ := Prod.mk.inj h
    have k1 := key cfg.errormode _ (Or.inl rfl) h2
    rw [k1.2.1] at h1
    rw [maxinc_settled hs, evaluate_settled hs] at h1
    refine ⟨h1.symm, fun S hS mode hm => ?_⟩
    simp only [hall, if_false, List.mem_cons, List.not_mem_nil, or_false] at hm
    subst hm
    exact k1.2.2 S hS

/-- What holds between the rounds. -/
structure Ready (s : State ι) : Prop where
  settled : Settled s
  computed : ∀ i, 1 ≤ (s i).n
  time : ∀ i, 0 < (s i).time

/-- Every integration takes some time. -/
def PosTime (env : Env ι) : Prop := ∀ i m, 0 < (env.answer i m).time

omit [Fintype ι] [DecidableEq ι] in
theorem compute_time {k : Kind} {answer : ℕ → Answer} (h : ∀ m, 0 < (answer m).time) {I : Integral}
    (hI : 0 < I.time ∨ I.n < (compute k answer I).n) : 0 < (compute k answer I).time := by
  unfold compute at hI ⊢
  split
  · exact h _
  · rename_i h1
    rw [if_neg h1] at hI
    rcases hI with h | h
    · exact h
    · exact absurd h (lt_irrefl _)

theorem ready_evaluate {kind : ι → Kind} {env : Env ι} (he : Honest kind env) (ht : PosTime env) {B : ℕ} {s s1 : State ι} {b : Bool}
    (hs : Ready s) (h : PlanInv B s (s1, b)) : Ready (evaluate kind env s1) ∧
      (b = true → rank B (evaluate kind env s1) < rank B s) := by
  have hev := evaluate_spec he h.planned
  have hrank : rank B s1 = rank B s := by
    unfold rank
    refine Finset.sum_congr rfl fun i _ => ?_
    rw [(h.same i).1, (h.same i).2.1]
  refine ⟨⟨hev.1, fun i => ?_, fun i => ?_⟩, fun hb => ?_⟩
  · have := hev.2.1 i
    rw [(h.same i).1] at this
    exact (hs.computed i).trans this
  · refine compute_time (ht i) (Or.inl ?_)
    rw [(h.same i).2.2.2]; exact hs.time i
  · rw [← hrank]; exact hev.2.2 (h.opn hb)

theorem ready_start {kind : ι → Kind} {sums : List (Sum ι)} {env : Env ι} (he : Honest kind env) (ht : PosTime env) {next : ι → ℕ}
    {s : State ι} (h : start kind sums env (initial next) = some s) : Ready s := by
  obtain ⟨h1, h2⟩ := start_spec he h
  refine ⟨h1, h2, fun i => ?_⟩
  unfold start at h
  dsimp only at h
  split at h
  · simp only [Option.some.injEq] at h
    have hsame : Same (initial next) (sums.foldl ensureMineval (initial next)) := by
      refine foldl_inv (fun s => Same (initial next) s) _ _ (fun s hs S _ => ?_) _ (Same.refl _)
      exact foldl_inv (fun s => Same (initial next) s) _ _ (fun s hs t _ => hs.trans (same_update _ _ _)) _ hs
    have h3 := h2 i
    rw [← h] at h3 ⊢
    refine compute_time (ht i) (Or.inr ?_)
    have : (sums.foldl ensureMineval (initial next) i).n = 0 := by rw [(hsame i).1]; rfl
    rw [this]
    exact h3
  · simp at h

/-! ### the error of a sum -/

omit [Fintype ι] [DecidableEq ι] in
theorem weighted_var (p : Part) (l : List (ℂ × CDev)) (hl : p = .abs ∨ ∀ t ∈ l, t.1.im = 0) :
    p.apply (CDev.weightedSum l).uncertainty ^ 2 = (l.map fun t => p.apply (t.2.uncertainty * t.1) * p.apply (t.2.uncertainty * t.1)).sum := by
  have hadd : ∀ a b : CDev, p.apply (a.add b).uncertainty ^ 2 = p.apply a.uncertainty ^ 2 + p.apply b.uncertainty ^ 2 := by
    intro a b
    have h1 : ∀ x y : ℝ, √(x * x + y * y) ^ 2 = x * x + y * y := fun x y => Real.sq_sqrt (by nlinarith [mul_self_nonneg x, mul_self_nonneg y])
    cases p
    · simp only [Part.apply, CDev.add, Complex.sq_norm, Complex.normSq_apply]
      have h1' : ∀ x y : ℝ, √(x * x + y * y) * √(x * x + y * y) = x * x + y * y := fun x y => by rw [← sq, h1]
      rw [h1', h1']; ring
    · simp only [Part.apply, CDev.add, sq_abs, h1]; ring
    · simp only [Part.apply, CDev.add, sq_abs, h1]; ring
  have hmul : ∀ (a : CDev) (c : ℂ), p = .abs ∨ c.im = 0 → p.apply (a.mulNum c).uncertainty ^ 2 =
      p.apply (a.uncertainty * c) * p.apply (a.uncertainty * c) := by
    intro a c hc
    have h1 : ∀ x y : ℝ, √(√(x * y * x * y) * √(x * y * x * y) + 0) = √(x * y * x * y) := fun x y => by
      rw [add_zero, Real.sqrt_mul_self (Real.sqrt_nonneg _)]
    have hs : ∀ x y : ℝ, √(x * y * x * y) * √(x * y * x * y) = x * y * x * y := fun x y =>
      Real.mul_self_sqrt (by nlinarith [sq_nonneg (x * y)])
    have h2 : ∀ x y z w : ℝ, √(√(x * y * x * y) * √(x * y * x * y) + √(z * w * z * w) * √(z * w * z * w)) ^ 2 =
        x * y * x * y + z * w * z * w := fun x y z w => by
      rw [hs, hs]
      exact Real.sq_sqrt (by nlinarith [sq_nonneg (x * y), sq_nonneg (z * w)])
    cases p
    · simp only [Part.apply, CDev.mulNum, CDev.ofParts, CDev.re, CDev.im, Dev.mulNum, Dev.sub, Dev.add]
      have h2' := fun x y z w => (sq (√(√(x * y * x * y) * √(x * y * x * y) + √(z * w * z * w) * √(z * w * z * w)))).symm.trans (h2 x y z w)
      rw [← sq ‖a.uncertainty * c‖, Complex.sq_norm, Complex.sq_norm, Complex.normSq_apply, Complex.normSq_apply, h2', h2']
      simp only [Complex.mul_re, Complex.mul_im]; ring
    · have hc : c.im = 0 := by simpa using hc
      simp only [Part.apply, CDev.mulNum, CDev.ofParts, CDev.re, CDev.im, Dev.mulNum, Dev.sub, Dev.add, sq_abs, h2,
        abs_mul_abs_self, Complex.mul_re, hc]; ring
    · have hc : c.im = 0 := by simpa using hc
      simp only [Part.apply, CDev.mulNum, CDev.ofParts, CDev.re, CDev.im, Dev.mulNum, Dev.sub, Dev.add, sq_abs, h2,
        abs_mul_abs_self, Complex.mul_im, hc]; ring
  have gen : ∀ (l : List (ℂ × CDev)) (a : CDev), (p = .abs ∨ ∀ t ∈ l, t.1.im = 0) →
      p.apply (l.foldl (fun r t => r.add (t.2.mulNum t.1)) a).uncertainty ^ 2 = p.apply a.uncertainty ^ 2 +
        (l.map fun t => p.apply (t.2.uncertainty * t.1) * p.apply (t.2.uncertainty * t.1)).sum := by
    intro l
    induction l with
    | nil => intro a _; simp
    | cons t l ih =>
      intro a h
      have ht : p = .abs ∨ t.1.im = 0 := h.imp id fun h => h t (List.mem_cons_self ..)
      rw [List.foldl_cons, ih _ (h.imp id fun h t ht => h t (List.mem_cons_of_mem _ ht)), hadd, hmul _ _ ht,
        List.map_cons, List.sum_cons]
      ring
  have h0 : p.apply (0 : ℂ) = 0 := by cases p <;> simp [Part.apply]
  rw [CDev.weightedSum, gen l _ hl, h0]; ring

omit [Fintype ι] [DecidableEq ι] in
theorem part_nonneg (p : Part) (z : ℂ) : 0 ≤ p.apply z := by cases p <;> simp [Part.apply]

omit [Fintype ι] [DecidableEq ι] in
theorem scaleexpo_pos (k : Kind) : 0 < k.scaleexpo := by cases k <;> norm_num [Kind.scaleexpo]

end Refine
end SecDec
