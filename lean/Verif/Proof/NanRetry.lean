import Verif.Spec.NanRetry
import Verif.Proof.Scheduler
/-
The integration loop never mixes results of different parameters.
-/
set_option linter.unusedSectionVars false
namespace SecDec
namespace Disteval
variable {k : Nat} {J R : Type} [DecidableEq J]

def Sch (h : List (SEv k J R)) (w : Fin k) (j : J) : Prop := (w, j) ∈ scheduled h
def Ans (h : List (SEv k J R)) (w : Fin k) (j : J) : Prop := (j, true) ∈ answered (projH w h)
def Can (h : List (SEv k J R)) (w : Fin k) (j : J) : Prop := (j, true) ∈ cancelled (projH w h)

theorem mem_openJobs (h : List (SEv k J R)) (w : Fin k) (j : J) :
    (w, j) ∈ openJobs h ↔ Sch h w j ∧ ¬ Ans h w j ∧ ¬ Can h w j := by
  unfold openJobs Sch Ans Can
  rw [List.mem_filter]; simp

theorem sch_snoc (h : List (SEv k J R)) (e : SEv k J R) (w : Fin k) (j : J) :
    Sch (h ++ [e]) w j ↔ Sch h w j ∨ e = .callCb w j := by
  unfold Sch
  have : scheduled (h ++ [e]) = scheduled h ++ scheduled [e] := by simp [scheduled]
  rw [this, List.mem_append]
  apply or_congr_right
  cases e <;> simp [scheduled, eq_comm]

theorem ans_snoc (h : List (SEv k J R)) (e : SEv k J R) (w : Fin k) (j : J) :
    Ans (h ++ [e]) w j ↔ Ans h w j ∨ ∃ r, e = .respond w (j, true) r := by
  unfold Ans
  rw [projH_snoc, answered_append, List.mem_append]
  apply or_congr_right
  cases e <;> simp only [SEv.proj] <;> (try split) <;> simp_all [answered, eq_comm]

theorem can_snoc (h : List (SEv k J R)) (e : SEv k J R) (w : Fin k) (j : J) :
    Can (h ++ [e]) w j ↔ Can h w j ∨ e = .cancel w j := by
  unfold Can
  rw [projH_snoc, cancelled_append, List.mem_append]
  apply or_congr_right
  cases e <;> simp only [SEv.proj] <;> (try split) <;> simp_all [cancelled, eq_comm]

theorem LegalS.snoc {h : List (SEv k J R)} {e : SEv k J R} (hl : LegalS h)
    (ha : ∀ w ev, e.proj w = some ev → Allowed (projH w h) ev)
    (hc : ∀ w j, e = .cancel w j → ¬ Can h w j) : LegalS (h ++ [e]) := by
  constructor
  · intro w
    rw [projH_snoc]
    cases hp : e.proj w with
    | none => simpa using hl.workers w
    | some ev => exact Legal.snoc (hl.workers w) (ha w ev hp)
  · intro w j h1 h2 hh hcc
    rcases List.eq_nil_or_concat h2 with rfl | ⟨h2, y, rfl⟩
    · have := List.append_inj' hh (by simp)
      obtain ⟨rfl, h5⟩ := this
      simp at h5
      exact absurd hcc (hc w j h5)
    · rw [List.concat_eq_append, ← List.cons_append, ← List.append_assoc] at hh
      have := List.append_inj' hh (by simp)
      exact hl.once w j h1 h2 this.1 hcc

namespace Eval
variable {K : Type} {ns : Nat} {D V : Type} [DecidableEq K] [DecidableEq D]

/-- The part of the invariant that holds also in the middle of a callback. -/
structure Base (st : Eval k K ns D V) : Prop where
  legal : LegalS st.log
  run : st.sched = Sched.run st.log
  sh : ∀ w, shadowed (projH w st.log) = []
  fresh : ∀ w j, Sch st.log w j → j.id < st.nextId
  tagSch : ∀ idx s w j, st.tag idx s = some (w, j) → Sch st.log w j ∧ j.idx = idx ∧ j.shift = s
  tagParams : ∀ w j, Can st.log w j → Sch st.log w j

/-- The invariant. -/
structure Good (st : Eval k K ns D V) : Prop where
  base : Base st
  tagCan : ∀ idx s w j, st.tag idx s = some (w, j) → ¬ Can st.log w j
  openTag : ∀ w j, Sch st.log w j → ¬ Ans st.log w j → ¬ Can st.log w j → st.tag j.idx j.shift = some (w, j)
  param : ∀ idx s w j, st.tag idx s = some (w, j) → j.params = st.params idx
  vals : ∀ idx s w j, st.tag idx s = some (w, j) → Ans st.log w j →
    ∃ v, st.val idx s = some (j, v) ∧ SEv.respond w (j, true) (some v) ∈ st.log
  full : ∀ idx s s', st.tag idx s ≠ none → st.tag idx s' ≠ none

theorem shadowed_snoc (h : List (SEv k J R)) (e : SEv k J R) (hs : ∀ w, shadowed (projH w h) = [])
    (hm : ∀ w js, e ≠ .multicall w js) : ∀ w, shadowed (projH w (h ++ [e])) = [] := by
  intro w
  rw [projH_snoc]
  cases e with
  | multicall w' js => exact absurd rfl (hm w' js)
  | _ =>
    simp only [SEv.proj]
    all_goals try split
    all_goals first
      | simpa using hs w
      | (simp only [Option.toList_some, shadowed, track_snoc]; exact hs w)

theorem Base.emit {st : Eval k K ns D V} (B : Base st) (e : SEv k (Job K ns D) (Option V))
    (ha : ∀ w ev, e.proj w = some ev → Disteval.Allowed (projH w st.log) ev)
    (hc : ∀ w j, e = .cancel w j → ¬ Can st.log w j) (hm : ∀ w js, e ≠ .multicall w js)
    (hcall : ∀ w j, e ≠ .callCb w j) (hreq : ∀ w j, e = .cancel w j → Sch st.log w j) : Base (st.emit e) := by
  refine ⟨B.legal.snoc ha hc, ?_, shadowed_snoc _ _ B.sh hm, ?_, ?_, ?_⟩
  · simp only [Eval.emit]; rw [sched_run_snoc, ← B.run]
  · intro w j hj
    simp only [Eval.emit] at hj ⊢
    rw [sch_snoc] at hj
    rcases hj with hj | hj
    · exact B.fresh w j hj
    · exact absurd hj (hcall w j)
  · intro idx s w j ht
    simp only [Eval.emit] at ht ⊢
    have := B.tagSch idx s w j ht
    rw [sch_snoc]
    exact ⟨Or.inl this.1, this.2⟩
  · intro w j hj
    simp only [Eval.emit] at hj ⊢
    rw [can_snoc] at hj
    rw [sch_snoc]
    rcases hj with hj | hj
    · exact Or.inl (B.tagParams w j hj)
    · exact Or.inl (hreq w j hj)

/-- Cancelling all tags of a kernel. -/
theorem cancel_loop (idx : K) (l : List (Fin ns)) (hnd : l.Nodup) (st : Eval k K ns D V) (B : Base st)
    (hnc : ∀ s ∈ l, ∀ w j, st.tag idx s = some (w, j) → ¬ Can st.log w j) :
    ∃ st', l.foldl (cancelOne idx) st = st' ∧ Base st' ∧ st'.tag = st.tag ∧ st'.val = st.val ∧ st'.params = st.params ∧
      st'.nextId = st.nextId ∧
      (∀ w j, Sch st'.log w j ↔ Sch st.log w j) ∧ (∀ w j, Ans st'.log w j ↔ Ans st.log w j) ∧
      (∀ w j, Can st'.log w j ↔ Can st.log w j ∨ ∃ s ∈ l, st.tag idx s = some (w, j)) ∧
      (∀ e ∈ st.log, e ∈ st'.log) := by
  induction l generalizing st with
  | nil => exact ⟨st, rfl, B, rfl, rfl, rfl, rfl, fun _ _ => Iff.rfl, fun _ _ => Iff.rfl, by simp, fun _ h => h⟩
  | cons s l ih =>
    rw [List.nodup_cons] at hnd
    rw [List.foldl_cons]
    cases ht : st.tag idx s with
    | none =>
      have hs : cancelOne idx st s = st := by simp [cancelOne, ht]
      rw [hs]
      obtain ⟨st', h1, h2, h3, h4, h5, h6, h7, h8, h9, h10⟩ := ih hnd.2 st B (fun s' hs' => hnc s' (by simp [hs']))
      refine ⟨st', h1, h2, h3, h4, h5, h6, h7, h8, ?_, h10⟩
      intro w j
      rw [h9]
      simp [ht]
    | some p =>
      obtain ⟨w0, j0⟩ := p
      have hs : cancelOne idx st s = st.emit (.cancel w0 j0) := by simp [cancelOne, ht]
      rw [hs]
      have hsch := B.tagSch idx s w0 j0 ht
      have hB : Base (st.emit (.cancel w0 j0)) := by
        refine B.emit _ ?_ ?_ (by simp) (by simp) ?_
        · intro w ev hev
          simp only [SEv.proj] at hev
          split at hev
          · rename_i hw; subst hw
            simp at hev; subst hev
            refine ⟨(scheduled_iff _ _ _).1 hsch.1, by rw [B.sh]; simp⟩
          · cases hev
        · intro w j hh
          simp at hh
          obtain ⟨rfl, rfl⟩ := hh
          exact hnc s (by simp) _ _ ht
        · intro w j hh
          simp at hh
          obtain ⟨rfl, rfl⟩ := hh
          exact hsch.1
      obtain ⟨st', h1, h2, h3, h4, h5, h6, h7, h8, h9, h10⟩ := ih hnd.2 _ hB (by
        intro s' hs' w j htag
        simp only [Eval.emit] at htag ⊢
        rw [can_snoc]
        rintro (hh | hh)
        · exact hnc s' (by simp [hs']) w j htag hh
        · simp at hh
          obtain ⟨rfl, rfl⟩ := hh
          have e1 := (B.tagSch _ _ _ _ htag).2.2
          have e2 := hsch.2.2
          exact hnd.1 (by rw [← e2, e1]; exact hs'))
      refine ⟨st', h1, h2, h3, h4, h5, h6, ?_, ?_, ?_, ?_⟩
      · intro w j; rw [h7]; simp [Eval.emit, sch_snoc]
      · intro w j; rw [h8]; simp [Eval.emit, ans_snoc]
      · intro w j; rw [h9]; simp only [Eval.emit, can_snoc, List.mem_cons]
        constructor
        · rintro ((h | h) | ⟨s', hs', h⟩)
          · exact Or.inl h
          · simp at h; obtain ⟨rfl, rfl⟩ := h
            exact Or.inr ⟨s, Or.inl rfl, ht⟩
          · exact Or.inr ⟨s', Or.inr hs', h⟩
        · rintro (h | ⟨s', rfl | hs', h⟩)
          · exact Or.inl (Or.inl h)
          · rw [ht] at h; simp at h; obtain ⟨rfl, rfl⟩ := h
            exact Or.inl (Or.inr rfl)
          · exact Or.inr ⟨s', hs', h⟩
      · intro e he; exact h10 e (by simp [Eval.emit, he])

/-- The loop of `schedule_kernel`. -/
theorem schedule_loop (idx : K) (ch : Fin ns → Fin k) (l : List (Fin ns)) (hnd : l.Nodup) (st : Eval k K ns D V) (B : Base st) :
    ∃ st', l.foldl (scheduleOne idx ch) st = st' ∧ Base st' ∧ st'.val = st.val ∧ st'.params = st.params ∧
      (∀ w j, Ans st'.log w j ↔ Ans st.log w j) ∧ (∀ w j, Can st'.log w j ↔ Can st.log w j) ∧
      (∀ w j, Sch st'.log w j → Sch st.log w j ∨ (j.idx = idx ∧ st'.tag idx j.shift = some (w, j))) ∧
      (∀ i s, i ≠ idx → st'.tag i s = st.tag i s) ∧ (∀ s, s ∉ l → st'.tag idx s = st.tag idx s) ∧
      (∀ s ∈ l, ∃ j, st'.tag idx s = some (ch s, j) ∧ j.params = st.params idx ∧ st.nextId ≤ j.id) ∧
      (∀ e ∈ st.log, e ∈ st'.log) := by
  induction l generalizing st with
  | nil => exact ⟨st, rfl, B, rfl, rfl, fun _ _ => Iff.rfl, fun _ _ => Iff.rfl, fun _ _ h => Or.inl h, fun _ _ _ => rfl,
      fun _ _ => rfl, by simp, fun _ h => h⟩
  | cons s l ih =>
    rw [List.nodup_cons] at hnd
    rw [List.foldl_cons]
    set j0 : Job K ns D := ⟨st.nextId, idx, s, st.params idx⟩ with hj0
    set st1 := scheduleOne idx ch st s with hst1
    have hlog : st1.log = st.log ++ [.callCb (ch s) j0] := rfl
    have htag : st1.tag = Function.update st.tag idx (Function.update (st.tag idx) s (some (ch s, j0))) := rfl
    have hnew : ∀ w, ¬ Sch st.log w j0 := fun w hh => by have := B.fresh w j0 hh; simp [hj0] at this
    have B1 : Base st1 := by
      refine ⟨?_, ?_, ?_, ?_, ?_, ?_⟩
      · rw [hlog]
        refine B.legal.snoc ?_ (by simp)
        intro w ev hev
        simp only [SEv.proj] at hev
        split at hev
        · rename_i hw; subst hw
          simp at hev; subst hev
          intro hh; exact hnew _ ((scheduled_iff _ _ _).2 hh)
        · cases hev
      · rw [hlog, sched_run_snoc, ← B.run]; rfl
      · rw [hlog]; exact shadowed_snoc _ _ B.sh (by simp)
      · intro w j hj
        have hn : st1.nextId = st.nextId + 1 := rfl
        rw [hlog, sch_snoc] at hj
        rw [hn]
        rcases hj with hj | hj
        · have := B.fresh w j hj; omega
        · simp at hj; rw [← hj.2]; simp [hj0]
      · intro i s' w j ht
        rw [hlog, sch_snoc]
        rw [htag] at ht
        by_cases hi : i = idx
        · subst hi
          rw [Function.update_self] at ht
          by_cases hs : s' = s
          · subst hs
            rw [Function.update_self] at ht
            simp at ht
            obtain ⟨rfl, rfl⟩ := ht
            exact ⟨Or.inr rfl, rfl, rfl⟩
          · rw [Function.update_of_ne hs] at ht
            have := B.tagSch _ _ _ _ ht
            exact ⟨Or.inl this.1, this.2⟩
        · rw [Function.update_of_ne hi] at ht
          have := B.tagSch _ _ _ _ ht
          exact ⟨Or.inl this.1, this.2⟩
      · intro w j hj
        rw [hlog, can_snoc] at hj
        rw [hlog, sch_snoc]
        rcases hj with hj | hj
        · exact Or.inl (B.tagParams w j hj)
        · simp at hj
    obtain ⟨st', h1, h2, h3, h4, h5, h6, h7, h8, h9, h10, h11⟩ := ih hnd.2 st1 B1
    refine ⟨st', h1, h2, h3, h4, ?_, ?_, ?_, ?_, ?_, ?_, ?_⟩
    · intro w j; rw [h5, hlog, ans_snoc]; simp
    · intro w j; rw [h6, hlog, can_snoc]; simp
    · intro w j hj
      rcases h7 w j hj with hj | hj
      · rw [hlog, sch_snoc] at hj
        rcases hj with hj | hj
        · exact Or.inl hj
        · simp at hj
          obtain ⟨rfl, rfl⟩ := hj
          refine Or.inr ⟨rfl, ?_⟩
          show st'.tag idx s = _
          rw [h9 s hnd.1, htag, Function.update_self, Function.update_self]
      · exact Or.inr hj
    · intro i s' hi; rw [h8 i s' hi, htag, Function.update_of_ne hi]
    · intro s' hs'
      simp only [List.mem_cons, not_or] at hs'
      rw [h9 s' hs'.2, htag, Function.update_self, Function.update_of_ne hs'.1]
    · intro s' hs'
      rcases List.mem_cons.1 hs' with rfl | hs'
      · exact ⟨j0, by rw [h9 s' hnd.1, htag, Function.update_self, Function.update_self], rfl, by simp [hj0]⟩
      · obtain ⟨j, e1, e2, e3⟩ := h10 s' hs'
        have hn : st1.nextId = st.nextId + 1 := rfl
        exact ⟨j, e1, e2, by omega⟩
    · intro e he; exact h11 e (by rw [hlog]; exact List.mem_append_left _ he)

theorem Good.emit_neutral {st : Eval k K ns D V} (G : Good st) (e : SEv k (Job K ns D) (Option V))
    (he : e = .drain ∨ e = .resume ∨ e = .timeout) : Good (st.emit e) := by
  have hB : Base (st.emit e) := by
    refine G.base.emit e ?_ ?_ ?_ ?_ ?_ <;> rcases he with rfl | rfl | rfl <;> simp [SEv.proj]
  have hs : ∀ w j, Sch (st.emit e).log w j ↔ Sch st.log w j := by
    intro w j; simp only [Eval.emit, sch_snoc]; rcases he with rfl | rfl | rfl <;> simp
  have ha : ∀ w j, Ans (st.emit e).log w j ↔ Ans st.log w j := by
    intro w j; simp only [Eval.emit, ans_snoc]; rcases he with rfl | rfl | rfl <;> simp
  have hc : ∀ w j, Can (st.emit e).log w j ↔ Can st.log w j := by
    intro w j; simp only [Eval.emit, can_snoc]; rcases he with rfl | rfl | rfl <;> simp
  refine ⟨hB, ?_, ?_, G.param, ?_, G.full⟩
  · intro idx s w j ht; rw [hc]; exact G.tagCan idx s w j ht
  · intro w j; rw [hs, ha, hc]; exact G.openTag w j
  · intro idx s w j ht hh
    rw [ha] at hh
    obtain ⟨v, h1, h2⟩ := G.vals idx s w j ht hh
    exact ⟨v, h1, by simp [Eval.emit, h2]⟩

/-- Scheduling a kernel none of whose requests is open, after changing its parameters. -/
theorem schedule_good (idx : K) (ch : Fin ns → Fin k) (st : Eval k K ns D V) (B : Base st)
    (htagCan : ∀ i s w j, i ≠ idx → st.tag i s = some (w, j) → ¬ Can st.log w j)
    (hopen : ∀ w j, Sch st.log w j → ¬ Ans st.log w j → ¬ Can st.log w j →
      j.idx ≠ idx ∧ st.tag j.idx j.shift = some (w, j))
    (hparam : ∀ i s w j, i ≠ idx → st.tag i s = some (w, j) → j.params = st.params i)
    (hvals : ∀ i s w j, i ≠ idx → st.tag i s = some (w, j) → Ans st.log w j →
      ∃ v, st.val i s = some (j, v) ∧ SEv.respond w (j, true) (some v) ∈ st.log)
    (hfull : ∀ i s s', i ≠ idx → st.tag i s ≠ none → st.tag i s' ≠ none)
    (hans : ∀ w j, Ans st.log w j → Sch st.log w j) :
    Good (scheduleKernel idx ch st) := by
  obtain ⟨st', h1, h2, h3, h4, h5, h6, h7, h8, h9, h10, h11⟩ := schedule_loop idx ch (List.finRange ns) (List.nodup_finRange ns) st B
  unfold scheduleKernel
  rw [h1]
  have hself : ∀ s w j, st'.tag idx s = some (w, j) → ¬ Sch st.log w j ∧ j.params = st.params idx := by
    intro s w j ht
    obtain ⟨j', e1, e2, e3⟩ := h10 s (List.mem_finRange s)
    rw [ht] at e1
    simp at e1; obtain ⟨rfl, rfl⟩ := e1
    exact ⟨fun hh => by have := B.fresh _ _ hh; omega, e2⟩
  refine ⟨h2, ?_, ?_, ?_, ?_, ?_⟩
  · intro i s w j ht
    rw [h6]
    by_cases hi : i = idx
    · subst hi; exact fun hh => (hself s w j ht).1 (B.tagParams w j hh)
    · rw [h8 i s hi] at ht; exact htagCan i s w j hi ht
  · intro w j hs ha hc
    rw [h5] at ha; rw [h6] at hc
    rcases h7 w j hs with hs | ⟨e1, e2⟩
    · obtain ⟨e1, e2⟩ := hopen w j hs ha hc
      rw [h8 _ _ e1]; exact e2
    · rw [e1]; exact e2
  · intro i s w j ht
    rw [h4]
    by_cases hi : i = idx
    · subst hi; exact (hself s w j ht).2
    · rw [h8 i s hi] at ht; exact hparam i s w j hi ht
  · intro i s w j ht ha
    rw [h5] at ha
    by_cases hi : i = idx
    · subst hi; exact absurd (hans w j ha) (hself s w j ht).1
    · rw [h8 i s hi] at ht
      obtain ⟨v, e1, e2⟩ := hvals i s w j hi ht ha
      exact ⟨v, by rw [h3]; exact e1, h11 _ e2⟩
  · intro i s s' ht
    by_cases hi : i = idx
    · subst hi
      obtain ⟨j', e1, _⟩ := h10 s' (List.mem_finRange s')
      rw [e1]; simp
    · rw [h8 i s hi] at ht; rw [h8 i s' hi]; exact hfull i s s' hi ht

theorem Base.ansSch {st : Eval k K ns D V} (B : Base st) (w : Fin k) (j : Job K ns D) (h : Ans st.log w j) : Sch st.log w j := by
  obtain ⟨d, I⟩ := (sinv_run B.legal).workers w
  exact (scheduled_iff _ _ _).2 (I.ansReq _ h)

theorem decPending_delivered {s : Sched k J R} : s.decPending.delivered = s.delivered := by
  unfold Sched.decPending; split <;> rfl

/-- What the scheduler delivers for an answer. -/
theorem respond_delivered {h : List (SEv k J R)} {s : Sched k J R} (I : SInv h s) (w : Fin k) (j : J) (r : R)
    (hs : Sch h w j) (ha : ¬ Ans h w j) :
    (s.step (.respond w (j, true) r)).delivered =
      s.delivered ++ (if (j, true) ∈ cancelled (projH w h) then [] else [(w, j, r)]) := by
  obtain ⟨t, htok, hmem⟩ := (I.workers w).token ((scheduled_iff h w j).1 hs)
  have hres := (I.workers w).receive_result htok ha
  by_cases hc : (j, true) ∈ cancelled (projH w h)
  · rw [if_pos hc] at hres
    simp only [Sched.step, htok, hres, hc, if_true, List.append_nil]
  · rw [if_neg hc] at hres
    simp only [Sched.step, htok, hres, hc, if_false]

theorem good_step (shrink : D → D) {st : Eval k K ns D V} (G : Good st) (e : Event k K ns D V) (ha : Allowed st e) :
    Good (st.step shrink e) := by
  cases e with
  | drain => exact G.emit_neutral _ (by simp)
  | resume => exact G.emit_neutral _ (by simp)
  | timeout => exact G.emit_neutral _ (by simp)
  | start idx d ch =>
    simp only [Allowed] at ha
    simp only [Eval.step]
    have hB : Base { st with params := Function.update st.params idx d } :=
      ⟨G.base.legal, G.base.run, G.base.sh, G.base.fresh, G.base.tagSch, G.base.tagParams⟩
    refine schedule_good idx ch _ hB (fun i s w j _ ht => G.tagCan i s w j ht) ?_ ?_ ?_ ?_ hB.ansSch
    · intro w j h1 h2 h3
      exact ⟨ha w j ((mem_openJobs _ _ _).2 ⟨h1, h2, h3⟩), G.openTag w j h1 h2 h3⟩
    · intro i s w j hi ht
      simp only [Function.update_of_ne hi]
      exact G.param i s w j ht
    · intro i s w j _ ht hh; exact G.vals i s w j ht hh
    · intro i s s' _; exact G.full i s s'
  | respond w j r ch =>
    obtain ⟨hs, hna⟩ := ha
    have hI := sinv_run G.base.legal
    have hdel := respond_delivered hI w j r hs hna
    rw [← G.base.run] at hdel
    set st1 := st.emit (.respond w (j, true) r) with hst1
    have hlog : st1.log = st.log ++ [.respond w (j, true) r] := rfl
    have B1 : Base st1 := by
      refine G.base.emit _ ?_ (by simp) (by simp) (by simp) (by simp)
      intro v ev hev
      simp only [SEv.proj] at hev
      split at hev
      · rename_i hv; subst hv
        simp at hev; subst hev
        exact ⟨(scheduled_iff _ _ _).1 hs, hna⟩
      · cases hev
    have hS1 : ∀ v i, Sch st1.log v i ↔ Sch st.log v i := by intro v i; rw [hlog, sch_snoc]; simp
    have hA1 : ∀ v i, Ans st1.log v i ↔ Ans st.log v i ∨ (v = w ∧ i = j) := by
      intro v i; rw [hlog, ans_snoc]; apply or_congr_right; simp [eq_comm]
    have hC1 : ∀ v i, Can st1.log v i ↔ Can st.log v i := by intro v i; rw [hlog, can_snoc]; simp
    have hst1d : st1.sched.delivered = (st.sched.step (.respond w (j, true) r)).delivered := rfl
    by_cases hc : (j, true) ∈ cancelled (projH w st.log)
    · -- cancelled: nothing is delivered
      rw [if_pos hc, List.append_nil] at hdel
      have hstep : st.step shrink (.respond w j r ch) = st1 := by
        simp only [Eval.step, ← hst1]
        rw [if_neg]
        rw [hst1d, hdel]; omega
      rw [hstep]
      refine ⟨B1, ?_, ?_, G.param, ?_, G.full⟩
      · intro i s v a ht; rw [hC1]; exact G.tagCan i s v a ht
      · intro v a h1 h2 h3
        rw [hS1] at h1; rw [hA1] at h2; rw [hC1] at h3
        exact G.openTag v a h1 (fun hh => h2 (Or.inl hh)) h3
      · intro i s v a ht hh
        rw [hA1] at hh
        rcases hh with hh | ⟨rfl, rfl⟩
        · obtain ⟨x, e1, e2⟩ := G.vals i s v a ht hh
          exact ⟨x, e1, by rw [hlog]; exact List.mem_append_left _ e2⟩
        · exact absurd hc (G.tagCan i s v a ht)
    · rw [if_neg hc] at hdel
      have hstep : st.step shrink (.respond w j r ch) = shiftDone shrink ch st1 j r := by
        simp only [Eval.step, ← hst1]
        rw [if_pos (by rw [hst1d, hdel]; simp), hst1d, hdel]
        simp
      rw [hstep]
      have htag := G.openTag w j hs hna hc
      cases r with
      | some v =>
        simp only [shiftDone]
        refine ⟨⟨B1.legal, B1.run, B1.sh, B1.fresh, B1.tagSch, B1.tagParams⟩, ?_, ?_, G.param, ?_, G.full⟩
        · intro i s v' a ht; simp only [hC1]; exact G.tagCan i s v' a ht
        · intro v' a h1 h2 h3
          simp only at h1 h2 h3
          rw [hS1] at h1; rw [hA1] at h2; rw [hC1] at h3
          exact G.openTag v' a h1 (fun hh => h2 (Or.inl hh)) h3
        · intro i s v' a ht hh
          simp only at ht hh ⊢
          rw [hA1] at hh
          have ht' : st.tag i s = some (v', a) := ht
          by_cases hij : i = j.idx ∧ s = j.shift
          · obtain ⟨rfl, rfl⟩ := hij
            rw [htag] at ht'
            simp at ht'
            obtain ⟨rfl, rfl⟩ := ht'
            exact ⟨v, by rw [Function.update_self, Function.update_self], by rw [hlog]; simp⟩
          · have hne : ¬ (v' = w ∧ a = j) := by
              rintro ⟨rfl, rfl⟩
              have := G.base.tagSch i s _ _ ht'
              exact hij ⟨this.2.1.symm, this.2.2.symm⟩
            rcases hh with hh | hh
            · obtain ⟨x, e1, e2⟩ := G.vals i s v' a ht' hh
              refine ⟨x, ?_, by rw [hlog]; exact List.mem_append_left _ e2⟩
              show Function.update st.val j.idx (Function.update (st.val j.idx) j.shift (some (j, v))) i s = _
              by_cases hi : i = j.idx
              · subst hi
                have hs' : s ≠ j.shift := fun hh => hij ⟨rfl, hh⟩
                rw [Function.update_self, Function.update_of_ne hs']; exact e1
              · rw [Function.update_of_ne hi]; exact e1
            · exact absurd hh hne
      | none =>
        simp only [shiftDone]
        obtain ⟨st2, c1, c2, c3, c4, c5, c6, c7, c8, c9, c10⟩ := cancel_loop j.idx (List.finRange ns) (List.nodup_finRange ns) st1 B1
          (fun s _ v a ht => by rw [hC1]; exact G.tagCan _ s v a ht)
        rw [c1]
        have hB : Base { st2 with params := Function.update st2.params j.idx (shrink (st2.params j.idx)) } :=
          ⟨c2.legal, c2.run, c2.sh, c2.fresh, c2.tagSch, c2.tagParams⟩
        refine schedule_good j.idx ch _ hB ?_ ?_ ?_ ?_ ?_ hB.ansSch
        · intro i s v a hi ht
          simp only at ht ⊢
          rw [c9, hC1]
          rw [c3] at ht
          rintro (hh | ⟨s', _, hh⟩)
          · exact G.tagCan i s v a ht hh
          · have e1 := (G.base.tagSch _ _ _ _ ht).2.1
            have e2 := (B1.tagSch _ _ _ _ hh).2.1
            exact hi (by rw [← e1, e2])
        · intro v a h1 h2 h3
          simp only at h1 h2 h3 ⊢
          rw [c7, hS1] at h1
          rw [c8, hA1] at h2
          rw [c9, hC1] at h3
          have ht := G.openTag v a h1 (fun hh => h2 (Or.inl hh)) (fun hh => h3 (Or.inl hh))
          refine ⟨?_, by rw [c3]; exact ht⟩
          intro hi
          exact h3 (Or.inr ⟨a.shift, List.mem_finRange _, by rw [← hi]; exact ht⟩)
        · intro i s v a hi ht
          simp only at ht ⊢
          rw [c3] at ht
          rw [Function.update_of_ne hi, c5]
          exact G.param i s v a ht
        · intro i s v a hi ht hh
          simp only at ht hh ⊢
          rw [c3] at ht
          rw [c8, hA1] at hh
          rcases hh with hh | ⟨rfl, rfl⟩
          · obtain ⟨x, e1, e2⟩ := G.vals i s v a ht hh
            exact ⟨x, by rw [c4]; exact e1, c10 _ (by rw [hlog]; exact List.mem_append_left _ e2)⟩
          · exact absurd (G.base.tagSch _ _ _ _ ht).2.1.symm hi
        · intro i s s' hi
          simp only [c3]
          exact G.full i s s'

theorem good_init (d0 : D) : Good (init d0 : Eval k K ns D V) := by
  have hs : ∀ w j, ¬ Sch (init d0 : Eval k K ns D V).log w j := by intro w j; simp [Sch, init, scheduled]
  have hc : ∀ w j, ¬ Can (init d0 : Eval k K ns D V).log w j := by intro w j; simp [Can, init, cancelled, projH]
  refine ⟨⟨⟨fun w => Legal.nil, ?_⟩, rfl, ?_, fun w j hh => absurd hh (hs w j), by simp [init], fun w j hh => absurd hh (hc w j)⟩,
    by simp [init], fun w j hh => absurd hh (hs w j), by simp [init], by simp [init], by simp [init]⟩
  · intro w j h1 h2 hh; simp [init] at hh
  · intro w; simp [init, projH, shadowed, track]

theorem good_reachable (shrink : D → D) (d0 : D) {st : Eval k K ns D V} (h : Reachable shrink d0 st) : Good st := by
  induction h with
  | init => exact good_init d0
  | step _ ha ih => exact good_step shrink ih _ ha

end Eval
end Disteval
end SecDec
