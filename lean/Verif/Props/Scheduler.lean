import Verif.Proof.Scheduler
import Mathlib.Tactic.IntervalCases
import Mathlib.Tactic.FinCases
import Mathlib.Algebra.Order.BigOperators.Group.List
/-
C25: the pending counter of `RandomScheduler` and `drain`.
-/
namespace SecDec
namespace Disteval
variable {k : Nat} {J R : Type} [DecidableEq J]

/-- C25: after every legal history, `npending` is the number of scheduled requests that are neither
answered nor cancelled. -/
theorem C25_npending_exact (h : List (SEv k J R)) (hl : LegalS h) :
    (Sched.run h).npending = (openJobs h).length := (sinv_run hl).pending

theorem drainLoop_returned {s : Sched k J R} (h : s.drainLoop.waiter = .returned) :
    s.npending ≤ 0 ∧ s.drainLoop.npending = s.npending := by
  unfold Sched.drainLoop at *
  split at h
  · cases h
  · rename_i hp; simp only [hp, if_false]; exact ⟨by omega, trivial⟩

theorem decPending_returned {s : Sched k J R} (h : s.decPending.waiter = .returned) : s.waiter = .returned := by
  unfold Sched.decPending at h
  split at h
  · simp only at h
    split at h
    · cases h
    · exact h
  · exact h

/-- C25: `drain()` returns only when all scheduled requests are answered or cancelled. -/
theorem C25_drain_returns_only_when_done (h : List (SEv k J R)) (e : SEv k J R) (hl : LegalS (h ++ [e]))
    (h0 : (Sched.run h).waiter ≠ .returned) (h1 : (Sched.run (h ++ [e])).waiter = .returned) :
    openJobs (h ++ [e]) = [] := by
  have I := sinv_run hl
  have hz : (Sched.run (h ++ [e])).npending ≤ 0 := by
    rw [sched_run_snoc] at h1 ⊢
    generalize Sched.run h = s at h0 h1
    cases e with
    | callCb w j => exact absurd h1 h0
    | callPlain w j => exact absurd h1 h0
    | multicall w js => exact absurd h1 h0
    | cancel w j =>
      simp only [Sched.step] at h1
      split at h1
      · exact absurd h1 h0
      · split at h1
        · exact absurd (decPending_returned h1) h0
        · exact absurd h1 h0
    | respond w j r =>
      simp only [Sched.step] at h1
      split at h1
      · exact absurd h1 h0
      · split at h1
        · exact absurd (decPending_returned h1) h0
        · exact absurd h1 h0
        · exact absurd h1 h0
    | drain =>
      have := drainLoop_returned h1
      simp only [Sched.step]; omega
    | resume =>
      simp only [Sched.step] at h1 ⊢
      split at h1
      · rename_i hw
        have := drainLoop_returned h1
        rw [if_pos hw]; omega
      · exact absurd h1 h0
    | timeout => cases h1
  rw [I.pending] at hz
  have : (openJobs (h ++ [e])).length = 0 := by omega
  exact List.length_eq_zero_iff.1 this

/-- C25: no lost wake-up: while the draining coroutine is blocked there is a scheduled request that is
neither answered nor cancelled.  (So once all requests are answered or cancelled it can resume.) -/
theorem C25_no_lost_wakeup (h : List (SEv k J R)) (hl : LegalS h) (hb : (Sched.run h).waiter = .blocked) :
    openJobs h ≠ [] := by
  have I := sinv_run hl
  have := I.blocked hb
  rw [I.pending] at this
  intro hh; rw [hh] at this; simp at this

/-- C25: when all requests are done, starting `drain()` or resuming it makes it return. -/
theorem C25_drain_returns (h : List (SEv k J R)) (hl : LegalS h) (hd : openJobs h = []) :
    (Sched.run (h ++ [.drain])).waiter = .returned ∧
    ((Sched.run h).waiter = .woken → (Sched.run (h ++ [.resume])).waiter = .returned) := by
  have I := sinv_run hl
  have h0 : (Sched.run h).npending = 0 := by rw [I.pending, hd]; rfl
  constructor
  · rw [sched_run_snoc]; simp [Sched.step, Sched.drainLoop, h0]
  · intro hw; rw [sched_run_snoc]; simp [Sched.step, Sched.drainLoop, h0, hw]

/-- C25: the assertion at the start of `drain()` never fails. -/
theorem C25_drain_assertion_holds (h : List (SEv k J R)) (hl : LegalS h) : (Sched.run h).drainAssert := by
  have I := sinv_run hl
  unfold Sched.drainAssert
  rw [I.pending]
  have hnd : (openJobs h).Nodup := (scheduled_nodup hl).filter _
  -- split by workers
  have hsplit : ∀ l : List (Fin k × J), (l.length : Int) = ∑ w, ((l.filter (fun p => decide (p.1 = w))).length : Int) := by
    intro l
    induction l with
    | nil => simp
    | cons p l ih =>
      have : ∀ w, (((p :: l).filter (fun q => decide (q.1 = w))).length : Int) =
          ((l.filter (fun q => decide (q.1 = w))).length : Int) + if p.1 = w then 1 else 0 := by
        intro w
        by_cases hw : p.1 = w <;> simp [List.filter_cons, hw]
      rw [Finset.sum_congr rfl (fun w _ => this w), Finset.sum_add_distrib, ← ih]
      simp
  rw [hsplit]
  apply Finset.sum_le_sum
  intro w _
  obtain ⟨d, Iw⟩ := I.workers w
  have hal := (I.workers w).alive
  norm_cast
  -- an injection into the keys of the callbacks
  set l := (openJobs h).filter (fun p => decide (p.1 = w)) with hl'
  have hl1 : ∀ p ∈ l, p.1 = w ∧ (p.2, true) ∈ requested (projH w h) ∧ (p.2, true) ∉ answered (projH w h) := by
    intro p hp
    rw [hl', List.mem_filter] at hp
    obtain ⟨hp1, hp2⟩ := hp
    have hpw : p.1 = w := by simpa using hp2
    unfold openJobs at hp1
    rw [List.mem_filter] at hp1
    have h2 := hp1.2
    simp only [decide_eq_true_eq] at h2
    rw [hpw] at h2
    refine ⟨hpw, (scheduled_iff h w p.2).1 ?_, h2.1⟩
    rw [← hpw]; exact hp1.1
  have hlnd : l.Nodup := hnd.filter _
  have hmap : (l.map (fun p => (((Sched.run h).workers w).tokenOf (p.2, true)).getD 0)).Nodup := by
    refine (List.nodup_map_iff_inj_on hlnd).2 ?_
    intro p hp q hq hpq
    obtain ⟨hp1, hp2, hp3⟩ := hl1 p hp
    obtain ⟨hq1, hq2, hq3⟩ := hl1 q hq
    obtain ⟨t, ht, htm⟩ := (I.workers w).token hp2
    obtain ⟨t', ht', htm'⟩ := (I.workers w).token hq2
    rw [ht, ht'] at hpq
    simp only [Option.getD_some] at hpq
    subst hpq
    rcases Iw.uniq t _ _ htm htm' hq3 with h1 | h1
    · have : p.2 = q.2 := by simpa using h1
      exact Prod.ext (by rw [hp1, hq1]) this
    · exact absurd (Iw.shadowAns _ h1) hp3
  have hsub : ∀ t ∈ l.map (fun p => (((Sched.run h).workers w).tokenOf (p.2, true)).getD 0),
      t ∈ ((Sched.run h).workers w).callbacks.map (·.1) := by
    intro t ht
    obtain ⟨p, hp, rfl⟩ := List.mem_map.1 ht
    obtain ⟨hp1, hp2, hp3⟩ := hl1 p hp
    obtain ⟨t, ht, htm⟩ := (I.workers w).token hp2
    rw [ht]; simp only [Option.getD_some]
    by_contra hcon
    have hn := Dict.get?_none_of_not_mem _ _ hcon
    have := (Iw.cb hal t _).2 ⟨_, htm, hp3, rfl⟩
    rw [hn] at this; cases this
  have hle := (hmap.subperm hsub).length_le
  simpa using hle

/-- C25, defect: cancelling the same unanswered request twice decrements `npending` twice, so that
`drain()` returns although the other request is still pending. -/
theorem C25_double_cancel_breaks_count :
    let h : List (SEv 1 Nat Nat) := [.callCb 0 0, .callCb 0 1, .cancel 0 0, .cancel 0 0, .drain]
    (Sched.run h).npending = 0 ∧ (Sched.run h).waiter = .returned ∧ openJobs h = [(0, 1)] := by
  decide

/-! ### A concrete case meeting the hypotheses -/

/-- Two workers, answers out of order, one cancelled request, a direct call. -/
def sampleSched : List (SEv 2 Nat Nat) :=
  [.multicall 0 [7, 8], .callCb 0 0, .callCb 1 1, .respond 0 (8, false) 5, .drain, .callPlain 1 9, .cancel 1 1,
   .callCb 1 2, .respond 1 (1, true) 4, .respond 1 (2, true) 6, .respond 0 (0, true) 3, .resume]

theorem legal_of_check' {J R : Type} : ∀ (l h : List (Ev J R)), Legal h →
    (∀ k, (hk : k < l.length) → Allowed (h ++ l.take k) (l[k])) → Legal (h ++ l) := by
  intro l
  induction l with
  | nil => intro h hl _; simpa using hl
  | cons e l ih =>
    intro h hl hk
    have h0 := hk 0 (by simp)
    have := ih (h ++ [e]) (Legal.snoc hl (by simpa using h0)) (fun k hk' => by
      have := hk (k+1) (by simpa using hk')
      simpa using this)
    simpa using this

example : LegalS sampleSched := by
  constructor
  · intro w
    fin_cases w
    · have hp : projH (0 : Fin 2) sampleSched = [.multicall [(7, false), (8, false)], .call (0, true), .respond (8, false) 5,
        .respond (0, true) 3] := by rfl
      show Legal (projH (0 : Fin 2) sampleSched)
      rw [hp]
      refine legal_of_check' _ [] Legal.nil ?_
      intro k hk
      have : k < 4 := hk
      interval_cases k <;> simp [Allowed, requested, Ev.requests, answered, lastCall, shadowed, track]
    · have hp : projH (1 : Fin 2) sampleSched = [.call (1, true), .call (9, false), .cancel (1, true), .call (2, true),
        .respond (1, true) 4, .respond (2, true) 6] := by rfl
      show Legal (projH (1 : Fin 2) sampleSched)
      rw [hp]
      refine legal_of_check' _ [] Legal.nil ?_
      intro k hk
      have : k < 6 := hk
      interval_cases k <;> simp [Allowed, requested, Ev.requests, answered, lastCall, shadowed, track]
  · intro w j h1 h2 hh hc
    have hlen : h1.length < sampleSched.length := by rw [hh]; simp
    have e1 : sampleSched[h1.length]? = some (.cancel w j) := by rw [hh]; simp
    have e2 : h1 = sampleSched.take h1.length := by rw [hh]; simp
    have : h1.length < 12 := hlen
    generalize h1.length = m at *
    rw [e2] at hc ⊢
    interval_cases m <;> simp [sampleSched] at e1
    obtain ⟨rfl, rfl⟩ := e1
    simp [sampleSched, projH, SEv.proj, cancelled] at hc

example : (Sched.run sampleSched).npending = 0 ∧ (Sched.run sampleSched).waiter = .returned := by decide

end Disteval
end SecDec
