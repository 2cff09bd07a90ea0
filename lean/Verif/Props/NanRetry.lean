import Verif.Proof.NanRetry
/-
C26: retries after NaN in the integration loop of `disteval`.
-/
set_option linter.unusedSectionVars false
namespace SecDec
namespace Disteval
namespace Eval
variable {k : Nat} {K : Type} {ns : Nat} {D V : Type} [DecidableEq K] [DecidableEq D]

/-- C26: in every reachable state without open requests (as guaranteed by `drain()`, see C25), for every
kernel that has been scheduled, the stored values of *all* random shifts are answers of the worker
processes to requests for that kernel and shift which were made with the current parameters of the
kernel, and which have not been cancelled. -/
theorem C26_one_parameter_set (shrink : D → D) (d0 : D) (st : Eval k K ns D V) (h : Reachable shrink d0 st)
    (hd : openJobs st.log = []) (idx : K) (s0 : Fin ns) (hs0 : st.tag idx s0 ≠ none) (s : Fin ns) :
    ∃ w j v, st.val idx s = some (j, v) ∧ j.idx = idx ∧ j.shift = s ∧ j.params = st.params idx ∧
      SEv.respond w (j, true) (some v) ∈ st.log ∧ (j, true) ∉ cancelled (projH w st.log) := by
  have G := good_reachable shrink d0 h
  obtain ⟨⟨w, j⟩, ht⟩ := Option.ne_none_iff_exists'.1 (G.full idx s0 s hs0)
  have h1 := G.base.tagSch idx s w j ht
  have h2 := G.tagCan idx s w j ht
  have h3 : Ans st.log w j := by
    by_contra hna
    have : (w, j) ∈ openJobs st.log := (mem_openJobs _ _ _).2 ⟨h1.1, hna, h2⟩
    rw [hd] at this; simp at this
  obtain ⟨v, h4, h5⟩ := G.vals idx s w j ht h3
  exact ⟨w, j, v, h4, h1.2.1, h1.2.2, G.param idx s w j ht, h5, h2⟩

/-- C26: the answer to a cancelled request changes neither the stored values nor the parameters. -/
theorem C26_cancelled_answers_ignored (shrink : D → D) (d0 : D) (st : Eval k K ns D V) (h : Reachable shrink d0 st)
    (w : Fin k) (j : Job K ns D) (r : Option V) (ch : Fin ns → Fin k) (ha : Allowed st (.respond w j r ch))
    (hc : (j, true) ∈ cancelled (projH w st.log)) :
    (st.step shrink (.respond w j r ch)).val = st.val ∧ (st.step shrink (.respond w j r ch)).params = st.params := by
  have G := good_reachable shrink d0 h
  have hdel := respond_delivered (sinv_run G.base.legal) w j r ha.1 ha.2
  rw [← G.base.run, if_pos hc, List.append_nil] at hdel
  have hd2 : (st.emit (.respond w (j, true) r)).sched.delivered = st.sched.delivered := hdel
  simp only [Eval.step]
  rw [if_neg (by rw [hd2]; omega)]
  exact ⟨rfl, rfl⟩

/-- C26: an open request of a kernel is always the current one of its shift: after a NaN all requests
made with the old parameters are answered or cancelled. -/
theorem C26_open_requests_current (shrink : D → D) (d0 : D) (st : Eval k K ns D V) (h : Reachable shrink d0 st)
    (w : Fin k) (j : Job K ns D) (hj : (w, j) ∈ openJobs st.log) : j.params = st.params j.idx := by
  have G := good_reachable shrink d0 h
  obtain ⟨h1, h2, h3⟩ := (mem_openJobs _ _ _).1 hj
  exact G.param _ _ _ _ (G.openTag w j h1 h2 h3)

/-- C26: the loop uses the scheduler legally (in particular it never cancels an unanswered request
twice), so that by C25 `npending` is exact throughout. -/
theorem C26_scheduler_used_legally (shrink : D → D) (d0 : D) (st : Eval k K ns D V) (h : Reachable shrink d0 st) :
    LegalS st.log ∧ st.sched.npending = (openJobs st.log).length := by
  have G := good_reachable shrink d0 h
  refine ⟨G.base.legal, ?_⟩
  rw [G.base.run]; exact (sinv_run G.base.legal).pending

/-! ### A concrete execution, and a defect -/

/-- One worker, one kernel, two shifts: shift 0 is answered, shift 1 gives NaN, both are scheduled again
with smaller parameters, then the new shift 1 is answered. -/
def sampleRun : List (Event 1 Unit 2 Nat Nat) :=
  [.start () 100 (fun _ => 0),
   .respond 0 ⟨0, (), 0, 100⟩ (some 5) (fun _ => 0),
   .respond 0 ⟨1, (), 1, 100⟩ none (fun _ => 0),
   .respond 0 ⟨3, (), 1, 90⟩ (some 6) (fun _ => 0)]

/-- The states of this execution. -/
def sampleAt (m : Nat) : Eval 1 Unit 2 Nat Nat := (sampleRun.take m).foldl (Eval.step (fun d => d * 9 / 10)) (init 100)
def sampleState : Eval 1 Unit 2 Nat Nat := sampleAt 4

theorem sample_reachable : Reachable (fun d => d * 9 / 10) 100 sampleState := by
  have h0 : Reachable (fun d => d * 9 / 10) 100 (sampleAt 0) := Reachable.init
  have h1 : Reachable (fun d => d * 9 / 10) 100 (sampleAt 1) := by
    refine Reachable.step (e := .start () 100 (fun _ => 0)) h0 ?_
    intro w j hj; simp [sampleAt, init, openJobs, scheduled] at hj
  have h2 : Reachable (fun d => d * 9 / 10) 100 (sampleAt 2) := by
    refine Reachable.step (e := .respond 0 ⟨0, (), 0, 100⟩ (some 5) (fun _ => 0)) h1 ?_
    constructor <;> decide
  have h3 : Reachable (fun d => d * 9 / 10) 100 (sampleAt 3) := by
    refine Reachable.step (e := .respond 0 ⟨1, (), 1, 100⟩ none (fun _ => 0)) h2 ?_
    constructor <;> decide
  refine Reachable.step (e := .respond 0 ⟨3, (), 1, 90⟩ (some 6) (fun _ => 0)) h3 ?_
  constructor <;> decide

/-- C26, defect: before the requests are drained, i.e. if the time limit is reached after a NaN, all
shifts of a kernel can have values although they belong to different deformation parameters; the early
exit (`disteval.py:750-758`) accepts a kernel if none of its shifts is NaN. -/
theorem C26_timeout_mixes_parameters :
    ∃ st : Eval 1 Unit 2 Nat Nat, Reachable (fun d => d * 9 / 10) 100 st ∧
      (st.val () 0).map (fun p => (p.1.params, p.2)) = some (100, 5) ∧
      (st.val () 1).map (fun p => (p.1.params, p.2)) = some (90, 6) :=
  ⟨sampleState, sample_reachable, by decide, by decide⟩

/-- After the last answer all requests are done. -/
example : Reachable (fun d => d * 9 / 10) 100
      (sampleState.step (fun d => d * 9 / 10) (.respond 0 ⟨2, (), 0, 90⟩ (some 7) (fun _ => 0))) ∧
    openJobs (sampleState.step (fun d => d * 9 / 10) (.respond 0 ⟨2, (), 0, 90⟩ (some 7) (fun _ => 0))).log = [] ∧
    (sampleState.step (fun d => d * 9 / 10) (.respond 0 ⟨2, (), 0, 90⟩ (some 7) (fun _ => 0))).tag () 0 ≠ none := by
  refine ⟨Reachable.step sample_reachable ?_, by decide, by decide⟩
  constructor <;> decide

end Eval
end Disteval
end SecDec
