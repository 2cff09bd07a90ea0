import Verif.Spec.Scheduler
import Verif.Proof.Worker
import Mathlib.Algebra.Order.BigOperators.Group.Finset
import Mathlib.Tactic.Ring
/-
The pending counter of `RandomScheduler` is exact.
-/
set_option linter.unusedSectionVars false
namespace SecDec
namespace Disteval

section worker
variable {J R : Type} [DecidableEq J]

/-- Callbacks that never raise. -/
abbrev never : List (J × R) → J → R → Bool := fun _ _ _ => false

omit [DecidableEq J] in
theorem Legal.prefix {h1 h2 : List (Ev J R)} (hl : Legal (h1 ++ h2)) : Legal h1 := by
  induction h2 using List.reverseRecOn with
  | nil => simpa using hl
  | append_singleton h2 e ih =>
    rw [← List.append_assoc] at hl
    generalize hg : h1 ++ h2 ++ [e] = g at hl
    cases hl with
    | nil => simp at hg
    | snoc hl _ =>
      have := List.append_inj' hg (by simp)
      rw [← this.1] at hl
      exact ih hl

omit [DecidableEq J] in
theorem Legal.allowed {h : List (Ev J R)} {e : Ev J R} (hl : Legal (h ++ [e])) : Allowed h e := by
  generalize hg : h ++ [e] = g at hl
  cases hl with
  | nil => simp at hg
  | snoc _ ha =>
    have := List.append_inj' hg (by simp)
    obtain ⟨rfl, h2⟩ := this
    simp at h2; subst h2; exact ha

theorem never_stopped (h : List (Ev J R)) : (expected never h).stopped = false := by
  induction h using List.reverseRecOn with
  | nil => rfl
  | append_singleton h e ih =>
    rw [expected_snoc]
    cases e <;> simp only [Expected.step] <;> try exact ih
    split
    · exact ih
    · rfl

variable {h : List (Ev J R)} {w : Worker J}

/-- The invariant of a worker, for callbacks that never raise. -/
def WInv (h : List (Ev J R)) (w : Worker J) : Prop := ∃ d, Inv never h { worker := w, delivered := d }

theorem WInv.alive (I : WInv h w) : w.dead = false := by
  obtain ⟨d, I⟩ := I
  have := I.deadEq; rw [never_stopped] at this; exact this

theorem WInv.token (I : WInv h w) {j : J} (hj : j ∈ requested h) : ∃ t, w.tokenOf j = some t ∧ (t, j) ∈ w.stdin := by
  obtain ⟨d, I⟩ := I
  obtain ⟨t, ht⟩ := exists_token (w := w) (j := j) (by have := I.req; rw [this]; exact hj)
  exact ⟨t, tokenOf_of_mem (by have := I.req; rw [this]; exact I.nodupReq) ht, ht⟩

theorem WInv.cancel_result (I : WInv h w) {j : J} {t : Nat} (ht : w.tokenOf j = some t)
    (hsh : j ∉ shadowed h) : (w.cancelCb t).2 = decide (j ∉ answered h) := by
  have hd := I.alive
  obtain ⟨d, I⟩ := I
  have hm := mem_of_tokenOf ht
  have hcb := I.cb hd
  by_cases hja : j ∈ answered h
  · have hnone : w.callbacks.get? t = none := by
      rw [Option.eq_none_iff_forall_ne_some]
      intro v hv
      obtain ⟨j', h1, h2, _⟩ := (hcb t v).1 hv
      rcases I.uniq t j j' hm h1 h2 with h | h
      · subst h; exact h2 hja
      · exact hsh h
    simp [Worker.cancelCb, hnone, hja]
  · have hsome : w.callbacks.get? t = some (if j ∈ cancelled h then none else some j) :=
      (hcb t _).2 ⟨j, hm, hja, rfl⟩
    simp [Worker.cancelCb, hsome, hja]

theorem WInv.receive_result (I : WInv h w) {j : J} {t : Nat} (ht : w.tokenOf j = some t) (hja : j ∉ answered h) :
    (w.receive t).2 = if j ∈ cancelled h then none else some j := by
  have hd := I.alive
  obtain ⟨d, I⟩ := I
  have hm := mem_of_tokenOf ht
  have hsome : w.callbacks.get? t = some (if j ∈ cancelled h then none else some j) :=
    (I.cb hd t _).2 ⟨j, hm, hja, rfl⟩
  simp [Worker.receive, hd, hsome]

theorem WInv.step (I : WInv h w) {e : Ev J R} (ha : Allowed h e) {w' : Worker J}
    (hw : ∀ d, ((⟨w, d⟩ : WSys J R).step never e).worker = w') : WInv (h ++ [e]) w' := by
  obtain ⟨d, I⟩ := I
  have := inv_step never I e ha
  refine ⟨((⟨w, d⟩ : WSys J R).step never e).delivered, ?_⟩
  rw [← hw d]; exact this

end worker

theorem length_filter_remove {α : Type} [DecidableEq α] (l : List α) (hn : l.Nodup) (P : α → Bool) (a : α) (ha : a ∈ l)
    (hP : P a = true) : ((l.filter (fun x => P x && !decide (x = a))).length : Int) = (l.filter P).length - 1 := by
  induction l with
  | nil => simp at ha
  | cons b l ih =>
    rw [List.nodup_cons] at hn
    by_cases hb : b = a
    · subst hb
      have : l.filter (fun x => P x && !decide (x = b)) = l.filter P := by
        apply List.filter_congr
        intro x hx
        have : x ≠ b := fun hh => hn.1 (hh ▸ hx)
        simp [this]
      simp [hP, this]
    · have ha' : a ∈ l := by
        rcases List.mem_cons.1 ha with h | h
        · exact absurd h.symm hb
        · exact h
      have := ih hn.2 ha'
      by_cases hPb : P b = true
      · simp only [List.filter_cons, hPb, hb, decide_false, Bool.not_false, Bool.and_true, if_true, List.length_cons]
        push_cast; rw [this]; ring
      · simp [List.filter_cons, hPb, this]

variable {k : Nat} {J R : Type} [DecidableEq J]

theorem projH_snoc (w : Fin k) (h : List (SEv k J R)) (e : SEv k J R) :
    projH w (h ++ [e]) = projH w h ++ (e.proj w).toList := by
  simp only [projH, List.filterMap_append]
  congr 1

theorem answered_append {J : Type} (h g : List (Ev J R)) : answered (h ++ g) = answered h ++ answered g := by
  simp [answered]
theorem cancelled_append {J : Type} (h g : List (Ev J R)) : cancelled (h ++ g) = cancelled h ++ cancelled g := by
  simp [cancelled]
theorem requested_append {J : Type} (h g : List (Ev J R)) : requested (h ++ g) = requested h ++ requested g := by
  simp [requested]

theorem LegalS.prefix {h : List (SEv k J R)} {e : SEv k J R} (hl : LegalS (h ++ [e])) : LegalS h := by
  constructor
  · intro w
    have := hl.workers w
    rw [projH_snoc] at this
    exact this.prefix
  · intro w j h1 h2 hh hc
    exact hl.once w j h1 (h2 ++ [e]) (by rw [hh]; simp) hc

/-- Scheduled requests are the flagged requests of the workers. -/
theorem scheduled_iff (h : List (SEv k J R)) (w : Fin k) (j : J) :
    (w, j) ∈ scheduled h ↔ (j, true) ∈ requested (projH w h) := by
  induction h using List.reverseRecOn with
  | nil => simp [scheduled, projH, requested]
  | append_singleton h e ih =>
    rw [projH_snoc, requested_append, List.mem_append, ← ih]
    have : scheduled (h ++ [e]) = scheduled h ++ scheduled [e] := by simp [scheduled]
    rw [this, List.mem_append]
    apply or_congr_right
    cases e <;> simp only [SEv.proj] <;> (try split) <;> simp_all [scheduled, requested, Ev.requests] <;> tauto

theorem scheduled_nodup {h : List (SEv k J R)} (hl : LegalS h) : (scheduled h).Nodup := by
  induction h using List.reverseRecOn with
  | nil => simp [scheduled]
  | append_singleton h e ih =>
    have : scheduled (h ++ [e]) = scheduled h ++ scheduled [e] := by simp [scheduled]
    rw [this, List.nodup_append]
    refine ⟨ih hl.prefix, by cases e <;> simp [scheduled], ?_⟩
    rintro ⟨w, j⟩ h1 b h2 rfl
    have hw := hl.workers w
    cases e <;> simp [scheduled] at h2
    obtain ⟨rfl, rfl⟩ := h2
    rw [projH_snoc] at hw
    simp only [SEv.proj, if_true, Option.toList_some] at hw
    exact hw.allowed ((scheduled_iff h w j).1 h1)

theorem sched_run_snoc (h : List (SEv k J R)) (e : SEv k J R) :
    Sched.run (h ++ [e]) = (Sched.run h).step e := by
  simp [Sched.run, List.foldl_append]

/-- What is known about a scheduler after the history `h`. -/
structure SInv (h : List (SEv k J R)) (s : Sched k J R) : Prop where
  workers : ∀ w, WInv (projH w h) (s.workers w)
  pending : s.npending = (openJobs h).length
  blocked : s.waiter = .blocked → 0 < s.npending

theorem decPending_workers (s : Sched k J R) : s.decPending.workers = s.workers := by
  unfold Sched.decPending; split <;> rfl
theorem decPending_npending (s : Sched k J R) : s.decPending.npending = s.npending - 1 := by
  unfold Sched.decPending; split <;> rfl
theorem decPending_blocked (s : Sched k J R) (hb : s.waiter = .blocked → 0 < s.npending) :
    s.decPending.waiter = .blocked → 0 < s.decPending.npending := by
  unfold Sched.decPending
  split
  · intro hh
    simp only at hh
    split at hh
    · cases hh
    · rename_i h1; exact absurd hh h1
  · intro hh
    have := hb hh
    simp only; omega

theorem workers_step {h : List (SEv k J R)} {ws : Fin k → Worker (J × Bool)} (I : ∀ w, WInv (projH w h) (ws w))
    (e : SEv k J R) (w : Fin k) (ev : Ev (J × Bool) R) (he : e.proj w = some ev)
    (hne : ∀ w', w' ≠ w → e.proj w' = none) (ha : Allowed (projH w h) ev) (w' : Worker (J × Bool))
    (hw : ∀ d, ((⟨ws w, d⟩ : WSys (J × Bool) R).step never ev).worker = w') :
    ∀ v, WInv (projH v (h ++ [e])) (Function.update ws w w' v) := by
  intro v
  rw [projH_snoc]
  by_cases hv : v = w
  · subst hv
    rw [he, Function.update_self]
    exact (I v).step ha hw
  · rw [hne v hv, Function.update_of_ne hv]
    simpa using I v

theorem workers_skip {h : List (SEv k J R)} {ws : Fin k → Worker (J × Bool)} (I : ∀ w, WInv (projH w h) (ws w))
    (e : SEv k J R) (hne : ∀ w', e.proj w' = none) : ∀ v, WInv (projH v (h ++ [e])) (ws v) := by
  intro v; rw [projH_snoc, hne v]; simpa using I v

/-- Events that do not touch flagged requests keep the open jobs. -/
theorem openJobs_same (h : List (SEv k J R)) (e : SEv k J R) (hs : scheduled [e] = [])
    (ha : ∀ w j, (j, true) ∈ answered ((e.proj w).toList) → False)
    (hc : ∀ w j, (j, true) ∈ cancelled ((e.proj w).toList) → False) : openJobs (h ++ [e]) = openJobs h := by
  unfold openJobs
  have : scheduled (h ++ [e]) = scheduled h ++ scheduled [e] := by simp [scheduled]
  rw [this, hs, List.append_nil]
  apply List.filter_congr
  rintro ⟨w, j⟩ _
  simp only [projH_snoc, answered_append, cancelled_append, List.mem_append]
  have h1 := ha w j
  have h2 := hc w j
  congr 1
  simp only [eq_iff_iff]
  tauto

theorem sinv_step {h : List (SEv k J R)} {s : Sched k J R} (I : SInv h s) (e : SEv k J R) (hl : LegalS (h ++ [e])) :
    SInv (h ++ [e]) (s.step e) := by
  have hlp := hl.prefix
  have hnd := scheduled_nodup hlp
  cases e with
  | callCb w j =>
    have hA : Allowed (projH w h) (.call (j, true) : Ev (J × Bool) R) := by
      have := hl.workers w
      rw [projH_snoc] at this
      simp only [SEv.proj, if_true, Option.toList_some] at this
      exact this.allowed
    have hnr : (j, true) ∉ requested (projH w h) := hA
    have hopen : openJobs (h ++ [.callCb w j]) = openJobs h ++ [(w, j)] := by
      unfold openJobs
      have : scheduled (h ++ [.callCb w j]) = scheduled h ++ [(w, j)] := by simp [scheduled]
      rw [this, List.filter_append]
      have hans : ∀ v, answered (projH v (h ++ [.callCb w j])) = answered (projH v h) := by
        intro v; rw [projH_snoc, answered_append]; simp only [SEv.proj]; split <;> simp [answered]
      have hcan : ∀ v, cancelled (projH v (h ++ [.callCb w j])) = cancelled (projH v h) := by
        intro v; rw [projH_snoc, cancelled_append]; simp only [SEv.proj]; split <;> simp [cancelled]
      congr 1
      · apply List.filter_congr; intro p _; rw [hans, hcan]
      · obtain ⟨d, Iw⟩ := I.workers w
        simp only [hans, hcan]
        have h1 : (j, true) ∉ answered (projH w h) := fun hh => hnr (Iw.ansReq _ hh)
        have h2 : (j, true) ∉ cancelled (projH w h) := fun hh => hnr (Iw.cancReq _ hh)
        simp [h1, h2]
    refine ⟨workers_step I.workers _ w (.call (j, true)) (by simp [SEv.proj]) (fun w' hw' => by simp [SEv.proj, hw'.symm]) hA _
      (fun d => rfl), ?_, ?_⟩
    · rw [hopen]; simp [Sched.step, I.pending]
    · intro hb; have := I.blocked hb; simp only [Sched.step]; omega
  | callPlain w j =>
    have hA : Allowed (projH w h) (.call (j, false) : Ev (J × Bool) R) := by
      have := hl.workers w
      rw [projH_snoc] at this
      simp only [SEv.proj, if_true, Option.toList_some] at this
      exact this.allowed
    have hopen : openJobs (h ++ [.callPlain w j]) = openJobs h := by
      apply openJobs_same _ _ (by simp [scheduled])
      · intro v i; simp only [SEv.proj]; split <;> simp [answered]
      · intro v i; simp only [SEv.proj]; split <;> simp [cancelled]
    exact ⟨workers_step I.workers _ w (.call (j, false)) (by simp [SEv.proj]) (fun w' hw' => by simp [SEv.proj, hw'.symm]) hA _
      (fun d => rfl), by rw [hopen]; exact I.pending, I.blocked⟩
  | multicall w js =>
    have hA : Allowed (projH w h) (.multicall (js.map (fun j => (j, false))) : Ev (J × Bool) R) := by
      have := hl.workers w
      rw [projH_snoc] at this
      simp only [SEv.proj, if_true, Option.toList_some] at this
      exact this.allowed
    have hopen : openJobs (h ++ [.multicall w js]) = openJobs h := by
      apply openJobs_same _ _ (by simp [scheduled])
      · intro v i; simp only [SEv.proj]; split <;> simp [answered]
      · intro v i; simp only [SEv.proj]; split <;> simp [cancelled]
    exact ⟨workers_step I.workers _ w (.multicall _) (by simp [SEv.proj]) (fun w' hw' => by simp [SEv.proj, hw'.symm]) hA _
      (fun d => rfl), by rw [hopen]; exact I.pending, I.blocked⟩
  | cancel w j =>
    have hA : Allowed (projH w h) (.cancel (j, true) : Ev (J × Bool) R) := by
      have := hl.workers w
      rw [projH_snoc] at this
      simp only [SEv.proj, if_true, Option.toList_some] at this
      exact this.allowed
    obtain ⟨hA1, hA2⟩ := id hA
    obtain ⟨t, htok, hmem⟩ := (I.workers w).token hA1
    have hres := (I.workers w).cancel_result htok hA2
    have hW := workers_step (ws := s.workers) I.workers (.cancel w j) w (.cancel (j, true)) (by simp [SEv.proj])
      (fun w' hw' => by simp [SEv.proj, hw'.symm]) hA ((s.workers w).cancelCb t).1
      (fun d => by simp only [WSys.step, htok])
    have hstep : s.step (.cancel w j) = if (j, true) ∉ answered (projH w h) then
        Sched.decPending { s with workers := Function.update s.workers w ((s.workers w).cancelCb t).1 }
        else { s with workers := Function.update s.workers w ((s.workers w).cancelCb t).1 } := by
      simp only [Sched.step, htok, hres, decide_eq_true_eq]
    rw [hstep]
    have hans : ∀ v, answered (projH v (h ++ [.cancel w j])) = answered (projH v h) := by
      intro v; rw [projH_snoc, answered_append]; simp only [SEv.proj]; split <;> simp [answered]
    have hcan : ∀ v i, (i, true) ∈ cancelled (projH v (h ++ [.cancel w j])) ↔
        (i, true) ∈ cancelled (projH v h) ∨ (v, i) = (w, j) := by
      intro v i; rw [projH_snoc, cancelled_append, List.mem_append]
      apply or_congr_right
      simp only [SEv.proj, Prod.mk.injEq]
      by_cases hv : w = v
      · simp [hv, cancelled]
      · have hv' : v ≠ w := fun hh => hv hh.symm
        simp [hv, hv', cancelled]
    have hsch : scheduled (h ++ [.cancel w j]) = scheduled h := by simp [scheduled]
    by_cases hja : (j, true) ∈ answered (projH w h)
    · rw [if_neg (by simpa using hja)]
      refine ⟨hW, ?_, I.blocked⟩
      have : openJobs (h ++ [.cancel w j]) = openJobs h := by
        unfold openJobs
        rw [hsch]
        apply List.filter_congr
        rintro ⟨v, i⟩ _
        simp only [hans, hcan]
        congr 1
        simp only [eq_iff_iff, not_or]
        constructor
        · rintro ⟨h1, h2, _⟩; exact ⟨h1, h2⟩
        · rintro ⟨h1, h2⟩
          refine ⟨h1, h2, ?_⟩
          rintro hh
          obtain ⟨rfl, rfl⟩ := Prod.mk.inj hh
          exact h1 hja
      rw [this]; exact I.pending
    · rw [if_pos hja]
      have hjc : (j, true) ∉ cancelled (projH w h) := fun hh => hja (hl.once w j h [] rfl hh)
      refine ⟨by rw [decPending_workers]; exact hW, ?_, decPending_blocked _ I.blocked⟩
      rw [decPending_npending]
      have hin : (w, j) ∈ scheduled h := (scheduled_iff h w j).2 hA1
      have := length_filter_remove (scheduled h) hnd
        (fun p => decide ((p.2, true) ∉ answered (projH p.1 h) ∧ (p.2, true) ∉ cancelled (projH p.1 h))) (w, j) hin
        (by simp [hja, hjc])
      have h2 : openJobs (h ++ [.cancel w j]) = (scheduled h).filter (fun x =>
          decide ((x.2, true) ∉ answered (projH x.1 h) ∧ (x.2, true) ∉ cancelled (projH x.1 h)) && !decide (x = (w, j))) := by
        unfold openJobs
        rw [hsch]
        apply List.filter_congr
        rintro ⟨v, i⟩ _
        rw [Bool.eq_iff_iff]
        simp only [hans, hcan, Bool.and_eq_true, Bool.not_eq_true', decide_eq_true_eq, decide_eq_false_iff_not]
        tauto
      rw [h2, this, I.pending]; rfl
  | respond w j r =>
    have hA : Allowed (projH w h) (.respond j r : Ev (J × Bool) R) := by
      have := hl.workers w
      rw [projH_snoc] at this
      simp only [SEv.proj, if_true, Option.toList_some] at this
      exact this.allowed
    obtain ⟨hA1, hA2⟩ := id hA
    obtain ⟨t, htok, hmem⟩ := (I.workers w).token hA1
    have hres := (I.workers w).receive_result htok hA2
    have hW := workers_step (ws := s.workers) I.workers (.respond w j r) w (.respond j r) (by simp [SEv.proj])
      (fun w' hw' => by simp [SEv.proj, hw'.symm]) hA ((s.workers w).receive t).1
      (fun d => by
        simp only [WSys.step, htok]
        cases ((s.workers w).receive t).2 <;> simp)
    have hcan : ∀ v, cancelled (projH v (h ++ [.respond w j r])) = cancelled (projH v h) := by
      intro v; rw [projH_snoc, cancelled_append]; simp only [SEv.proj]; split <;> simp [cancelled]
    have hans : ∀ v i, (i, true) ∈ answered (projH v (h ++ [.respond w j r])) ↔
        (i, true) ∈ answered (projH v h) ∨ (v, (i, true)) = (w, j) := by
      intro v i; rw [projH_snoc, answered_append, List.mem_append]
      apply or_congr_right
      simp only [SEv.proj, Prod.mk.injEq]
      by_cases hv : w = v
      · simp [hv, answered]
      · have hv' : v ≠ w := fun hh => hv hh.symm
        simp [hv, hv', answered]
    have hsch : scheduled (h ++ [.respond w j r]) = scheduled h := by simp [scheduled]
    obtain ⟨j, b⟩ := j
    have hsame : (b = false ∨ (j, b) ∈ cancelled (projH w h)) → openJobs (h ++ [.respond w (j, b) r]) = openJobs h := by
      intro hb
      unfold openJobs
      rw [hsch]
      apply List.filter_congr
      rintro ⟨v, i⟩ _
      simp only [hans, hcan]
      congr 1
      simp only [eq_iff_iff, not_or]
      constructor
      · rintro ⟨⟨h1, _⟩, h2⟩; exact ⟨h1, h2⟩
      · rintro ⟨h1, h2⟩
        refine ⟨⟨h1, ?_⟩, h2⟩
        intro hh
        simp only [Prod.mk.injEq] at hh
        obtain ⟨rfl, rfl, rfl⟩ := hh
        rcases hb with hb | hb
        · cases hb
        · exact h2 hb
    by_cases hc : (j, b) ∈ cancelled (projH w h)
    · rw [if_pos hc] at hres
      have hstep : s.step (.respond w (j, b) r) =
          { s with workers := Function.update s.workers w ((s.workers w).receive t).1 } := by
        simp only [Sched.step, htok, hres]
      rw [hstep]
      exact ⟨hW, by rw [hsame (Or.inr hc)]; exact I.pending, I.blocked⟩
    · rw [if_neg hc] at hres
      cases b with
      | false =>
        have hstep : s.step (.respond w (j, false) r) =
            { s with workers := Function.update s.workers w ((s.workers w).receive t).1 } := by
          simp only [Sched.step, htok, hres]
        rw [hstep]
        exact ⟨hW, by rw [hsame (Or.inl rfl)]; exact I.pending, I.blocked⟩
      | true =>
        have hstep : s.step (.respond w (j, true) r) =
            { (Sched.decPending { s with workers := Function.update s.workers w ((s.workers w).receive t).1 }) with
              delivered := s.delivered ++ [(w, j, r)] } := by
          simp only [Sched.step, htok, hres]
        rw [hstep]
        refine ⟨by simp only [decPending_workers]; exact hW, ?_, ?_⟩
        · simp only [decPending_npending]
          have hin : (w, j) ∈ scheduled h := (scheduled_iff h w j).2 hA1
          have := length_filter_remove (scheduled h) hnd
            (fun p => decide ((p.2, true) ∉ answered (projH p.1 h) ∧ (p.2, true) ∉ cancelled (projH p.1 h))) (w, j) hin
            (by simp [hA2, hc])
          have h2 : openJobs (h ++ [.respond w (j, true) r]) = (scheduled h).filter (fun x =>
              decide ((x.2, true) ∉ answered (projH x.1 h) ∧ (x.2, true) ∉ cancelled (projH x.1 h)) && !decide (x = (w, j))) := by
            unfold openJobs
            rw [hsch]
            apply List.filter_congr
            rintro ⟨v, i⟩ _
            rw [Bool.eq_iff_iff]
            simp only [hans, hcan, Bool.and_eq_true, Bool.not_eq_true', decide_eq_true_eq, decide_eq_false_iff_not,
              Prod.mk.injEq]
            tauto
          rw [h2, this, I.pending]; rfl
        · exact decPending_blocked _ I.blocked
  | drain =>
    have hopen : openJobs (h ++ [.drain]) = openJobs h := by
      apply openJobs_same _ _ (by simp [scheduled]) <;> intro v i <;> simp [SEv.proj, answered, cancelled]
    have hW := workers_skip I.workers (.drain) (fun _ => rfl)
    simp only [Sched.step, Sched.drainLoop]
    split
    · rename_i hp; exact ⟨hW, by rw [hopen]; exact I.pending, fun _ => hp⟩
    · exact ⟨hW, by rw [hopen]; exact I.pending, fun hh => by cases hh⟩
  | resume =>
    have hopen : openJobs (h ++ [.resume]) = openJobs h := by
      apply openJobs_same _ _ (by simp [scheduled]) <;> intro v i <;> simp [SEv.proj, answered, cancelled]
    have hW := workers_skip I.workers (.resume) (fun _ => rfl)
    simp only [Sched.step, Sched.drainLoop]
    split
    · split
      · rename_i hp; exact ⟨hW, by rw [hopen]; exact I.pending, fun _ => hp⟩
      · exact ⟨hW, by rw [hopen]; exact I.pending, fun hh => by cases hh⟩
    · exact ⟨hW, by rw [hopen]; exact I.pending, I.blocked⟩
  | timeout =>
    have hopen : openJobs (h ++ [.timeout]) = openJobs h := by
      apply openJobs_same _ _ (by simp [scheduled]) <;> intro v i <;> simp [SEv.proj, answered, cancelled]
    have hW := workers_skip I.workers (.timeout) (fun _ => rfl)
    exact ⟨hW, by rw [hopen]; exact I.pending, fun hh => by cases hh⟩

theorem sinv_run {h : List (SEv k J R)} (hl : LegalS h) : SInv h (Sched.run h) := by
  induction h using List.reverseRecOn with
  | nil => exact ⟨fun w => ⟨[], inv_nil never⟩, by simp [openJobs, scheduled, Sched.run, Sched.init], fun hh => by cases hh⟩
  | append_singleton h e ih => rw [sched_run_snoc]; exact sinv_step (ih hl.prefix) e hl

end Disteval
end SecDec
