import Verif.Proof.Worker
import Mathlib.Data.List.Perm.Basic
import Mathlib.Data.List.Range
import Mathlib.Tactic.IntervalCases
/-
C24: remote procedure calls of `disteval.Worker`.
-/
namespace SecDec
namespace Disteval
variable {J R : Type} [DecidableEq J]

/-- C24: after every legal history of requests, cancellations and answers, in any interleaving, the
callbacks invoked are those of the requests that were answered and not cancelled before, each with the
answer to its own request, in the order of the answers; after the first callback that raises an
exception nothing is delivered any more. -/
theorem C24_delivery (raises : List (J × R) → J → R → Bool) (h : List (Ev J R)) (hl : Legal h) :
    (WSys.run raises h).delivered = (expected raises h).delivered ∧
    (WSys.run raises h).worker.dead = (expected raises h).stopped :=
  ⟨(inv_run raises hl).deliv, (inv_run raises hl).deadEq⟩

theorem expected_cancelled (raises : List (J × R) → J → R → Bool) (h : List (Ev J R)) (j : J) :
    j ∈ (expected raises h).cancelled ↔ j ∈ cancelled h := by
  induction h using List.reverseRecOn with
  | nil => simp [expected, cancelled]
  | append_singleton h e ih =>
    rw [expected_snoc]
    have : cancelled (h ++ [e]) = cancelled h ++ cancelled [e] := by simp [cancelled]
    rw [this, List.mem_append, ← ih]
    cases e
    · simp [Expected.step, cancelled]
    · simp [Expected.step, cancelled]
    · simp [Expected.step, cancelled]; tauto
    · simp only [Expected.step]; split <;> simp [cancelled]

omit [DecidableEq J] in
theorem split_snoc (h : List (Ev J R)) (e x : Ev J R) (P : List (Ev J R) → Prop) :
    (∃ h1 h2, h ++ [e] = h1 ++ x :: h2 ∧ P h1) ↔ (∃ h1 h2, h = h1 ++ x :: h2 ∧ P h1) ∨ (e = x ∧ P h) := by
  constructor
  · rintro ⟨h1, h2, h3, h4⟩
    rcases List.eq_nil_or_concat h2 with rfl | ⟨h2, y, rfl⟩
    · have := List.append_inj' h3 (by simp)
      obtain ⟨rfl, h5⟩ := this
      simp at h5
      exact Or.inr ⟨h5, h4⟩
    · rw [List.concat_eq_append, ← List.cons_append, ← List.append_assoc] at h3
      have := List.append_inj' h3 (by simp)
      exact Or.inl ⟨h1, h2, this.1, h4⟩
  · rintro (⟨h1, h2, rfl, h4⟩ | ⟨rfl, h4⟩)
    · exact ⟨h1, h2 ++ [e], by simp, h4⟩
    · exact ⟨h, [], rfl, h4⟩

theorem expected_mem (raises : List (J × R) → J → R → Bool) (h : List (Ev J R)) (j : J) (r : R) :
    (j, r) ∈ (expected raises h).delivered → ∃ h1 h2, h = h1 ++ .respond j r :: h2 ∧ j ∉ cancelled h1 := by
  induction h using List.reverseRecOn with
  | nil => simp [expected]
  | append_singleton h e ih =>
    rw [expected_snoc, split_snoc]
    intro hm
    cases e with
    | respond j' r' =>
      simp only [Expected.step] at hm
      split at hm
      · exact Or.inl (ih hm)
      · rename_i hc
        simp only [Bool.or_eq_true, decide_eq_true_eq, not_or] at hc
        rw [List.mem_append] at hm
        rcases hm with hm | hm
        · exact Or.inl (ih hm)
        · simp at hm; obtain ⟨rfl, rfl⟩ := hm
          exact Or.inr ⟨rfl, fun hh => hc.2 ((expected_cancelled raises h j).2 hh)⟩
    | _ => exact Or.inl (ih hm)

/-- C24: no callback is invoked twice, and every invocation belongs to an answer to that very request
that arrived while the request was not cancelled. -/
theorem C24_at_most_once (raises : List (J × R) → J → R → Bool) (h : List (Ev J R)) (hl : Legal h) :
    ((WSys.run raises h).delivered.map (·.1)).Nodup ∧
    ∀ j r, (j, r) ∈ (WSys.run raises h).delivered →
      ∃ h1 h2, h = h1 ++ .respond j r :: h2 ∧ j ∉ cancelled h1 := by
  have key : ∀ h : List (Ev J R), Legal h → ((expected raises h).delivered.map (·.1)).Nodup ∧
      ∀ j ∈ (expected raises h).delivered.map (·.1), j ∈ answered h := by
    intro h hl
    induction hl with
    | nil => simp [expected]
    | @snoc h e hl ha ih =>
      rw [expected_snoc]
      have hans : ∀ j ∈ answered h, j ∈ answered (h ++ [e]) := fun j hj => by
        simp only [answered, List.filterMap_append, List.mem_append]; exact Or.inl hj
      have hold : ((expected raises h).delivered.map (·.1)).Nodup ∧
          ∀ j ∈ (expected raises h).delivered.map (·.1), j ∈ answered (h ++ [e]) :=
        ⟨ih.1, fun j hj => hans j (ih.2 j hj)⟩
      cases e with
      | respond j r =>
        simp only [Expected.step]
        split
        · exact hold
        · obtain ⟨ha1, ha2⟩ := ha
          constructor
          · rw [List.map_append, List.nodup_append]
            refine ⟨ih.1, by simp, ?_⟩
            intro a h1 b h2 hab
            simp at h2; subst h2; subst hab
            exact ha2 (ih.2 _ h1)
          · intro j' hj'
            rw [List.map_append, List.mem_append] at hj'
            rcases hj' with hj' | hj'
            · exact hold.2 j' hj'
            · simp at hj'; subst hj'; simp [answered]
      | _ => exact hold
  rw [(C24_delivery raises h hl).1]
  exact ⟨(key h hl).1, fun j r hm => expected_mem raises h j r hm⟩

/-- C24: if no callback raises, the answer `r` to request `j` is delivered if and only if it arrives
while `j` is not cancelled. -/
theorem C24_exactly_once (raises : List (J × R) → J → R → Bool) (hr : ∀ d j r, raises d j r = false)
    (h : List (Ev J R)) (hl : Legal h) (j : J) (r : R) :
    (j, r) ∈ (WSys.run raises h).delivered ↔ ∃ h1 h2, h = h1 ++ .respond j r :: h2 ∧ j ∉ cancelled h1 := by
  rw [(C24_delivery raises h hl).1]
  refine ⟨expected_mem raises h j r, ?_⟩
  have hst : ∀ h : List (Ev J R), (expected raises h).stopped = false := by
    intro h
    induction h using List.reverseRecOn with
    | nil => rfl
    | append_singleton h e ih =>
      rw [expected_snoc]
      cases e <;> simp only [Expected.step] <;> try exact ih
      split
      · exact ih
      · exact hr _ _ _
  clear hl
  induction h using List.reverseRecOn with
  | nil => simp
  | append_singleton h e ih =>
    rw [expected_snoc, split_snoc]
    rintro (hh | ⟨rfl, hh⟩)
    · have := ih hh
      cases e <;> simp only [Expected.step] <;> try exact this
      split
      · exact this
      · exact List.mem_append_left _ this
    · have : j ∉ (expected raises h).cancelled := fun hm => hh ((expected_cancelled raises h j).1 hm)
      simp [Expected.step, hst, this]

/-- C24, defect: a `multicall` issued while the previous `call` is unanswered reuses its token.  The
answer (here `7`) to request `0` is then delivered to the callback of request `1`, the callback of
request `0` is never invoked, and the answer to request `1` stops the reader. -/
theorem C24_multicall_steals_pending_call :
    let h : List (Ev Nat Nat) := [.call 0, .multicall [1, 2], .respond 0 7, .respond 1 8]
    (WSys.run (fun _ _ _ => false) h).delivered = [(1, 7)] ∧
    (WSys.run (fun _ _ _ => false) h).worker.dead = true := by
  decide

/-! ### The future returned by `multicall` -/

/-- The answers received by a `multicall`, `none` for an error; the flag says whether some callback
raised. -/
def multiRun (n : Nat) (as : List (Nat × Option R)) : MultiState R × Bool :=
  as.foldl (fun p a => let q := p.1.onReturn a.1 a.2; (q.1, p.2 || q.2)) (MultiState.init R n, false)

omit [DecidableEq J] in
theorem multiRun_snoc (n : Nat) (as : List (Nat × Option R)) (a : Nat × Option R) :
    multiRun n (as ++ [a]) = ((multiRun n as).1.onReturn a.1 a.2 |>.1,
      (multiRun n as).2 || ((multiRun n as).1.onReturn a.1 a.2).2) := by
  simp [multiRun, List.foldl_append]

theorem multi_inv (n : Nat) (as : List (Nat × R)) (hle : as.length < n) (hn : (as.map (·.1)).Nodup) (hlt : ∀ a ∈ as, a.1 < n) :
    ∃ s, multiRun n (as.map (fun a => (a.1, some a.2))) = (s, false) ∧ s.ntodo = n - as.length ∧
      (match s.fut with | .pending => True | _ => False) ∧ s.results.length = n ∧
      (∀ i r, (i, r) ∈ as → s.results[i]? = some (some r)) := by
  induction as using List.reverseRecOn with
  | nil => exact ⟨MultiState.init R n, rfl, by simp [MultiState.init], by simp [MultiState.init], by simp [MultiState.init], by simp⟩
  | append_singleton as a ih =>
    have hlen : as.length + 1 < n := by simpa using hle
    rw [List.map_append, List.nodup_append] at hn
    obtain ⟨s, h1, h2, h3, h4, h5⟩ := ih (by omega) hn.1 (fun b hb => hlt b (List.mem_append_left _ hb))
    rw [List.map_append, List.map_singleton, multiRun_snoc, h1]
    have hne : ¬ (s.ntodo - 1 = 0) := by omega
    refine ⟨{ s with results := s.results.set a.1 (some a.2), ntodo := s.ntodo - 1 }, ?_, ?_, h3, ?_, ?_⟩
    · simp [MultiState.onReturn, hne]
    · simp; omega
    · simpa using h4
    · intro i r hir
      have ha : a.1 < n := hlt a (by simp)
      rcases List.mem_append.1 hir with hir | hir
      · have : a.1 ≠ i := fun hh => hn.2.2 i (List.mem_map.2 ⟨_, hir, rfl⟩) a.1 (by simp) hh.symm
        simp only
        rw [List.getElem?_set_ne this]; exact h5 i r hir
      · simp at hir; subst hir
        simp only
        rw [List.getElem?_set_self (by omega)]

/-- C24: if all `n > 0` calls of a `multicall` are answered without errors, in any order, the future
resolves with the last answer, none of the callbacks raises, and the `i`-th entry of its value is the
answer to the `i`-th call. -/
theorem C24_multicall_results (n : Nat) (hn : 0 < n) (as : List (Nat × R))
    (hp : (as.map (·.1)).Perm (List.range n)) :
    ∃ s rs, multiRun n (as.map (fun a => (a.1, some a.2))) = (s, false) ∧ s.fut = .result rs ∧
      rs.length = n ∧ ∀ i r, (i, r) ∈ as → rs[i]? = some (some r) := by
  have hlen : as.length = n := by simpa using hp.length_eq
  rcases List.eq_nil_or_concat as with rfl | ⟨as, a, rfl⟩
  · simp at hlen; omega
  · rw [List.concat_eq_append] at *
    have hnd : ((as ++ [a]).map (·.1)).Nodup := hp.nodup_iff.2 List.nodup_range
    have hlt : ∀ b ∈ as ++ [a], b.1 < n := fun b hb => List.mem_range.1 (hp.mem_iff.1 (List.mem_map.2 ⟨b, hb, rfl⟩))
    have hl2 : as.length + 1 = n := by simpa using hlen
    rw [List.map_append, List.nodup_append] at hnd
    obtain ⟨s, h1, h2, h3, h4, h5⟩ := multi_inv n as (by omega) hnd.1 (fun b hb => hlt b (List.mem_append_left _ hb))
    have h0 : s.ntodo - 1 = 0 := by omega
    refine ⟨⟨.result (s.results.set a.1 (some a.2)), s.results.set a.1 (some a.2), s.ntodo - 1⟩,
      s.results.set a.1 (some a.2), ?_, rfl, by simpa using h4, ?_⟩
    · rw [List.map_append, List.map_singleton, multiRun_snoc, h1]
      simp only [MultiState.onReturn, h0, if_true]
      cases hf : s.fut with
      | pending => simp
      | result _ => rw [hf] at h3; exact h3.elim
      | error => rw [hf] at h3; exact h3.elim
    · intro i r hir
      have ha : a.1 < n := hlt a (by simp)
      rcases List.mem_append.1 hir with hir | hir
      · have : a.1 ≠ i := fun hh => hnd.2.2 i (List.mem_map.2 ⟨_, hir, rfl⟩) a.1 (by simp) hh.symm
        rw [List.getElem?_set_ne this]; exact h5 i r hir
      · simp at hir; subst hir
        rw [List.getElem?_set_self (by omega)]

/-- C24: as long as answers are missing (and there are no errors) the future stays pending. -/
theorem C24_multicall_waits (n : Nat) (as : List (Nat × R)) (hle : as.length < n) (hn : (as.map (·.1)).Nodup)
    (hlt : ∀ a ∈ as, a.1 < n) :
    ∃ s, multiRun n (as.map (fun a => (a.1, some a.2))) = (s, false) ∧ s.fut = .pending := by
  obtain ⟨s, h1, _, h3, _⟩ := multi_inv n as hle hn hlt
  refine ⟨s, h1, ?_⟩
  cases hf : s.fut with
  | pending => rfl
  | result _ => rw [hf] at h3; exact h3.elim
  | error => rw [hf] at h3; exact h3.elim

/-- C24, defect: the second error answered to the calls of one `multicall` makes the callback raise
(`set_exception` on a future that is already done), which ends the reader: by `C24_delivery` no other
pending request of this worker is ever completed. -/
theorem C24_multicall_two_errors_raise (n i j : Nat) :
    (multiRun (R := R) n [(i, none), (j, none)]).2 = true := by
  simp [multiRun, MultiState.onReturn, MultiState.init]

/-! ### Concrete cases meeting the hypotheses -/

/-- A history with a cancelled request, answers out of order, and a `multicall`. -/
def sampleHistory : List (Ev Nat Nat) :=
  [.call 0, .call 1, .cancel 0, .respond 1 11, .respond 0 10, .multicall [2, 3], .call 4, .respond 3 13,
   .cancel 4, .respond 2 12, .respond 4 14]

theorem legal_of_check : ∀ (l h : List (Ev Nat Nat)), Legal h →
    (∀ k, (hk : k < l.length) → Allowed (h ++ l.take k) (l[k])) → Legal (h ++ l) := by
  intro l
  induction l with
  | nil => intro h hl _; simpa using hl
  | cons e l ih =>
    intro h hl hk
    have h0 := hk 0 (by simp)
    have := ih (h ++ [e]) (Legal.snoc hl (by simpa using h0)) (fun k hk' => by
      have := hk (k+1) (by simpa using hk')
      simpa using this)
    simpa using this

example : Legal sampleHistory := by
  refine legal_of_check sampleHistory [] Legal.nil ?_
  intro k hk
  have : k < 11 := hk
  interval_cases k <;>
    simp [sampleHistory, Allowed, requested, Ev.requests, answered, lastCall, shadowed, track]

example : (WSys.run (fun _ _ _ => false) sampleHistory).delivered = [(1, 11), (3, 13), (2, 12)] := by decide

example : ([(1, 'b'), (0, 'a')].map (·.1)).Perm (List.range 2) := by decide

end Disteval
end SecDec
