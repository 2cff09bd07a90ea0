import Verif.Spec.Worker
import Mathlib.Tactic.Common
/-
The token bookkeeping of `Worker` is correct.
-/
namespace SecDec
namespace Disteval

namespace Dict
variable {α : Type}

theorem get?_cons (p : Nat × α) (d : Dict α) (k : Nat) :
    get? (p :: d) k = if p.1 = k then some p.2 else get? d k := by
  unfold get?
  rw [List.find?_cons]
  by_cases h : p.1 = k <;> simp [h]

@[simp] theorem get?_nil (k : Nat) : get? ([] : Dict α) k = none := rfl

theorem get?_set (d : Dict α) (k : Nat) (v : α) (k' : Nat) :
    get? (set d k v) k' = if k = k' then some v else get? d k' := by
  induction d with
  | nil => simp [set, get?_cons]
  | cons p d ih =>
    unfold set
    by_cases h : p.1 = k
    · rw [if_pos h, get?_cons, get?_cons]
      by_cases h2 : k = k'
      · simp [h2]
      · have : ¬ p.1 = k' := by rw [h]; exact h2
        simp [h2, this]
    · rw [if_neg h, get?_cons, get?_cons, ih]
      by_cases h2 : k = k'
      · have : ¬ p.1 = k' := by rw [← h2]; exact h
        simp [h2, this]
      · simp [h2]

theorem mem_keys_set (d : Dict α) (k : Nat) (v : α) (k' : Nat) :
    k' ∈ (set d k v).map (·.1) ↔ k' = k ∨ k' ∈ d.map (·.1) := by
  induction d with
  | nil => simp [set]
  | cons p d ih =>
    unfold set
    by_cases h : p.1 = k
    · rw [if_pos h]; simp [h]
    · rw [if_neg h]; simp only [List.map_cons, List.mem_cons, ih]; tauto

theorem nodup_set (d : Dict α) (k : Nat) (v : α) (h : (d.map (·.1)).Nodup) :
    ((set d k v).map (·.1)).Nodup := by
  induction d with
  | nil => simp [set]
  | cons p d ih =>
    simp only [List.map_cons, List.nodup_cons] at h
    unfold set
    by_cases hk : p.1 = k
    · rw [if_pos hk]; simpa [hk] using h
    · rw [if_neg hk]; simp only [List.map_cons, List.nodup_cons]
      refine ⟨?_, ih h.2⟩
      rw [mem_keys_set]; rintro (h2 | h2)
      · exact hk h2
      · exact h.1 h2

theorem get?_none_of_not_mem (d : Dict α) (k : Nat) (h : k ∉ d.map (·.1)) : get? d k = none := by
  induction d with
  | nil => rfl
  | cons p d ih =>
    simp only [List.map_cons, List.mem_cons, not_or] at h
    rw [get?_cons, if_neg (fun hh => h.1 hh.symm), ih h.2]

theorem get?_erase (d : Dict α) (k : Nat) (h : (d.map (·.1)).Nodup) (k' : Nat) :
    get? (erase d k) k' = if k = k' then none else get? d k' := by
  induction d with
  | nil => simp [erase]
  | cons p d ih =>
    simp only [List.map_cons, List.nodup_cons] at h
    unfold erase
    by_cases hk : p.1 = k
    · rw [if_pos hk, get?_cons]
      by_cases h2 : k = k'
      · rw [if_pos h2]; subst h2; subst hk; exact get?_none_of_not_mem d _ h.1
      · have : ¬ p.1 = k' := by rw [hk]; exact h2
        simp [h2, this]
    · rw [if_neg hk, get?_cons, get?_cons, ih h.2]
      by_cases h2 : k = k'
      · have : ¬ p.1 = k' := by rw [← h2]; exact hk
        simp [h2, this]
      · simp [h2]

theorem keys_erase_subset (d : Dict α) (k k' : Nat) (h : k' ∈ (erase d k).map (·.1)) : k' ∈ d.map (·.1) := by
  induction d with
  | nil => simpa [erase] using h
  | cons p d ih =>
    unfold erase at h
    by_cases hk : p.1 = k
    · rw [if_pos hk] at h; simp only [List.map_cons, List.mem_cons]; exact Or.inr h
    · rw [if_neg hk] at h; simp only [List.map_cons, List.mem_cons] at h ⊢
      exact h.imp_right ih

theorem nodup_erase (d : Dict α) (k : Nat) (h : (d.map (·.1)).Nodup) : ((erase d k).map (·.1)).Nodup := by
  induction d with
  | nil => simp [erase]
  | cons p d ih =>
    simp only [List.map_cons, List.nodup_cons] at h
    unfold erase
    by_cases hk : p.1 = k
    · rw [if_pos hk]; exact h.2
    · rw [if_neg hk]; simp only [List.map_cons, List.nodup_cons]
      exact ⟨fun hh => h.1 (keys_erase_subset d k _ hh), ih h.2⟩

end Dict

namespace Worker
variable {J : Type}

theorem mem_messages (t : Nat) (js : List J) (k : Nat) (j : J) :
    (k, j) ∈ messages t js ↔ ∃ i, js[i]? = some j ∧ k = t + i := by
  induction js generalizing t with
  | nil => simp [messages]
  | cons a js ih =>
    simp only [messages, List.mem_cons, Prod.mk.injEq, ih]
    constructor
    · rintro (⟨rfl, rfl⟩ | ⟨i, h1, rfl⟩)
      · exact ⟨0, by simp⟩
      · exact ⟨i + 1, by simpa using h1, by omega⟩
    · rintro ⟨i, h1, rfl⟩
      cases i with
      | zero => left; simpa [eq_comm] using h1
      | succ i => right; exact ⟨i, by simpa using h1, by omega⟩

theorem messages_map (t : Nat) (js : List J) : (messages t js).map (·.2) = js := by
  induction js generalizing t with
  | nil => rfl
  | cons a js ih => simp [messages, ih]

theorem get?_registerAll (cb : Dict (Option J)) (t : Nat) (js : List J) (k : Nat) :
    (registerAll cb t js).get? k =
      if t ≤ k ∧ k < t + js.length then (js[k - t]?).map some else cb.get? k := by
  induction js generalizing cb t with
  | nil => simp [registerAll]; omega
  | cons a js ih =>
    simp only [registerAll, ih, Dict.get?_set, List.length_cons]
    by_cases h1 : t = k
    · subst h1; rw [if_neg (by omega), if_pos rfl, if_pos (by omega)]; simp
    · by_cases h2 : t + 1 ≤ k ∧ k < t + 1 + js.length
      · rw [if_pos h2, if_pos (by omega)]
        obtain ⟨d, rfl⟩ := Nat.exists_eq_add_of_le h2.1
        congr 1
        have e1 : t + 1 + d - (t + 1) = d := by omega
        have e2 : t + 1 + d - t = d + 1 := by omega
        rw [e1, e2]; simp
      · rw [if_neg h2, if_neg h1, if_neg (by omega)]

theorem nodup_registerAll (cb : Dict (Option J)) (t : Nat) (js : List J) (h : (cb.map (·.1)).Nodup) :
    ((registerAll cb t js).map (·.1)).Nodup := by
  induction js generalizing cb t with
  | nil => exact h
  | cons a js ih => exact ih _ _ (Dict.nodup_set _ _ _ h)

end Worker

variable {J R : Type} [DecidableEq J]

theorem WSys.run_snoc (raises : List (J × R) → J → R → Bool) (h : List (Ev J R)) (e : Ev J R) :
    WSys.run raises (h ++ [e]) = (WSys.run raises h).step raises e := by
  simp [WSys.run, List.foldl_append]

theorem expected_snoc (raises : List (J × R) → J → R → Bool) (h : List (Ev J R)) (e : Ev J R) :
    expected raises (h ++ [e]) = (expected raises h).step raises e := by
  simp [expected, List.foldl_append]

omit [DecidableEq J] in
theorem requested_snoc (h : List (Ev J R)) (e : Ev J R) : requested (h ++ [e]) = requested h ++ e.requests := by
  simp [requested]

omit [DecidableEq J] in
theorem track_snoc (h : List (Ev J R)) (e : Ev J R) : track (h ++ [e]) = (match e with
    | .call j => (some j, (track h).2)
    | .multicall (_ :: _) => (none, (track h).1.toList ++ (track h).2)
    | _ => track h) := by
  unfold track
  rw [List.foldl_append]
  rfl

/-- Everything known about a worker after the history `h`. -/
structure Inv (raises : List (J × R) → J → R → Bool) (h : List (Ev J R)) (s : WSys J R) : Prop where
  req : s.worker.stdin.map (·.2) = requested h
  nodupReq : (requested h).Nodup
  le : ∀ t j, (t, j) ∈ s.worker.stdin → t ≤ s.worker.serial
  eqSerial : ∀ j, (s.worker.serial, j) ∈ s.worker.stdin → lastCall h = some j
  lastReq : ∀ j, lastCall h = some j → j ∈ requested h
  ansReq : ∀ j, j ∈ answered h → j ∈ requested h
  cancReq : ∀ j, j ∈ cancelled h → j ∈ requested h
  shadowAns : ∀ j, j ∈ shadowed h → j ∈ answered h
  uniq : ∀ t j j', (t, j) ∈ s.worker.stdin → (t, j') ∈ s.worker.stdin → j' ∉ answered h →
    j = j' ∨ j ∈ shadowed h
  keys : (s.worker.callbacks.map (·.1)).Nodup
  canc : ∀ j, j ∈ (expected raises h).cancelled ↔ j ∈ cancelled h
  deadEq : s.worker.dead = (expected raises h).stopped
  deliv : s.delivered = (expected raises h).delivered
  cb : s.worker.dead = false → ∀ t v, s.worker.callbacks.get? t = some v ↔
    ∃ j, (t, j) ∈ s.worker.stdin ∧ j ∉ answered h ∧ v = if j ∈ cancelled h then none else some j

theorem tokenOf_of_mem {w : Worker J} {t : Nat} {j : J} (hn : (w.stdin.map (·.2)).Nodup) (h : (t, j) ∈ w.stdin) :
    w.tokenOf j = some t := by
  unfold Worker.tokenOf
  have : w.stdin.find? (fun m => m.2 = j) = some (t, j) := by
    generalize w.stdin = l at hn h
    induction l with
    | nil => simp at h
    | cons a l ih =>
      simp only [List.map_cons, List.nodup_cons] at hn
      rw [List.find?_cons]
      rcases List.mem_cons.1 h with h | h
      · subst h; simp
      · have : a.2 ≠ j := by
          intro hh; apply hn.1; rw [hh]; exact List.mem_map.2 ⟨_, h, rfl⟩
        simp [this, ih hn.2 h]
  rw [this]; rfl

theorem mem_of_tokenOf {w : Worker J} {t : Nat} {j : J} (h : w.tokenOf j = some t) : (t, j) ∈ w.stdin := by
  unfold Worker.tokenOf at h
  obtain ⟨m, hm, rfl⟩ := Option.map_eq_some_iff.1 h
  have h1 := List.mem_of_find?_eq_some hm
  have h2 := List.find?_some hm
  simp at h2; subst h2; exact h1

theorem exists_token {w : Worker J} {j : J} (h : j ∈ w.stdin.map (·.2)) : ∃ t, (t, j) ∈ w.stdin := by
  obtain ⟨⟨t, j'⟩, h1, h2⟩ := List.mem_map.1 h
  exact ⟨t, by simpa [← h2] using h1⟩

theorem inv_nil (raises : List (J × R) → J → R → Bool) : Inv raises [] {} := by
  refine ⟨rfl, by simp [requested], ?_, ?_, ?_, ?_, ?_, ?_, ?_, by simp, ?_, rfl, rfl, ?_⟩ <;>
    simp [lastCall, shadowed, track, expected, cancelled, answered]

theorem inv_step (raises : List (J × R) → J → R → Bool) {h : List (Ev J R)} {s : WSys J R} (I : Inv raises h s) (e : Ev J R)
    (ha : Allowed h e) : Inv raises (h ++ [e]) (s.step raises e) := by
  cases e with
  | call j =>
    have hans : answered (h ++ [.call j] : List (Ev J R)) = answered h := by simp [answered]
    have hcan : cancelled (h ++ [.call j] : List (Ev J R)) = cancelled h := by simp [cancelled]
    have hreq : requested (h ++ [.call j] : List (Ev J R)) = requested h ++ [j] := requested_snoc _ _
    have hlast : lastCall (h ++ [.call j] : List (Ev J R)) = some j := by simp [lastCall, track_snoc]
    have hsh : shadowed (h ++ [.call j] : List (Ev J R)) = shadowed h := by simp [shadowed, track_snoc]
    have hexp : expected raises (h ++ [.call j]) = expected raises h := by rw [expected_snoc]; rfl
    simp only [Allowed] at ha
    have hnew : ∀ t, (t, j) ∉ s.worker.stdin := fun t ht => ha (by rw [← I.req]; exact List.mem_map.2 ⟨_, ht, rfl⟩)
    constructor
    · simp [WSys.step, Worker.callCb, hreq, I.req]
    · rw [hreq]; exact List.nodup_append.2 ⟨I.nodupReq, by simp, fun a h1 b h2 hab => by simp at h2; subst h2; subst hab; exact ha h1⟩
    · intro t j' ht
      simp only [WSys.step, Worker.callCb, List.mem_append, List.mem_singleton, Prod.mk.injEq] at ht ⊢
      rcases ht with ht | ⟨rfl, _⟩
      · have := I.le t j' ht; omega
      · omega
    · intro j' ht
      simp only [WSys.step, Worker.callCb, List.mem_append, List.mem_singleton, Prod.mk.injEq] at ht
      rcases ht with ht | ⟨_, rfl⟩
      · have := I.le _ j' ht; omega
      · exact hlast
    · intro j' hj'; rw [hlast] at hj'; rw [hreq]; simp_all
    · intro j' hj'; rw [hans] at hj'; rw [hreq]; exact List.mem_append_left _ (I.ansReq j' hj')
    · intro j' hj'; rw [hcan] at hj'; rw [hreq]; exact List.mem_append_left _ (I.cancReq j' hj')
    · rw [hsh, hans]; exact I.shadowAns
    · intro t j1 j2 h1 h2 h3
      rw [hsh]; rw [hans] at h3
      simp only [WSys.step, Worker.callCb, List.mem_append, List.mem_singleton, Prod.mk.injEq] at h1 h2
      rcases h1 with h1 | ⟨rfl, rfl⟩ <;> rcases h2 with h2 | ⟨h2, rfl⟩
      · exact I.uniq t j1 j2 h1 h2 h3
      · have := I.le _ _ h1; omega
      · have := I.le _ _ h2; omega
      · exact Or.inl rfl
    · exact Dict.nodup_set _ _ _ I.keys
    · rw [hexp, hcan]; exact I.canc
    · rw [hexp]; exact I.deadEq
    · rw [hexp]; exact I.deliv
    · intro hd t v
      have hcb := I.cb hd
      simp only [WSys.step, Worker.callCb, Dict.get?_set, List.mem_append, List.mem_singleton, Prod.mk.injEq, hans, hcan]
      have hjans : j ∉ answered h ∧ j ∉ cancelled h := by
        exact ⟨fun hh => ha (I.ansReq j hh), fun hh => ha (I.cancReq j hh)⟩
      by_cases ht : s.worker.serial + 1 = t
      · rw [if_pos ht]
        constructor
        · intro hv
          refine ⟨j, Or.inr ⟨ht.symm, rfl⟩, hjans.1, ?_⟩
          rw [if_neg hjans.2]; simpa using hv.symm
        · rintro ⟨j', h1 | ⟨_, rfl⟩, h2, h3⟩
          · have := I.le _ _ h1; omega
          · rw [if_neg hjans.2] at h3; rw [h3]
      · rw [if_neg ht, hcb]
        constructor
        · rintro ⟨j', h1, h2⟩; exact ⟨j', Or.inl h1, h2⟩
        · rintro ⟨j', h1 | ⟨h1, _⟩, h2⟩
          · exact ⟨j', h1, h2⟩
          · omega
  | multicall js =>
    have hans : answered (h ++ [.multicall js] : List (Ev J R)) = answered h := by simp [answered]
    have hcan : cancelled (h ++ [.multicall js] : List (Ev J R)) = cancelled h := by simp [cancelled]
    have hreq : requested (h ++ [.multicall js] : List (Ev J R)) = requested h ++ js := requested_snoc _ _
    have hexp : expected raises (h ++ [.multicall js]) = expected raises h := by rw [expected_snoc]; rfl
    obtain ⟨ha1, ha2, ha3⟩ := ha
    cases js with
    | nil =>
      have hsh : shadowed (h ++ [.multicall []] : List (Ev J R)) = shadowed h := by simp [shadowed, track_snoc]
      have hlast : lastCall (h ++ [.multicall []] : List (Ev J R)) = lastCall h := by simp [lastCall, track_snoc]
      have hs : s.step raises (.multicall []) = s := by
        simp [WSys.step, Worker.multicall, Worker.registerAll, Worker.messages]
      rw [hs]
      exact ⟨by rw [hreq, List.append_nil]; exact I.req, by rw [hreq, List.append_nil]; exact I.nodupReq, I.le,
        by rw [hlast]; exact I.eqSerial, by rw [hlast, hreq, List.append_nil]; exact I.lastReq,
        by rw [hans, hreq, List.append_nil]; exact I.ansReq, by rw [hcan, hreq, List.append_nil]; exact I.cancReq,
        by rw [hsh, hans]; exact I.shadowAns, by rw [hsh, hans]; exact I.uniq, I.keys,
        by rw [hexp, hcan]; exact I.canc, by rw [hexp]; exact I.deadEq, by rw [hexp]; exact I.deliv,
        by rw [hans, hcan]; exact I.cb⟩
    | cons j0 js =>
      set l := j0 :: js with hl
      have hpos : 0 < l.length := by simp [hl]
      have hlast : lastCall (h ++ [.multicall l] : List (Ev J R)) = none := by simp [lastCall, track_snoc, hl]
      have hsh : shadowed (h ++ [.multicall l] : List (Ev J R)) = (lastCall h).toList ++ shadowed h := by
        simp [shadowed, lastCall, track_snoc, hl]
      have hlen : ∀ i j, l[i]? = some j → i < l.length := fun i j hi => (List.getElem?_eq_some_iff.1 hi).1
      have hmem : ∀ i j, l[i]? = some j → j ∈ l := fun i j hi => List.mem_of_getElem? hi
      have hin : ∀ t j, (t, j) ∈ (s.step raises (.multicall l)).worker.stdin ↔
          (t, j) ∈ s.worker.stdin ∨ ∃ i, l[i]? = some j ∧ t = s.worker.serial + i := by
        intro t j
        simp only [WSys.step, Worker.multicall, List.mem_append, Worker.mem_messages]
      have hser : (s.step raises (.multicall l)).worker.serial = s.worker.serial + l.length := rfl
      have hold : ∀ t j, (t, j) ∈ s.worker.stdin → j ∈ requested h := fun t j ht => by
        rw [← I.req]; exact List.mem_map.2 ⟨_, ht, rfl⟩
      constructor
      · simp [WSys.step, Worker.multicall, hreq, I.req, Worker.messages_map]
      · rw [hreq]; exact List.nodup_append.2 ⟨I.nodupReq, ha1, fun a h1 b h2 hab => by subst hab; exact ha2 _ h2 h1⟩
      · intro t j ht
        rw [hser]
        rcases (hin t j).1 ht with ht | ⟨i, hi, rfl⟩
        · have := I.le t j ht; omega
        · have := hlen i j hi; omega
      · intro j ht
        rw [hser] at ht
        rcases (hin _ j).1 ht with ht | ⟨i, hi, hh⟩
        · have := I.le _ j ht; omega
        · have := hlen i j hi; omega
      · rw [hlast]; simp
      · intro j' hj'; rw [hans] at hj'; rw [hreq]; exact List.mem_append_left _ (I.ansReq j' hj')
      · intro j' hj'; rw [hcan] at hj'; rw [hreq]; exact List.mem_append_left _ (I.cancReq j' hj')
      · intro j hj
        rw [hsh, List.mem_append] at hj
        rw [hans]
        rcases hj with hj | hj
        · exact ha3 (by simp [hl]) j (by simpa using hj)
        · exact I.shadowAns j hj
      · intro t j1 j2 h1 h2 h3
        rw [hans] at h3
        rw [hsh, List.mem_append]
        rcases (hin _ _).1 h1 with h1 | ⟨i1, hi1, e1⟩ <;> rcases (hin _ _).1 h2 with h2 | ⟨i2, hi2, e2⟩
        · rcases I.uniq t j1 j2 h1 h2 h3 with h | h
          · exact Or.inl h
          · exact Or.inr (Or.inr h)
        · have hle := I.le _ _ h1
          have h0 : i2 = 0 := by omega
          subst h0
          have : lastCall h = some j1 := I.eqSerial j1 (by rw [e2] at h1; simpa using h1)
          exact Or.inr (Or.inl (by simp [this]))
        · have hle := I.le _ _ h2
          have h0 : i1 = 0 := by omega
          subst h0
          have : lastCall h = some j2 := I.eqSerial j2 (by rw [e1] at h2; simpa using h2)
          exact absurd (ha3 (by simp [hl]) j2 this) h3
        · have : i1 = i2 := by omega
          subst this
          rw [hi1] at hi2; exact Or.inl (by simpa using hi2)
      · exact Worker.nodup_registerAll _ _ _ I.keys
      · rw [hexp, hcan]; exact I.canc
      · rw [hexp]; exact I.deadEq
      · rw [hexp]; exact I.deliv
      · intro hd t v
        have hcb := I.cb hd
        rw [hans, hcan]
        have hnew : ∀ j ∈ l, j ∉ answered h ∧ j ∉ cancelled h := fun j hj =>
          ⟨fun hh => ha2 j hj (I.ansReq j hh), fun hh => ha2 j hj (I.cancReq j hh)⟩
        have hg : (s.step raises (.multicall l)).worker.callbacks.get? t =
            if s.worker.serial ≤ t ∧ t < s.worker.serial + l.length then (l[t - s.worker.serial]?).map some
            else s.worker.callbacks.get? t := Worker.get?_registerAll _ _ _ _
        rw [hg]
        by_cases ht : s.worker.serial ≤ t ∧ t < s.worker.serial + l.length
        · rw [if_pos ht]
          obtain ⟨i, rfl⟩ := Nat.exists_eq_add_of_le ht.1
          have hi : i < l.length := by omega
          have hi2 : l[i]? = some l[i] := List.getElem?_eq_getElem hi
          rw [Nat.add_sub_cancel_left, hi2]
          constructor
          · intro hv
            refine ⟨l[i], (hin _ _).2 (Or.inr ⟨i, hi2, rfl⟩), (hnew _ (by simp)).1, ?_⟩
            rw [if_neg (hnew _ (by simp)).2]; simpa using hv.symm
          · rintro ⟨j, h1, h2, h3⟩
            rcases (hin _ _).1 h1 with h1 | ⟨i', hi', e'⟩
            · have hle := I.le _ _ h1
              have h0 : i = 0 := by omega
              subst h0
              have : lastCall h = some j := I.eqSerial j (by simpa using h1)
              exact absurd (ha3 (by simp [hl]) j this) h2
            · have : i' = i := by omega
              subst this
              rw [hi2] at hi'
              have : l[i'] = j := by simpa using hi'
              rw [this]
              rw [if_neg (hnew j (by rw [← this]; simp)).2] at h3
              rw [h3]; rfl
        · rw [if_neg ht, hcb]
          constructor
          · rintro ⟨j, h1, h2⟩; exact ⟨j, (hin _ _).2 (Or.inl h1), h2⟩
          · rintro ⟨j, h1, h2⟩
            rcases (hin _ _).1 h1 with h1 | ⟨i', hi', e'⟩
            · exact ⟨j, h1, h2⟩
            · have := hlen i' j hi'; omega
  | cancel j =>
    obtain ⟨ha1, ha2⟩ := ha
    have hans : answered (h ++ [.cancel j] : List (Ev J R)) = answered h := by simp [answered]
    have hcan : cancelled (h ++ [.cancel j] : List (Ev J R)) = cancelled h ++ [j] := by simp [cancelled]
    have hreq : requested (h ++ [.cancel j] : List (Ev J R)) = requested h := by
      rw [requested_snoc]; simp [Ev.requests]
    have hsh : shadowed (h ++ [.cancel j] : List (Ev J R)) = shadowed h := by simp [shadowed, track_snoc]
    have hlast : lastCall (h ++ [.cancel j] : List (Ev J R)) = lastCall h := by simp [lastCall, track_snoc]
    have hexp : expected raises (h ++ [.cancel j]) = (expected raises h).step raises (.cancel j) := expected_snoc _ _ _
    have hnd : (s.worker.stdin.map (·.2)).Nodup := by rw [I.req]; exact I.nodupReq
    obtain ⟨t0, ht0⟩ := exists_token (w := s.worker) (j := j) (by rw [I.req]; exact ha1)
    have htok := tokenOf_of_mem hnd ht0
    have hstep : s.step raises (.cancel j) = { s with worker := (s.worker.cancelCb t0).1 } := by
      simp only [WSys.step, htok]
    have hW : (s.worker.cancelCb t0).1.stdin = s.worker.stdin ∧ (s.worker.cancelCb t0).1.serial = s.worker.serial ∧
        (s.worker.cancelCb t0).1.dead = s.worker.dead ∧ ((s.worker.cancelCb t0).1.callbacks.map (·.1)).Nodup := by
      unfold Worker.cancelCb
      split
      · exact ⟨rfl, rfl, rfl, Dict.nodup_set _ _ _ I.keys⟩
      · exact ⟨rfl, rfl, rfl, I.keys⟩
    rw [hstep]
    refine ⟨by rw [hreq]; simpa only [hW.1] using I.req, by rw [hreq]; exact I.nodupReq,
      by simpa only [hW.1, hW.2.1] using I.le,
      by rw [hlast]; simpa only [hW.1, hW.2.1] using I.eqSerial, by rw [hlast, hreq]; exact I.lastReq,
      by rw [hans, hreq]; exact I.ansReq, ?_,
      by rw [hsh, hans]; exact I.shadowAns, by rw [hsh, hans]; simpa only [hW.1] using I.uniq, hW.2.2.2,
      ?_, by rw [hexp]; simpa only [hW.2.2.1, Expected.step] using I.deadEq, by rw [hexp]; exact I.deliv, ?_⟩
    · intro j' hj'; rw [hcan, List.mem_append] at hj'; rw [hreq]
      rcases hj' with hj' | hj'
      · exact I.cancReq j' hj'
      · simp at hj'; subst hj'; exact ha1
    · intro j'; rw [hexp, hcan]
      simp only [Expected.step, List.mem_cons, List.mem_append, List.not_mem_nil, or_false, I.canc j']
      tauto
    · intro hd t v
      have hd' : s.worker.dead = false := by simpa only [hW.2.2.1] using hd
      have hcb := I.cb hd'
      simp only [hW.1]
      rw [hans, hcan]
      by_cases hja : j ∈ answered h
      · have hnone : s.worker.callbacks.get? t0 = none := by
          rw [Option.eq_none_iff_forall_ne_some]
          intro v hv
          obtain ⟨j', h1, h2, _⟩ := (hcb t0 v).1 hv
          rcases I.uniq t0 j j' ht0 h1 h2 with h | h
          · subst h; exact h2 hja
          · exact ha2 h
        have : (s.worker.cancelCb t0).1 = s.worker := by simp [Worker.cancelCb, hnone]
        rw [this, hcb]
        refine exists_congr (fun j' => and_congr_right (fun _ => and_congr_right (fun h2 => ?_)))
        have : j' ≠ j := fun hh => h2 (hh ▸ hja)
        simp [this]
      · have hsome : s.worker.callbacks.get? t0 = some (if j ∈ cancelled h then none else some j) :=
          (hcb t0 _).2 ⟨j, ht0, hja, rfl⟩
        have : (s.worker.cancelCb t0).1.callbacks = s.worker.callbacks.set t0 none := by
          simp [Worker.cancelCb, hsome]
        rw [this, Dict.get?_set]
        by_cases ht : t0 = t
        · subst ht
          rw [if_pos rfl]
          constructor
          · intro hv
            exact ⟨j, ht0, hja, by simpa using hv.symm⟩
          · rintro ⟨j', h1, h2, h3⟩
            have : j = j' := by
              rcases I.uniq _ j j' ht0 h1 h2 with h | h
              · exact h
              · exact absurd (I.shadowAns j h) hja
            subst this
            simpa using h3.symm
        · rw [if_neg ht, hcb]
          refine exists_congr (fun j' => and_congr_right (fun h1 => and_congr_right (fun h2 => ?_)))
          have : j' ≠ j := by
            rintro rfl
            have e1 := tokenOf_of_mem hnd h1
            rw [htok] at e1
            exact ht (by simpa using e1)
          simp [this]
  | respond j r =>
    obtain ⟨ha1, ha2⟩ := ha
    have hans : answered (h ++ [.respond j r] : List (Ev J R)) = answered h ++ [j] := by simp [answered]
    have hcan : cancelled (h ++ [.respond j r] : List (Ev J R)) = cancelled h := by simp [cancelled]
    have hreq : requested (h ++ [.respond j r] : List (Ev J R)) = requested h := by
      rw [requested_snoc]; simp [Ev.requests]
    have hsh : shadowed (h ++ [.respond j r] : List (Ev J R)) = shadowed h := by simp [shadowed, track_snoc]
    have hlast : lastCall (h ++ [.respond j r] : List (Ev J R)) = lastCall h := by simp [lastCall, track_snoc]
    have hexp : expected raises (h ++ [.respond j r]) = (expected raises h).step raises (.respond j r) := expected_snoc _ _ _
    have hnd : (s.worker.stdin.map (·.2)).Nodup := by rw [I.req]; exact I.nodupReq
    obtain ⟨t0, ht0⟩ := exists_token (w := s.worker) (j := j) (by rw [I.req]; exact ha1)
    have htok := tokenOf_of_mem hnd ht0
    -- the parts that do not depend on the outcome
    have hrest : ∀ s' : WSys J R, s'.worker.stdin = s.worker.stdin → s'.worker.serial = s.worker.serial →
        (s'.worker.callbacks.map (·.1)).Nodup →
        s'.worker.dead = (expected raises (h ++ [.respond j r])).stopped →
        s'.delivered = (expected raises (h ++ [.respond j r])).delivered →
        (s'.worker.dead = false → ∀ t v, s'.worker.callbacks.get? t = some v ↔
          ∃ j', (t, j') ∈ s.worker.stdin ∧ j' ∉ answered h ++ [j] ∧ v = if j' ∈ cancelled h then none else some j') →
        Inv raises (h ++ [.respond j r]) s' := by
      intro s' e1 e2 e3 e4 e5 e6
      refine ⟨by rw [hreq, e1]; exact I.req, by rw [hreq]; exact I.nodupReq, by rw [e1, e2]; exact I.le,
        by rw [e1, e2, hlast]; exact I.eqSerial, by rw [hlast, hreq]; exact I.lastReq, ?_,
        by rw [hcan, hreq]; exact I.cancReq, ?_, ?_, e3, ?_, e4, e5, ?_⟩
      · intro j' hj'; rw [hans, List.mem_append] at hj'; rw [hreq]
        rcases hj' with hj' | hj'
        · exact I.ansReq j' hj'
        · simp at hj'; subst hj'; exact ha1
      · intro j' hj'; rw [hsh] at hj'; rw [hans]; exact List.mem_append_left _ (I.shadowAns j' hj')
      · intro t j1 j2 h1 h2 h3
        rw [e1] at h1 h2
        rw [hans] at h3; rw [hsh]
        exact I.uniq t j1 j2 h1 h2 (fun hh => h3 (List.mem_append_left _ hh))
      · intro j'; rw [hexp, hcan]
        have : ((expected raises h).step raises (.respond j r)).cancelled = (expected raises h).cancelled := by
          simp only [Expected.step]; split <;> rfl
        rw [this]; exact I.canc j'
      · rw [e1, hans, hcan]; exact e6
    by_cases hdead : s.worker.dead = true
    · have hst : (expected raises h).stopped = true := by rw [← I.deadEq]; exact hdead
      have hexp2 : expected raises (h ++ [.respond j r]) = expected raises h := by
        rw [hexp]; simp [Expected.step, hst]
      have hstep : s.step raises (.respond j r) = s := by
        simp only [WSys.step, htok, Worker.receive, hdead, if_true]
      rw [hstep]
      refine hrest s rfl rfl I.keys (by rw [hexp2]; exact I.deadEq) (by rw [hexp2]; exact I.deliv) ?_
      intro hd; rw [hd] at hdead; cases hdead
    · have hdead' : s.worker.dead = false := by simpa using hdead
      have hst : (expected raises h).stopped = false := by rw [← I.deadEq]; exact hdead'
      have hcb := I.cb hdead'
      have hsome : s.worker.callbacks.get? t0 = some (if j ∈ cancelled h then none else some j) :=
        (hcb t0 _).2 ⟨j, ht0, ha2, rfl⟩
      have hcb' : ∀ t v, (s.worker.callbacks.erase t0).get? t = some v ↔
          ∃ j', (t, j') ∈ s.worker.stdin ∧ j' ∉ answered h ++ [j] ∧ v = if j' ∈ cancelled h then none else some j' := by
        intro t v
        rw [Dict.get?_erase _ _ I.keys]
        by_cases ht : t0 = t
        · subst ht
          rw [if_pos rfl]
          constructor
          · intro hh; cases hh
          · rintro ⟨j', h1, h2, h3⟩
            simp only [List.mem_append, List.mem_singleton, not_or] at h2
            rcases I.uniq _ j j' ht0 h1 h2.1 with h | h
            · exact absurd h.symm h2.2
            · exact absurd (I.shadowAns j h) ha2
        · rw [if_neg ht, hcb]
          refine exists_congr (fun j' => and_congr_right (fun h1 => and_congr_left (fun h2 => ?_)))
          have : j' ≠ j := by
            rintro rfl
            have e1 := tokenOf_of_mem hnd h1
            rw [htok] at e1
            exact ht (by simpa using e1)
          simp [this]
      have hrec : s.worker.receive t0 = ({ s.worker with callbacks := s.worker.callbacks.erase t0 },
          if j ∈ cancelled h then none else some j) := by
        simp [Worker.receive, hdead', hsome]
      by_cases hc : j ∈ cancelled h
      · have hstep : s.step raises (.respond j r) =
            { s with worker := { s.worker with callbacks := s.worker.callbacks.erase t0 } } := by
          simp only [WSys.step, htok, hrec, if_pos hc]
        have hexp2 : expected raises (h ++ [.respond j r]) = expected raises h := by
          rw [hexp]; simp [Expected.step, (I.canc j).2 hc]
        rw [hstep]
        exact hrest _ rfl rfl (Dict.nodup_erase _ _ I.keys) (by rw [hexp2]; exact I.deadEq)
          (by rw [hexp2]; exact I.deliv) (fun _ => hcb')
      · have hstep : s.step raises (.respond j r) =
            { worker := if raises s.delivered j r then
                { s.worker with callbacks := s.worker.callbacks.erase t0, dead := true } else
                { s.worker with callbacks := s.worker.callbacks.erase t0 },
              delivered := s.delivered ++ [(j, r)] } := by
          simp only [WSys.step, htok, hrec, if_neg hc]
        have hexp2 : expected raises (h ++ [.respond j r]) =
            { expected raises h with delivered := (expected raises h).delivered ++ [(j, r)],
                                     stopped := raises (expected raises h).delivered j r } := by
          rw [hexp]
          have : j ∉ (expected raises h).cancelled := fun hh => hc ((I.canc j).1 hh)
          simp [Expected.step, hst, this]
        rw [hstep, I.deliv]
        by_cases hr : raises (expected raises h).delivered j r = true
        · rw [if_pos hr]
          refine hrest _ rfl rfl (Dict.nodup_erase _ _ I.keys) (by rw [hexp2]; exact hr.symm) (by rw [hexp2]) ?_
          intro hd; cases hd
        · rw [if_neg hr]
          refine hrest _ rfl rfl (Dict.nodup_erase _ _ I.keys) (by rw [hexp2]; simpa [hdead'] using hr) (by rw [hexp2]) ?_
          intro _; exact hcb'

theorem inv_run (raises : List (J × R) → J → R → Bool) {h : List (Ev J R)} (hl : Legal h) :
    Inv raises h (WSys.run raises h) := by
  induction hl with
  | nil => exact inv_nil raises
  | snoc _ ha ih => rw [WSys.run_snoc]; exact inv_step raises ih _ ha

end Disteval
end SecDec
