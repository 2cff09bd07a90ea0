import Verif.Spec.Iterate
import Verif.Props.GenVec
import Verif.Props.Qmc

/-!
# C55: the loop over lattice sizes
-/

namespace SecDec
namespace Iterate
open GenVec Qmc

variable {k m : ℕ}

/-! ## the median -/

open Classical in
theorem median_mem {l : List ℝ} (h : l.length % 2 = 1) :
    median l ∈ l ∧ l.length < 2 * l.countP (fun a => decide (a ≤ median l)) ∧ l.length < 2 * l.countP (fun a => decide (median l ≤ a)) := by
  set s := l.mergeSort (fun a b => decide (a ≤ b)) with hs
  have hp : s.Perm l := List.mergeSort_perm _ _
  have hlen : s.length = l.length := hp.length_eq
  have hmed : median l = s.getD (s.length / 2) 0 := by
    unfold median
    dsimp only
    rw [if_pos (by rw [← hs, hlen]; exact h)]
  have hi : s.length / 2 < s.length := by omega
  have hget : s.getD (s.length / 2) 0 = s[s.length / 2] := by
    rw [List.getD_eq_getElem?_getD, List.getElem?_eq_getElem hi, Option.getD_some]
  have hsorted : s.Pairwise (fun a b => a ≤ b) := by
    have := List.pairwise_mergeSort (le := fun a b : ℝ => decide (a ≤ b)) (fun a b c h1 h2 => by
      simp only [decide_eq_true_eq] at *; exact h1.trans h2) (fun a b => by
      simp only [Bool.or_eq_true, decide_eq_true_eq]; exact le_total a b) l
    exact this.imp (fun h => by simpa using h)
  have hpos := List.pairwise_iff_getElem.1 hsorted
  rw [hmed, hget]
  refine ⟨hp.subset (List.getElem_mem hi), ?_, ?_⟩
  · rw [← hp.countP_eq, ← hlen]
    have h1 : (s.take (s.length / 2 + 1)).countP (fun a => decide (a ≤ s[s.length / 2])) = s.length / 2 + 1 := by
      rw [List.countP_eq_length.2]
      · rw [List.length_take]; omega
      · intro a ha
        obtain ⟨j, hj, rfl⟩ := List.getElem_of_mem ha
        rw [List.length_take] at hj
        rw [List.getElem_take]
        simp only [decide_eq_true_eq]
        rcases (show j ≤ s.length / 2 by omega).eq_or_lt with e | e
        · subst e; exact le_rfl
        · exact hpos j _ (by omega) hi e
    have h2 := List.Sublist.countP_le (p := fun a => decide (a ≤ s[s.length / 2])) (List.take_sublist (s.length / 2 + 1) s)
    omega
  · rw [← hp.countP_eq, ← hlen]
    have h1 : (s.drop (s.length / 2)).countP (fun a => decide (s[s.length / 2] ≤ a)) = s.length - s.length / 2 := by
      rw [List.countP_eq_length.2]
      · rw [List.length_drop]
      · intro a ha
        obtain ⟨j, hj, rfl⟩ := List.getElem_of_mem ha
        rw [List.length_drop] at hj
        rw [List.getElem_drop]
        simp only [decide_eq_true_eq]
        rcases Nat.eq_zero_or_pos j with e | e
        · subst e; exact le_rfl
        · exact hpos _ _ hi (by omega) (by omega)
    have h2 := List.Sublist.countP_le (p := fun a => decide (s[s.length / 2] ≤ a)) (List.drop_sublist (s.length / 2) s)
    omega

theorem mapM_some {α β : Type*} {f : α → Option β} {g : α → β} : ∀ l : List α, (∀ a ∈ l, f a = some (g a)) → l.mapM f = some (l.map g)
  | [], _ => rfl
  | a :: l, h => by
    rw [List.mapM_cons, h a (by simp), mapM_some l (fun b hb => h b (by simp [hb]))]
    rfl

open Classical in
/-- Among an odd number of candidates, all of whose values have arrived, a candidate whose value is the median is selected, whatever the
generating vector was before. -/
theorem C55_median_candidate (cands : ℕ → Option (List ℕ)) (vals : ℕ → ℂ) (count : ℕ) (prev : Option (List ℕ)) (hodd : count % 2 = 1) :
    ∃ s < count, select cands (fun s => some (vals s)) count prev = cands s ∧
      IsMedian (fun t => signedMax (vals t)) count (signedMax (vals s)) := by
  have hm : (List.range count).mapM (fun s => some (vals s)) = some ((List.range count).map vals) := mapM_some _ (fun _ _ => rfl)
  have hlen : (((List.range count).map vals).map signedMax).length = count := by simp
  obtain ⟨h1, h2, h3⟩ := median_mem (l := ((List.range count).map vals).map signedMax) (by rw [hlen]; exact hodd)
  set med := median (((List.range count).map vals).map signedMax) with hmed
  have key : ∀ (l : List ℕ) (g : Option (List ℕ)),
      (∃ s ∈ l, signedMax (vals s) = med ∧
        l.foldl (fun g s => if (some (vals s)).map signedMax = some med then cands s else g) g = cands s) ∨
      ((∀ s ∈ l, signedMax (vals s) ≠ med) ∧
        l.foldl (fun g s => if (some (vals s)).map signedMax = some med then cands s else g) g = g) := by
    intro l
    induction l with
    | nil => intro g; exact Or.inr ⟨by simp, rfl⟩
    | cons a l ih =>
      intro g
      rw [List.foldl_cons]
      by_cases ha : signedMax (vals a) = med
      · rw [if_pos (by simp [ha])]
        rcases ih (cands a) with ⟨s, hs, e1, e2⟩ | ⟨_, e⟩
        · exact Or.inl ⟨s, by simp [hs], e1, e2⟩
        · exact Or.inl ⟨a, by simp, ha, e⟩
      · rw [if_neg (by simp [ha])]
        rcases ih g with ⟨s, hs, e1, e2⟩ | ⟨h, e⟩
        · exact Or.inl ⟨s, by simp [hs], e1, e2⟩
        · refine Or.inr ⟨?_, e⟩
          intro s hs
          rcases List.mem_cons.1 hs with rfl | hs
          · exact ha
          · exact h s hs
  have hsel : select cands (fun s => some (vals s)) count prev
      = (List.range count).foldl (fun g s => if (some (vals s)).map signedMax = some med then cands s else g) prev := by
    unfold select
    rw [hm]
  rw [List.map_map, List.mem_map] at h1
  obtain ⟨t, ht, et⟩ := h1
  rcases key (List.range count) prev with ⟨s, hs, e1, e2⟩ | ⟨h, _⟩
  · refine ⟨s, List.mem_range.1 hs, by rw [hsel, e2], ?_⟩
    unfold IsMedian
    rw [e1]
    rw [hlen] at h2 h3
    rw [List.map_map, List.countP_map, List.countP_eq_length_filter] at h2 h3
    exact ⟨h2, h3⟩
  · exact absurd et (h t ht)

/-- The values of three candidates. -/
def exampleVals (s : ℕ) : ℂ := if s = 0 then 5 else if s = 1 then 1 else 3

/-- Three candidates with the values 5, 1, 3: the third one is selected. -/
example : select (fun s => some [s]) (fun s => some (exampleVals s)) 3 none = some [2] := by
  obtain ⟨s, hs, h1, h2, h3⟩ := C55_median_candidate (fun s => some [s]) exampleVals 3 none (by norm_num)
  rw [h1]
  have e0 : signedMax (exampleVals 0) = 5 := by simp [signedMax, exampleVals]
  have e1 : signedMax (exampleVals 1) = 1 := by simp [signedMax, exampleVals]
  have e2 : signedMax (exampleVals 2) = 3 := by simp [signedMax, exampleVals]
  have hr : List.range 3 = [0, 1, 2] := rfl
  rw [hr] at h2 h3
  have : s = 0 ∨ s = 1 ∨ s = 2 := by omega
  rcases this with rfl | rfl | rfl
  · exfalso
    simp only [List.filter_cons, e0, e1, e2, List.filter_nil] at h3
    norm_num at h3
  · exfalso
    simp only [List.filter_cons, e0, e1, e2, List.filter_nil] at h2
    norm_num at h2
  · rfl

/-! ## jobs -/

theorem mapM_forall {α β : Type*} {f : α → Option β} {P : β → Prop} (hP : ∀ a b, f a = some b → P b) :
    ∀ (l : List α) (r : List β), l.mapM f = some r → r.length = l.length ∧ ∀ b ∈ r, P b
  | [], r, h => by
    rw [List.mapM_nil] at h
    obtain rfl := Option.some.inj h
    simp
  | a :: l, r, h => by
    rw [List.mapM_cons] at h
    obtain ⟨b, hb, h⟩ := Option.bind_eq_some_iff.1 h
    obtain ⟨r', hr', h⟩ := Option.bind_eq_some_iff.1 h
    obtain rfl := Option.some.inj h
    obtain ⟨h1, h2⟩ := mapM_forall hP l r' hr'
    refine ⟨by simp [h1], ?_⟩
    intro x hx
    rcases List.mem_cons.1 hx with rfl | hx
    · exact hP a _ hb
    · exact h2 x hx

theorem rand_coprime {n : ℕ} {rs : List ℕ} {r : ℕ} (h : rand n rs = some r) : Nat.Coprime r n := by
  unfold rand at h
  split_ifs at h with h0
  · obtain rfl := Option.some.inj h
    exact (Nat.gcd_comm 0 n).trans h0
  · have := List.find?_some h
    simp only [decide_eq_true_eq] at this
    exact (Nat.gcd_comm r n).trans this

theorem candidate_good {c : Config k m} {e : Round k m} {n : ℕ} {i : Fin k} {s : ℕ} {v : List ℕ} (h : candidate c e n i s = some v) :
    GoodVector (c.dims i) n v := by
  obtain ⟨h1, h2⟩ := mapM_forall (fun j b hb => rand_coprime hb) _ _ h
  exact ⟨by rw [h1, List.length_range], h2⟩

/-- What the loop may rely on: in rounds that go on, the random numbers and the values of the candidates have arrived (no timeout), and without
median lattices nothing beyond the tabulated sizes is proposed. -/
structure Fair (c : Config k m) (e : ℕ → State k → Round k m) : Prop where
  complete : 0 < c.candidates → ∀ t st i, todo st i → ∀ s < c.candidates,
    (candidate c (e t st) (intLattice (st.lattices i)) i s).isSome ∧ ((e t st).candidateVal i s).isSome
  bounded : c.candidates = 0 → ∀ t st n, (e t st).proposal = some n → ∀ i, n i ≤ maxLattice c i

theorem Fair.shift {c : Config k m} {e : ℕ → State k → Round k m} (h : Fair c e) : Fair c (fun t => e (t + 1)) :=
  ⟨fun hc t => h.complete hc (t + 1), fun hc t => h.bounded hc (t + 1)⟩

/-- invariant: kernels which are to be integrated with a tabulated lattice have its generating vector -/
def Inv (c : Config k m) (st : State k) : Prop :=
  ∀ i, c.standard = true → (c.candidates = 0 ∨ st.lattices i ≤ maxLattice c i) → ∃ (N : ℕ) (v : List ℕ), st.lattices i = N ∧ st.genvecs i = some v ∧
    (∃ w, (N, w) ∈ tabulated (c.dims i) ∧ v = w.take (c.dims i)) ∧ v.length = c.dims i ∧ ∀ x ∈ v, 1 ≤ x ∧ x < N ∧ Nat.Coprime x N

theorem intLattice_nat' (N : ℕ) : intLattice (N : ℝ) = N := by unfold intLattice; exact Nat.floor_natCast N

theorem lookup_inv (c : Config k m) (n : Fin k → ℝ) (hb : c.candidates = 0 → ∀ i, n i ≤ maxLattice c i)
    (hd : ∀ i, (maxLatticeSize (c.dims i)).isSome) (st : State k) :
    Inv c { st with old := fun i => some (st.lattices i), lattices := fun i => (lookup c n i).1, genvecs := fun i => (lookup c n i).2 } := by
  intro i hs hor
  dsimp only at hor ⊢
  cases hg : generatingVector (c.dims i) ⌊n i⌋ with
  | some p =>
    obtain ⟨N, v⟩ := p
    have e : lookup c n i = ((N : ℝ), some v) := by unfold lookup; rw [if_pos hs, hg]
    obtain ⟨h1, h2, h3, h4, h5⟩ := C29_smallest_lattice _ _ _ _ hg
    exact ⟨N, v, by rw [e], by rw [e], h1, h4, h5⟩
  | none =>
    exfalso
    have e : lookup c n i = (n i, none) := by unfold lookup; rw [if_pos hs, hg]
    have hle : n i ≤ maxLattice c i := by
      rcases hor with h | h
      · exact hb h i
      · rw [e] at h; exact h
    obtain ⟨M, hM⟩ := Option.isSome_iff_exists.1 (hd i)
    have : (generatingVector (c.dims i) ⌊n i⌋).isSome := by
      refine (C29_succeeds_iff _ _).2 ⟨M, hM, ?_⟩
      have h1 : n i ≤ (M : ℝ) := by
        unfold maxLattice at hle
        rw [hM] at hle
        exact hle
      have h2 : (⌊n i⌋ : ℝ) ≤ M := (Int.floor_le _).trans h1
      exact_mod_cast h2
    rw [hg] at this
    simp at this

theorem construct_lattices (c : Config k m) (e : Round k m) (st : State k) : (construct c e st).lattices = st.lattices ∧ (construct c e st).old = st.old := by
  unfold construct; split <;> exact ⟨rfl, rfl⟩

theorem record_lattices (e : Round k m) (st : State k) : (record e st).lattices = st.lattices ∧ (record e st).old = st.old ∧ (record e st).genvecs = st.genvecs :=
  ⟨rfl, rfl, rfl⟩

/-- the jobs of one round -/
theorem jobs_good {c : Config k m} {e : Round k m} {st : State k} (hstd : c.candidates = 0 → c.standard = true) (hodd : 0 < c.candidates → c.candidates % 2 = 1)
    (hI : Inv c st) (hcomp : 0 < c.candidates → ∀ i, todo st i → ∀ s < c.candidates,
      (candidate c e (intLattice (st.lattices i)) i s).isSome ∧ (e.candidateVal i s).isSome) :
    ∀ j ∈ jobs c e st, ∃ v, j.genvec = some v ∧ GoodVector (c.dims j.kernel) j.lattice v := by
  intro j hj
  unfold jobs at hj
  rw [List.mem_map] at hj
  obtain ⟨i, hi, rfl⟩ := hj
  have htodo : todo st i = true := by simpa using (List.mem_filter.1 hi).2
  dsimp only
  have htab : c.standard = true → (c.candidates = 0 ∨ st.lattices i ≤ maxLattice c i) →
      ∃ v, st.genvecs i = some v ∧ GoodVector (c.dims i) (intLattice (st.lattices i)) v := by
    intro h1 h2
    obtain ⟨N, v, e1, e2, _, e4, e5⟩ := hI i h1 h2
    exact ⟨v, e2, e4, by rw [e1, intLattice_nat']; exact fun x hx => (e5 x hx).2.2⟩
  rcases Nat.eq_zero_or_pos c.candidates with h0 | h0
  · obtain ⟨v, h1, h2⟩ := htab (hstd h0) (Or.inl h0)
    refine ⟨v, ?_, h2⟩
    unfold construct
    rw [if_neg (by omega)]; exact h1
  · by_cases hneed : needsMedian c st i = true
    · have hc := hcomp h0 i htodo
      choose! cv hcv using fun s hs => Option.isSome_iff_exists.1 (hc s hs).1
      choose! vv hvv using fun s hs => Option.isSome_iff_exists.1 (hc s hs).2
      have e1 : (construct c e st).genvecs i = select (candidate c e (intLattice (st.lattices i)) i)
          (fun s => (candidate c e (intLattice (st.lattices i)) i s).bind (fun _ => e.candidateVal i s)) c.candidates (st.genvecs i) := by
        unfold construct
        rw [if_pos h0]
        dsimp only
        rw [if_pos (by rw [htodo, hneed]; rfl)]
      have e2 : select (candidate c e (intLattice (st.lattices i)) i)
          (fun s => (candidate c e (intLattice (st.lattices i)) i s).bind (fun _ => e.candidateVal i s)) c.candidates (st.genvecs i)
          = select (candidate c e (intLattice (st.lattices i)) i) (fun s => some (vv s)) c.candidates (st.genvecs i) := by
        have hcongr : ∀ s ∈ List.range c.candidates,
            ((candidate c e (intLattice (st.lattices i)) i s).bind (fun _ => e.candidateVal i s)) = some (vv s) := by
          intro s hs
          rw [hcv s (List.mem_range.1 hs), Option.bind_some, hvv s (List.mem_range.1 hs)]
        unfold select
        rw [mapM_some (g := vv) _ hcongr, mapM_some (g := vv) _ (fun _ _ => rfl)]
        dsimp only
        apply List.foldl_ext
        intro g s hs
        simp only [hcongr s hs]
      obtain ⟨s, hs, h1, _⟩ := C55_median_candidate (candidate c e (intLattice (st.lattices i)) i) vv c.candidates (st.genvecs i) (hodd h0)
      refine ⟨cv s, ?_, candidate_good (hcv s hs)⟩
      rw [e1, e2, h1, hcv s hs]
    · have hn : c.standard = true ∧ st.lattices i ≤ maxLattice c i := by
        unfold needsMedian at hneed
        simp only [Bool.or_eq_true, Bool.not_eq_true', decide_eq_true_eq, not_or, Bool.not_eq_false, not_lt] at hneed
        exact hneed
      obtain ⟨v, h1, h2⟩ := htab hn.1 (Or.inr hn.2)
      refine ⟨v, ?_, h2⟩
      unfold construct
      rw [if_pos h0]
      dsimp only
      rw [if_neg (by simp [hneed])]; exact h1

theorem step_next {c : Config k m} {e : Round k m} {st st' : State k} (h : step c e st = .next st') :
    ∃ n, e.proposal = some n ∧ e.early = false ∧ (∃ i, (lookup c n i).1 ≠ st.lattices i) ∧
      st' = { record e (construct c e st) with old := fun i => some (st.lattices i), lattices := fun i => (lookup c n i).1, genvecs := fun i => (lookup c n i).2 } := by
  unfold step at h
  dsimp only at h
  split_ifs at h with h1
  rcases hp : e.proposal with _ | n
  · rw [hp] at h; dsimp only at h; simp at h
  · rw [hp] at h
    dsimp only at h
    have hl : (record e (construct c e st)).lattices = st.lattices := (construct_lattices c e st).1
    split_ifs at h with h2
    simp only [Outcome.next.injEq] at h
    refine ⟨n, rfl, by simpa using h1, ?_, ?_⟩
    · rw [hl] at h2
      exact not_forall.1 h2
    · rw [← h, hl]

theorem init_inv {c : Config k m} {np : ℤ} {st : State k} (h : init c np = some st) :
    Inv c st ∧ (∀ i, (maxLatticeSize (c.dims i)).isSome) ∧ (∀ i, st.old i = none) ∧ (∀ i, st.var i = none) ∧
      (∀ i, (∃ N : ℕ, st.lattices i = N ∧ np ≤ N)) := by
  unfold init at h
  split_ifs at h with hc
  obtain rfl := Option.some.inj h
  refine ⟨?_, fun i => (hc i).2, fun _ => rfl, fun _ => rfl, ?_⟩
  · intro i _ _
    have hg : generatingVector (c.dims i) np = some ((generatingVector (c.dims i) np).get (hc i).1) := (Option.some_get _).symm
    obtain ⟨h1, h2, h3, h4, h5⟩ := C29_smallest_lattice _ _ _ _ hg
    exact ⟨_, _, rfl, rfl, h1, h4, h5⟩
  · intro i
    have hg : generatingVector (c.dims i) np = some ((generatingVector (c.dims i) np).get (hc i).1) := (Option.some_get _).symm
    obtain ⟨h1, h2, h3, h4, h5⟩ := C29_smallest_lattice _ _ _ _ hg
    exact ⟨_, rfl, h2⟩

theorem init_le_max {c : Config k m} {np : ℤ} {st : State k} (h : init c np = some st) (i : Fin k) : st.lattices i ≤ maxLattice c i := by
  unfold init at h
  split_ifs at h with hc
  obtain rfl := Option.some.inj h
  dsimp only
  have hg : generatingVector (c.dims i) np = some ((generatingVector (c.dims i) np).get (hc i).1) := (Option.some_get _).symm
  obtain ⟨⟨w, hw, _⟩, _⟩ := C29_smallest_lattice _ _ _ _ hg
  obtain ⟨M, hM⟩ := Option.isSome_iff_exists.1 (hc i).2
  have h2 := ((C29_max_lattice_size _ M).1 hM).2 ⟨w, hw⟩
  unfold maxLattice
  rw [hM]
  exact_mod_cast h2

theorem iterate_jobs {c : Config k m} (hstd : c.candidates = 0 → c.standard = true) (hodd : 0 < c.candidates → c.candidates % 2 = 1)
    (hd : ∀ i, (maxLatticeSize (c.dims i)).isSome) (fuel : ℕ) : ∀ (e : ℕ → State k → Round k m), Fair c e → ∀ st, Inv c st → ∀ r, iterate c e fuel st = some r →
      ∀ j ∈ r.1, ∃ v, j.genvec = some v ∧ GoodVector (c.dims j.kernel) j.lattice v := by
  induction fuel with
  | zero => intro e _ st _ r h; simp [iterate] at h
  | succ fuel ih =>
    intro e hF st hI r h j hj
    have hgood := jobs_good (e := e 0 st) hstd hodd hI (fun hc i ht => hF.complete hc 0 st i ht)
    unfold iterate at h
    rcases hs : step c (e 0 st) st with st' | st'
    · rw [hs] at h
      dsimp only at h
      obtain rfl := Option.some.inj h
      exact hgood j hj
    · rw [hs] at h
      dsimp only at h
      obtain ⟨r', hr', rfl⟩ := Option.map_eq_some_iff.1 h
      rcases List.mem_append.1 hj with hj | hj
      · exact hgood j hj
      · obtain ⟨n, hp, _, _, rfl⟩ := step_next hs
        refine ih _ hF.shift _ ?_ r' hr' j hj
        have := lookup_inv c n (fun hc => hF.bounded hc 0 st n hp) hd (record (e 0 st) (construct c (e 0 st) st))
        have hl : (record (e 0 st) (construct c (e 0 st) st)).lattices = st.lattices := (construct_lattices c (e 0 st) st).1
        rw [hl] at this
        exact this

theorem normalize_spec (c : Config k m) : (c.normalize.candidates = 0 → c.normalize.standard = true) ∧
    (0 < c.normalize.candidates → c.normalize.candidates % 2 = 1) ∧ c.normalize.dims = c.dims ∧ (c.normalize.candidates = 0 ↔ c.candidates = 0) := by
  unfold Config.normalize
  dsimp only
  by_cases h0 : c.candidates = 0
  · rw [if_pos h0]
    rw [if_neg (by dsimp only; omega)]
    exact ⟨fun _ => rfl, fun h => by dsimp only at h; omega, rfl, Iff.rfl⟩
  · rw [if_neg h0]
    by_cases h1 : c.candidates % 2 = 0
    · rw [if_pos ⟨by omega, h1⟩]
      exact ⟨fun h => by dsimp only at h; omega, fun _ => by dsimp only; omega, rfl, by dsimp only; omega⟩
    · rw [if_neg (by omega)]
      exact ⟨fun h => absurd h h0, fun _ => by omega, rfl, Iff.rfl⟩

/-- Every integration job that is ever sent has a generating vector for its own number of points: one component per dimension, each coprime
to the number of points. This holds in both phases and for all histories of proposals, random numbers and answers, with tabulated and with
median lattices. -/
theorem C55_every_job_has_a_lattice (c : Config k m) (np : ℤ) (st : State k) (h0 : init c.normalize np = some st)
    (e : ℕ → State k → Round k m) (hF : Fair c.normalize e) (fuel : ℕ) (r : List (Job k) × State k) (h : iterate c.normalize e fuel st = some r) :
    ∀ j ∈ r.1, ∃ v, j.genvec = some v ∧ GoodVector (c.dims j.kernel) j.lattice v := by
  obtain ⟨h1, h2, h3, _⟩ := normalize_spec c
  obtain ⟨hI, hd, _⟩ := init_inv h0
  have := iterate_jobs h1 h2 hd fuel e hF st hI r h
  rw [h3] at this
  exact this

/-! ## tabulated lattices -/

/-- With tabulated lattices only (no candidates), the jobs use tabulated lattices, and the numbers of points never decrease. -/
theorem C55_standard_jobs_tabulated (c : Config k m) (hc : c.candidates = 0) (np : ℤ) (st : State k) (h0 : init c.normalize np = some st)
    (e : ℕ → State k → Round k m) (hF : Fair c.normalize e) (fuel : ℕ) (r : List (Job k) × State k) (h : iterate c.normalize e fuel st = some r) :
    ∀ j ∈ r.1, ∃ w, (j.lattice, w) ∈ tabulated (c.dims j.kernel) ∧ j.genvec = some (w.take (c.dims j.kernel)) := by
  obtain ⟨h1, h2, h3, h4⟩ := normalize_spec c
  obtain ⟨hI, hd, -⟩ := init_inv h0
  rw [← h3]
  have hz : c.normalize.candidates = 0 := h4.2 hc
  generalize c.normalize = c' at *
  clear h0 h3 h4 hc c
  induction fuel generalizing e st r with
  | zero => simp [iterate] at h
  | succ fuel ih =>
    have hgood : ∀ j ∈ jobs c' (e 0 st) st, ∃ w, (j.lattice, w) ∈ tabulated (c'.dims j.kernel) ∧ j.genvec = some (w.take (c'.dims j.kernel)) := by
      intro j hj
      unfold jobs at hj
      rw [List.mem_map] at hj
      obtain ⟨i, hi, rfl⟩ := hj
      obtain ⟨N, v, e1, e2, ⟨w, e3, e4⟩, _⟩ := hI i (h1 hz) (Or.inl hz)
      refine ⟨w, ?_, ?_⟩
      · dsimp only; rw [e1, intLattice_nat']; exact e3
      · dsimp only
        unfold construct
        rw [if_neg (by omega), e2, e4]
    intro j hj
    unfold iterate at h
    rcases hs : step c' (e 0 st) st with st' | st'
    · rw [hs] at h
      dsimp only at h
      obtain rfl := Option.some.inj h
      exact hgood j hj
    · rw [hs] at h
      dsimp only at h
      obtain ⟨r', hr', rfl⟩ := Option.map_eq_some_iff.1 h
      rcases List.mem_append.1 hj with hj | hj
      · exact hgood j hj
      · obtain ⟨n, hp, _, _, rfl⟩ := step_next hs
        refine ih _ _ r' hF.shift hr' ?_ j hj
        have := lookup_inv c' n (fun hc => hF.bounded hc 0 st n hp) hd (record (e 0 st) (construct c' (e 0 st) st))
        have hl : (record (e 0 st) (construct c' (e 0 st) st)).lattices = st.lattices := (construct_lattices c' (e 0 st) st).1
        rw [hl] at this
        exact this

/-- the number of tabulated sizes above `x` -/
noncomputable def above (d : ℕ) (x : ℝ) : ℕ := open Classical in (((tabulated d).map Prod.fst).toFinset.filter (fun N : ℕ => x < N)).card

theorem tabulated_length (d : ℕ) : (tabulated d).length ≤ 165 := by
  have h1 : (dn1Lattice.zip dn1Gv).length = 154 := by rw [List.length_zip, len1.1, len1.2]; rfl
  have h2 : (cfftw2Lattice.zip cfftw2Gv).length = 11 := by rw [List.length_zip, len2.1, len2.2]; rfl
  unfold tabulated
  rw [List.length_append]
  split <;> split <;> simp only [h1, h2, List.length_nil] <;> omega

theorem above_le (d : ℕ) (x : ℝ) : above d x ≤ 165 := by
  classical
  unfold above
  refine (Finset.card_filter_le _ _).trans ((List.toFinset_card_le _).trans ?_)
  rw [List.length_map]; exact tabulated_length d

theorem above_anti (d : ℕ) {x y : ℝ} (h : x ≤ y) : above d y ≤ above d x := by
  classical
  unfold above
  apply Finset.card_le_card
  intro N hN
  rw [Finset.mem_filter] at hN ⊢
  exact ⟨hN.1, lt_of_le_of_lt h hN.2⟩

theorem above_lt (d : ℕ) {x : ℝ} {N : ℕ} {w : List ℕ} (hw : (N, w) ∈ tabulated d) (h : x < N) : above d (N : ℝ) < above d x := by
  classical
  unfold above
  apply Finset.card_lt_card
  rw [Finset.ssubset_iff_of_subset]
  · refine ⟨N, ?_, ?_⟩
    · rw [Finset.mem_filter, List.mem_toFinset, List.mem_map]
      exact ⟨⟨_, hw, rfl⟩, h⟩
    · rw [Finset.mem_filter]
      rintro ⟨_, h'⟩
      exact lt_irrefl _ h'
  · intro M hM
    rw [Finset.mem_filter] at hM ⊢
    exact ⟨hM.1, h.trans hM.2⟩

theorem iterate_ends {c : Config k m} (hz : c.candidates = 0) (hstd : c.standard = true)
    (hd : ∀ i, (maxLatticeSize (c.dims i)).isSome) (fuel : ℕ) : ∀ (e : ℕ → State k → Round k m), Fair c e →
      (∀ t st n, (e t st).proposal = some n → ∀ i, st.lattices i ≤ n i) → ∀ st, Inv c st →
      ∑ i, above (c.dims i) (st.lattices i) < fuel → (iterate c e fuel st).isSome := by
  induction fuel with
  | zero => intro e _ _ st _ h; omega
  | succ fuel ih =>
    intro e hF hmono st hI hsum
    unfold iterate
    rcases hs : step c (e 0 st) st with st' | st'
    · rfl
    · dsimp only
      rw [Option.isSome_map]
      obtain ⟨n, hp, _, ⟨i0, hi0⟩, rfl⟩ := step_next hs
      have hI' : Inv c { record (e 0 st) (construct c (e 0 st) st) with old := fun i => some (st.lattices i), lattices := fun i => (lookup c n i).1, genvecs := fun i => (lookup c n i).2 } := by
        have := lookup_inv c n (fun hc => hF.bounded hc 0 st n hp) hd (record (e 0 st) (construct c (e 0 st) st))
        have hl : (record (e 0 st) (construct c (e 0 st) st)).lattices = st.lattices := (construct_lattices c (e 0 st) st).1
        rw [hl] at this
        exact this
      refine ih _ hF.shift (fun t => hmono (t + 1)) _ hI' ?_
      have hge : ∀ i, st.lattices i ≤ (lookup c n i).1 := by
        intro i
        obtain ⟨N, v, e1, _⟩ := hI i hstd (Or.inl hz)
        have hN := hmono 0 st n hp i
        unfold lookup
        rw [if_pos hstd]
        cases hg : generatingVector (c.dims i) ⌊n i⌋ with
        | none => exact hN
        | some p =>
          obtain ⟨N', v'⟩ := p
          obtain ⟨_, h2, _⟩ := C29_smallest_lattice _ _ _ _ hg
          dsimp only
          rw [e1] at hN ⊢
          have h3 : (N : ℤ) ≤ ⌊n i⌋ := Int.le_floor.2 (by exact_mod_cast hN)
          have h4 : (N : ℤ) ≤ N' := h3.trans h2
          exact_mod_cast h4
      have hlt : ∑ i, above (c.dims i) ((lookup c n i).1) < ∑ i, above (c.dims i) (st.lattices i) := by
        apply Finset.sum_lt_sum
        · intro i _; exact above_anti _ (hge i)
        · refine ⟨i0, Finset.mem_univ _, ?_⟩
          obtain ⟨N, v, e1, _, ⟨w, e3, _⟩, _⟩ := hI' i0 hstd (Or.inl hz)
          dsimp only at e1
          rw [e1]
          refine above_lt _ e3 ?_
          rw [← e1]
          exact lt_of_le_of_ne (hge i0) (Ne.symm hi0)
      dsimp only
      omega

/-- With tabulated lattices, the loop ends after at most 165 iterations for every kernel (there are 165 tabulated sizes), whatever the
answers of the workers are and even if the precision is never reached. -/
theorem C55_standard_terminates (c : Config k m) (hc : c.candidates = 0) (np : ℤ) (st : State k) (h0 : init c.normalize np = some st)
    (e : ℕ → State k → Round k m) (hF : Fair c.normalize e)
    (hmono : ∀ t st n, (e t st).proposal = some n → ∀ i, st.lattices i ≤ n i) :
    ∃ r, iterate c.normalize e (165 * k + 1) st = some r := by
  obtain ⟨h1, h2, h3, h4⟩ := normalize_spec c
  obtain ⟨hI, hd, _⟩ := init_inv h0
  refine Option.isSome_iff_exists.1 (iterate_ends (h4.2 hc) (h1 (h4.2 hc)) hd _ e hF hmono st hI ?_)
  have : ∑ i, above (c.normalize.dims i) (st.lattices i) ≤ ∑ _i : Fin k, 165 := Finset.sum_le_sum (fun i _ => above_le _ _)
  simp only [Finset.sum_const, Finset.card_univ, Fintype.card_fin, smul_eq_mul] at this
  omega

/-- The proposals of the two phases are never below the current sizes; the ones of the second phase are not above those planned (`adjust_n`
does not exceed the tabulated sizes, see C28), but the ones of the first phase can be up to twenty times the current size. -/
theorem C55_proposals (lattice x : ℝ) (hl : 0 ≤ lattice) (b : Bool) :
    lattice ≤ propose1 lattice x ∧ propose1 lattice x ≤ 20 * lattice ∧ lattice ≤ finish2 b lattice x ∧ finish2 b lattice x ≤ max x lattice := by
  have hp : lattice ≤ propose1 lattice x ∧ propose1 lattice x ≤ 20 * lattice := by
    unfold propose1
    dsimp only
    have h1 : lattice ≤ min (max (lattice * x) lattice) (lattice * 20) := le_min (le_max_right _ _) (by linarith)
    have h2 : min (max (lattice * x) lattice) (lattice * 20) ≤ lattice * 20 := min_le_right _ _
    split_ifs with h
    · constructor <;> linarith
    · exact ⟨h1, by linarith⟩
  refine ⟨hp.1, hp.2, ?_⟩
  unfold finish2
  dsimp only
  have h1 : lattice ≤ min (max x lattice) (lattice * 20) := le_min (le_max_right _ _) (by linarith)
  have h2 : min (max x lattice) (lattice * 20) ≤ max x lattice := min_le_left _ _
  cases b
  · simp only [Bool.false_eq_true, if_false]; exact ⟨h1, h2⟩
  · simp only [if_true]
    split_ifs with a b b
    · exact ⟨le_rfl, le_max_right _ _⟩
    · exact ⟨by linarith, a.trans h2⟩
    · exact ⟨le_rfl, le_max_right _ _⟩
    · exact ⟨h1, h2⟩

/-! ## values -/

/-- The value of a kernel is only ever replaced by the mean over the shifts of an integration with the lattice of a job that has been sent. -/
theorem iterate_values {c : Config k m} (P : State k → Prop) (fuel : ℕ) : ∀ (e : ℕ → State k → Round k m)
      (_ : ∀ t st st', P st → step c (e t st) st = .next st' → P st') (st : State k) (_ : P st) (r), iterate c e fuel st = some r →
      ∀ i, ((r.2.val i, r.2.var i) = (st.val i, st.var i)) ∨ ∃ t s v, P s ∧ (e t s).shiftVal i = some v ∧
        r.2.val i = kernVal (s.lattices i) v ∧ r.2.var i = some (kernVar (s.lattices i) v) ∧
        ∃ j ∈ r.1, j.kernel = i ∧ j.lattice = intLattice (s.lattices i) := by
  have hstep : ∀ (e : Round k m) (st : State k) i, (((record e (construct c e st)).val i, (record e (construct c e st)).var i) = (st.val i, st.var i)) ∨
      ∃ v, e.shiftVal i = some v ∧ (record e (construct c e st)).val i = kernVal (st.lattices i) v ∧
        (record e (construct c e st)).var i = some (kernVar (st.lattices i) v) ∧ ∃ j ∈ jobs c e st, j.kernel = i ∧ j.lattice = intLattice (st.lattices i) := by
    intro e st i
    have hv : (construct c e st).val = st.val ∧ (construct c e st).var = st.var := by unfold construct; split <;> exact ⟨rfl, rfl⟩
    have ht : todo (construct c e st) i = todo st i := by
      unfold todo; rw [(construct_lattices c e st).1, (construct_lattices c e st).2]
    unfold record
    dsimp only
    rw [hv.1, hv.2, ht, (construct_lattices c e st).1]
    rcases hsv : e.shiftVal i with _ | v
    · exact Or.inl rfl
    · dsimp only
      by_cases htd : todo st i = true
      · rw [if_pos htd]
        have hj : ∃ j ∈ jobs c e st, j.kernel = i ∧ j.lattice = intLattice (st.lattices i) := by
          refine ⟨_, List.mem_map.2 ⟨i, List.mem_filter.2 ⟨List.mem_finRange i, by simpa using htd⟩, rfl⟩, rfl, rfl⟩
        unfold luckyUpdate
        dsimp only
        rcases hvar : st.var i with _ | ov
        · exact Or.inr ⟨v, rfl, rfl, rfl, hj⟩
        · dsimp only
          split_ifs
          · exact Or.inr ⟨v, rfl, rfl, rfl, hj⟩
          · exact Or.inl rfl
      · rw [if_neg htd]; exact Or.inl rfl
  induction fuel with
  | zero => intro e _ st _ r h; simp [iterate] at h
  | succ fuel ih =>
    intro e hP st hst r h i
    unfold iterate at h
    rcases hs : step c (e 0 st) st with st' | st'
    · rw [hs] at h
      dsimp only at h
      obtain rfl := Option.some.inj h
      have hval : st'.val = (record (e 0 st) (construct c (e 0 st) st)).val ∧ st'.var = (record (e 0 st) (construct c (e 0 st) st)).var := by
        unfold step at hs
        dsimp only at hs
        split_ifs at hs
        · simp only [Outcome.ret.injEq] at hs; subst hs; exact ⟨rfl, rfl⟩
        · rcases hp : (e 0 st).proposal with _ | n
          · rw [hp] at hs; simp only [Outcome.ret.injEq] at hs; subst hs; exact ⟨rfl, rfl⟩
          · rw [hp] at hs
            dsimp only at hs
            split_ifs at hs
            simp only [Outcome.ret.injEq] at hs; subst hs; exact ⟨rfl, rfl⟩
      dsimp only
      rw [hval.1, hval.2]
      rcases hstep (e 0 st) st i with h1 | ⟨v, h1, h2, h3, h4⟩
      · exact Or.inl h1
      · exact Or.inr ⟨0, st, v, hst, h1, h2, h3, h4⟩
    · rw [hs] at h
      dsimp only at h
      obtain ⟨r', hr', rfl⟩ := Option.map_eq_some_iff.1 h
      dsimp only
      have hst' := hP 0 st st' hst hs
      obtain ⟨n, hp, _, _, rfl⟩ := step_next hs
      rcases ih _ (fun t => hP (t + 1)) _ hst' r' hr' i with h1 | ⟨t, s', v, h0, h1, h2, h3, j, hj, h4⟩
      · rw [Prod.mk.injEq] at h1
        rw [h1.1, h1.2]
        rcases hstep (e 0 st) st i with h1 | ⟨v, h1, h2, h3, j, hj, h4⟩
        · exact Or.inl h1
        · exact Or.inr ⟨0, st, v, hst, h1, h2, h3, j, List.mem_append_left _ hj, h4⟩
      · exact Or.inr ⟨t + 1, s', v, h0, h1, h2, h3, j, List.mem_append_right _ hj, h4⟩

/-- With tabulated lattices, the value of every kernel for which a value has been obtained is the mean over the shifts divided by the number
of points of a job that has been sent for it (so that, by C43, its expected value is the integral), and the error is the one of the same
integration. -/
theorem C55_standard_values (c : Config k m) (hc : c.candidates = 0) (np : ℤ) (st : State k) (h0 : init c.normalize np = some st)
    (e : ℕ → State k → Round k m) (hF : Fair c.normalize e) (fuel : ℕ) (r : List (Job k) × State k) (h : iterate c.normalize e fuel st = some r) (i : Fin k) :
    r.2.var i = none ∧ r.2.val i = st.val i ∨ ∃ t s v, (e t s).shiftVal i = some v ∧ ∃ j ∈ r.1, j.kernel = i ∧
      r.2.val i = kernVal (j.lattice : ℝ) v ∧ r.2.var i = some (kernVar (j.lattice : ℝ) v) := by
  obtain ⟨h1, h2, h3, h4⟩ := normalize_spec c
  obtain ⟨hI, hd, _, hvar, _⟩ := init_inv h0
  have hz := h4.2 hc
  rcases iterate_values (Inv c.normalize) fuel e (fun t s s' hs hn => by
      obtain ⟨n, hp, _, _, rfl⟩ := step_next hn
      have := lookup_inv c.normalize n (fun hc => hF.bounded hc t s n hp) hd (record (e t s) (construct c.normalize (e t s) s))
      have hl : (record (e t s) (construct c.normalize (e t s) s)).lattices = s.lattices := (construct_lattices c.normalize (e t s) s).1
      rw [hl] at this
      exact this) st hI r h i with h1' | ⟨t, s, v, hs, k1, k2, k3, j, hj, k4, k5⟩
  · rw [Prod.mk.injEq] at h1'
    exact Or.inl ⟨by rw [h1'.2, hvar], h1'.1⟩
  · obtain ⟨N, _, e1, _⟩ := hs i (h1 hz) (Or.inl hz)
    rw [e1, intLattice_nat'] at k5
    rw [e1] at k2 k3
    exact Or.inr ⟨t, s, v, k1, j, hj, k4, by rw [k5]; exact k2, by rw [k5]; exact k3⟩

/-! ## an example and a defect -/

/-- One kernel with one dimension; no candidates. -/
def oneKernel (candidates : ℕ) : Config 1 1 := { dims := fun _ => 1, candidates := candidates, standard := false }

theorem max_one : maxLatticeSize 1 = some 68719476767 := by decide +kernel

/-- A history: doubling the size until it exceeds a million. -/
noncomputable def doubling (_ : ℕ) (st : State 1) : Round 1 1 :=
  open Classical in
  { randints := fun _ _ _ => [1], candidateVal := fun _ _ => some 1, shiftVal := fun _ => some (fun _ => 1), early := false
    proposal := if st.lattices 0 ≤ 1000000 then some (fun i => max (2 * st.lattices i) (st.lattices i)) else none }

theorem one_max (i : Fin 1) : maxLattice (oneKernel 0).normalize i = 68719476767 := by
  have : maxLatticeSize ((oneKernel 0).normalize.dims i) = some 68719476767 := max_one
  unfold maxLattice
  rw [this]; norm_num

theorem one_init (np : ℤ) (h : np ≤ 68719476767) : ∃ st, init (oneKernel 0).normalize np = some st := by
  have hdim : ∀ i, (oneKernel 0).normalize.dims i = 1 := fun _ => rfl
  have h1 : (generatingVector 1 np).isSome := (C29_succeeds_iff 1 np).2 ⟨_, max_one, h⟩
  have h2 : (maxLatticeSize 1).isSome := by rw [max_one]; rfl
  unfold init
  rw [dif_pos (fun i => by rw [hdim]; exact ⟨h1, h2⟩)]
  exact ⟨_, rfl⟩

/-- Non-trivial case: starting with 1000 points. The rounds are fair, so the loop ends and all the jobs have tabulated lattices. -/
example : ∃ st r, init (oneKernel 0).normalize 1000 = some st ∧ iterate (oneKernel 0).normalize doubling 166 st = some r ∧
    ∀ j ∈ r.1, ∃ w, (j.lattice, w) ∈ tabulated 1 ∧ j.genvec = some (w.take 1) := by
  obtain ⟨st, hst⟩ := one_init 1000 (by norm_num)
  have hF : Fair (oneKernel 0).normalize doubling := by
    refine ⟨fun h => absurd h (by decide), fun _ t st n hn i => ?_⟩
    rw [one_max]
    unfold doubling at hn
    dsimp only at hn
    split_ifs at hn with hle
    obtain rfl := Option.some.inj hn
    rw [Subsingleton.elim i 0]
    exact max_le (by linarith) (by linarith)
  obtain ⟨r, hr⟩ := C55_standard_terminates (oneKernel 0) rfl 1000 st hst doubling hF (by
    intro t st n hn i
    unfold doubling at hn
    dsimp only at hn
    split_ifs at hn with hle
    obtain rfl := Option.some.inj hn
    exact le_max_right _ _)
  exact ⟨st, r, hst, hr, C55_standard_jobs_tabulated (oneKernel 0) rfl 1000 st hst doubling hF _ r hr⟩

/-- Median lattices with three candidates: the rounds are fair, too. -/
example : Fair (oneKernel 3).normalize doubling := by
  refine ⟨fun _ t st i _ s _ => ⟨?_, rfl⟩, fun h => absurd h (by decide)⟩
  have hr : ∀ n, (rand n [1]).isSome := by
    intro n
    unfold rand
    split_ifs
    · rfl
    · simp
  unfold candidate
  obtain ⟨r, hr'⟩ := Option.isSome_iff_exists.1 (hr (intLattice (st.lattices i)))
  rw [mapM_some (f := fun j => rand (intLattice (st.lattices i)) ((doubling t st).randints i s j)) (g := fun _ => r) _ (fun j _ => hr')]
  rfl

/-- The first phase, for a kernel whose error is still too large with the largest tabulated lattice; then the time is up. -/
noncomputable def tooLarge (t : ℕ) (st : State 1) : Round 1 1 :=
  { randints := fun _ _ _ => [], candidateVal := fun _ _ => none, shiftVal := fun _ => some (fun _ => 1), early := decide (0 < t)
    proposal := some (fun i => propose1 (st.lattices i) 3) }

/-- Defect: the sizes proposed in the first phase are not limited to the tabulated ones. Without median lattices, the `ValueError` of
`generating_vector` is ignored, and a job without a generating vector (`null`) is sent to the workers. -/
theorem C55_first_phase_defect : ∃ st r, init (oneKernel 0).normalize 68719476767 = some st ∧
    iterate (oneKernel 0).normalize tooLarge 2 st = some r ∧ ∃ j ∈ r.1, j.genvec = none := by
  obtain ⟨st, hst⟩ := one_init 68719476767 le_rfl
  obtain ⟨_, _, hold, _, hN⟩ := init_inv hst
  have hdim : ∀ i, (oneKernel 0).normalize.dims i = 1 := fun _ => rfl
  have hstd : (oneKernel 0).normalize.standard = true := rfl
  have hz : ¬ (0 < (oneKernel 0).normalize.candidates) := by decide
  obtain ⟨N, hN1, hN2⟩ := hN 0
  have hN2' : (68719476767 : ℝ) ≤ N := by exact_mod_cast hN2
  have hprop : ∀ i, 2 * (68719476767 : ℝ) ≤ propose1 (st.lattices i) 3 := by
    intro i
    rw [Subsingleton.elim i 0, hN1]
    unfold propose1
    dsimp only
    have e : min (max ((N : ℝ) * 3) N) (N * 20) = N * 3 := by
      rw [max_eq_left (by linarith), min_eq_left (by linarith)]
    rw [e, if_neg (by intro h; linarith [h.2])]
    linarith
  have hnone : ∀ i, lookup (oneKernel 0).normalize (fun i => propose1 (st.lattices i) 3) i = (propose1 (st.lattices i) 3, none) := by
    intro i
    have hg : generatingVector 1 ⌊propose1 (st.lattices i) 3⌋ = none := by
      by_contra hcon
      obtain ⟨M, hM, hle⟩ := (C29_succeeds_iff 1 _).1 (Option.isSome_iff_ne_none.2 hcon)
      rw [max_one] at hM
      obtain rfl := Option.some.inj hM
      have h1 : (2 * 68719476767 : ℤ) ≤ ⌊propose1 (st.lattices i) 3⌋ := Int.le_floor.2 (by have := hprop i; push_cast; linarith)
      omega
    unfold lookup
    rw [if_pos hstd, hdim, hg]
  have hcon : ∀ (e : Round 1 1) (s : State 1), construct (oneKernel 0).normalize e s = s := by
    intro e s; unfold construct; rw [if_neg hz]
  have hs0 : step (oneKernel 0).normalize (tooLarge 0 st) st = .next { record (tooLarge 0 st) st with old := fun i => some (st.lattices i), lattices := fun i => propose1 (st.lattices i) 3, genvecs := fun _ => none } := by
    unfold step
    dsimp only
    rw [hcon, if_neg (by simp [tooLarge])]
    have hp : (tooLarge 0 st).proposal = some (fun i => propose1 (st.lattices i) 3) := rfl
    rw [hp]
    dsimp only
    have hl : (record (tooLarge 0 st) st).lattices = st.lattices := rfl
    rw [hl, if_neg (by
      intro h
      have := h 0
      rw [hnone] at this
      dsimp only at this
      rw [hN1] at this
      have h2 := hprop 0
      rw [hN1] at h2
      have h3 := (C55_proposals (N : ℝ) 3 (Nat.cast_nonneg N) true)
      have hN3 : (N : ℝ) ≤ 68719476767 := by
        have := init_le_max hst 0
        rw [hN1, one_max] at this
        exact this
      linarith)]
    simp only [hnone]
  set st1 : State 1 := { record (tooLarge 0 st) st with old := fun i => some (st.lattices i), lattices := fun i => propose1 (st.lattices i) 3, genvecs := fun _ => none } with hst1
  have hs1 : step (oneKernel 0).normalize (tooLarge 1 st1) st1 = .ret (record (tooLarge 1 st1) st1) := by
    unfold step
    dsimp only
    rw [hcon, if_pos (by simp [tooLarge])]
  refine ⟨st, (jobs (oneKernel 0).normalize (tooLarge 0 st) st ++ jobs (oneKernel 0).normalize (tooLarge 1 st1) st1, record (tooLarge 1 st1) st1), hst, ?_, ?_⟩
  · unfold iterate
    rw [hs0]
    dsimp only
    unfold iterate
    rw [hs1]
    rfl
  · refine ⟨_, List.mem_append_right _ (List.mem_map.2 ⟨0, List.mem_filter.2 ⟨List.mem_finRange 0, ?_⟩, rfl⟩), ?_⟩
    · unfold todo
      simp only [decide_eq_true_eq]
      intro h
      have h' : st.lattices 0 = propose1 (st.lattices 0) 3 := Option.some.inj h
      rw [hN1] at h'
      have h2 := hprop 0
      rw [hN1, ← h'] at h2
      have hN3 : (N : ℝ) ≤ 68719476767 := by
        have := init_le_max hst 0
        rw [hN1, one_max] at this
        exact this
      linarith
    · dsimp only
      rw [hcon]

end Iterate
end SecDec
