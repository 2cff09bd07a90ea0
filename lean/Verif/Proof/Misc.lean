import Mathlib.Data.List.Sublists
import Mathlib.Data.List.Perm.Subperm
import Mathlib.Data.List.Forall2
import Mathlib.Data.List.Nodup
import Mathlib.Data.Nat.Factorial.DoubleFactorial
import Mathlib.Tactic.Ring
import Verif.Model.Misc
import Verif.Proof.ArgSort
namespace SecDec
namespace Misc
variable {α : Type}

theorem combinations_perm (s : List α) (r : Nat) : (combinations s r).Perm (s.sublistsLen r) := by
  induction s generalizing r with
  | nil => cases r <;> simp [combinations]
  | cons x xs ih =>
    cases r with
    | zero => simp [combinations]
    | succ r =>
      rw [combinations, List.sublistsLen_succ_cons]
      exact (List.perm_append_comm).trans ((ih (r+1)).append ((ih r).map _))

theorem pyRange_eq (st stop : Nat) (hst : 0 < st) (fuel a : Nat) (hf : stop - a ≤ fuel) :
    pyRange a stop st fuel = (List.range stop).filter (fun k => decide (a ≤ k ∧ st ∣ k - a)) := by
  induction fuel generalizing a with
  | zero =>
    rw [pyRange]
    symm
    rw [List.filter_eq_nil_iff]
    intro k hk
    have := List.mem_range.1 hk
    simp; omega
  | succ fuel ih =>
    rw [pyRange]
    split
    · rename_i h
      rw [ih (a + st) (by omega)]
      have hsplit : List.range stop = List.range' 0 a ++ (a :: List.range' (a+1) (stop - a - 1)) := by
        rw [List.range_eq_range']
        have e1 : a :: List.range' (a+1) (stop - a - 1) = List.range' a (stop - a) := by
          conv_rhs => rw [show stop - a = (stop - a - 1) + 1 by omega]
          rw [List.range'_succ]
        rw [e1]
        have := @List.range'_append 0 a (stop - a) 1
        simp only [Nat.zero_add, Nat.one_mul] at this
        rw [this]
        congr 1; omega
      rw [hsplit, List.filter_append, List.filter_append, List.filter_cons, List.filter_cons]
      have h1 : (List.range' 0 a).filter (fun k => decide (a + st ≤ k ∧ st ∣ k - (a + st))) = [] := by
        rw [List.filter_eq_nil_iff]; intro k hk
        have := List.mem_range'_1.1 hk
        simp; omega
      have h2 : (List.range' 0 a).filter (fun k => decide (a ≤ k ∧ st ∣ k - a)) = [] := by
        rw [List.filter_eq_nil_iff]; intro k hk
        have := List.mem_range'_1.1 hk
        simp; omega
      rw [h1, h2, if_neg (by simp; omega), if_pos (by simp)]
      simp only [List.nil_append, List.cons.injEq, true_and]
      apply List.filter_congr
      intro k hk
      have hk' := List.mem_range'_1.1 hk
      rw [decide_eq_decide]
      constructor
      · rintro ⟨h3, h4⟩
        refine ⟨by omega, ?_⟩
        have : k - a = (k - (a + st)) + st := by omega
        rw [this]; exact Nat.dvd_add h4 (Nat.dvd_refl st)
      · rintro ⟨h3, h4⟩
        have h5 : st ≤ k - a := Nat.le_of_dvd (by omega) h4
        refine ⟨by omega, ?_⟩
        have : k - (a + st) = (k - a) - st := by omega
        rw [this]; exact Nat.dvd_sub h4 (Nat.dvd_refl st)
    · rename_i h
      symm
      rw [List.filter_eq_nil_iff]
      intro k hk
      have := List.mem_range.1 hk
      simp; omega

theorem flatMap_perm {β : Type} {l : List β} {f g : β → List α} (h : ∀ a ∈ l, (f a).Perm (g a)) :
    (l.flatMap f).Perm (l.flatMap g) := by
  induction l with
  | nil => simp
  | cons a l ih =>
    simp only [List.flatMap_cons]
    exact (h a (by simp)).append (ih (fun b hb => h b (by simp [hb])))

theorem powerset_perm (s : List α) (m st : Nat) (hst : 0 < st) :
    ∃ out, powerset s m st = some out ∧
      out.Perm (s.sublists.filter (fun l => decide (m ≤ l.length ∧ st ∣ l.length - m))) := by
  unfold powerset
  rw [if_neg (by omega)]
  refine ⟨_, rfl, ?_⟩
  rw [pyRange_eq st (s.length+1) hst _ _ (by omega)]
  have h1 : ((List.range (s.length + 1)).flatMap fun n => s.sublistsLen n).Perm s.sublists :=
    (List.range_bind_sublistsLen_perm s).trans (List.sublists_perm_sublists' s).symm
  refine List.Perm.trans ?_ (h1.filter _)
  rw [List.filter_flatMap]
  have h2 : ∀ (L : List Nat),
      ((L.filter (fun k => decide (m ≤ k ∧ st ∣ k - m))).flatMap (combinations s)).Perm
      (L.flatMap (fun k => (s.sublistsLen k).filter (fun l => decide (m ≤ l.length ∧ st ∣ l.length - m)))) := by
    intro L
    induction L with
    | nil => simp
    | cons k L ih =>
      rw [List.filter_cons, List.flatMap_cons]
      split
      · rename_i hk
        rw [List.flatMap_cons]
        refine List.Perm.append ?_ ih
        refine (combinations_perm s k).trans ?_
        rw [List.filter_eq_self.2]
        intro l hl
        rw [List.length_of_sublistsLen hl]; exact hk
      · rename_i hk
        have : (s.sublistsLen k).filter (fun l => decide (m ≤ l.length ∧ st ∣ l.length - m)) = [] := by
          rw [List.filter_eq_nil_iff]
          intro l hl
          rw [List.length_of_sublistsLen hl]; exact hk
        rw [this, List.nil_append]; exact ih
  exact h2 _

/-! rangecomb -/

theorem mem_arange (l h k : Int) : k ∈ arange l h ↔ l ≤ k ∧ k < h := by
  unfold arange
  simp only [List.mem_map, List.mem_range]
  constructor
  · rintro ⟨a, ha, rfl⟩; omega
  · rintro ⟨h1, h2⟩; exact ⟨(k - l).toNat, by omega, by omega⟩

theorem arange_nodup (l h : Int) : (arange l h).Nodup := by
  unfold arange
  apply List.Nodup.map
  · intro a b hab; simp at hab; omega
  · exact List.nodup_range

theorem arange_sorted (l h : Int) : (arange l h).Pairwise (· < ·) := by
  unfold arange
  rw [List.pairwise_map]
  exact (List.pairwise_lt_range).imp (by intro a b hab; omega)

theorem mem_product (ls : List (List α)) (v : List α) :
    v ∈ product ls ↔ List.Forall₂ (fun a l => a ∈ l) v ls := by
  induction ls generalizing v with
  | nil => simp [product]
  | cons l ls ih =>
    simp only [product, List.mem_flatMap, List.mem_map]
    constructor
    · rintro ⟨a, ha, w, hw, rfl⟩
      exact List.Forall₂.cons ha ((ih w).1 hw)
    · intro h
      cases h with
      | cons h1 h2 => exact ⟨_, h1, _, (ih _).2 h2, rfl⟩

theorem product_sorted (ls : List (List Int)) (h : ∀ l ∈ ls, l.Pairwise (· < ·)) :
    (product ls).Pairwise (fun a b => rowLe a b = true ∧ a ≠ b) := by
  induction ls with
  | nil => simp [product]
  | cons l ls ih =>
    rw [product, List.pairwise_flatMap]
    constructor
    · intro a _
      rw [List.pairwise_map]
      refine (ih (fun l hl => h l (by simp [hl]))).imp ?_
      rintro v w ⟨h1, h2⟩
      refine ⟨by simp [rowLe, h1], ?_⟩
      intro heq; exact h2 (List.cons.inj heq).2
    · refine (h l (by simp)).imp ?_
      intro a b hab v hv w hw
      simp only [List.mem_map] at hv hw
      obtain ⟨v', _, rfl⟩ := hv
      obtain ⟨w', _, rfl⟩ := hw
      refine ⟨by simp [rowLe, hab], ?_⟩
      intro heq; have := (List.cons.inj heq).1; omega

/-! missing -/

theorem pyRemove_eq [DecidableEq α] (l : List α) (a : α) :
    pyRemove l a = if a ∈ l then some (l.erase a) else none := by
  induction l with
  | nil => simp [pyRemove]
  | cons x xs ih =>
    rw [pyRemove]
    by_cases h : x = a
    · subst h; simp
    · rw [if_neg h, ih]
      by_cases h2 : a ∈ xs
      · simp [h2, List.erase_cons_tail, h]
      · simp [h2, Ne.symm h]

theorem missing_some [DecidableEq α] (full part r : List α) (h : missing full part = some r) :
    (r ++ part).Perm full ∧ r.Sublist full := by
  unfold missing at h
  induction part generalizing full with
  | nil => simp at h; subst h; simp
  | cons a part ih =>
    rw [List.foldlM_cons, pyRemove_eq] at h
    by_cases ha : a ∈ full
    · simp only [ha, if_true, Option.bind_eq_bind, Option.bind_some] at h
      obtain ⟨h1, h2⟩ := ih _ h
      refine ⟨?_, h2.trans (List.erase_sublist)⟩
      refine (List.perm_middle).trans ?_
      exact (h1.cons a).trans (List.perm_cons_erase ha).symm
    · simp [ha] at h

theorem missing_none [DecidableEq α] (full part : List α) (h : missing full part = none) :
    ¬ List.Subperm part full := by
  unfold missing at h
  induction part generalizing full with
  | nil => simp at h
  | cons a part ih =>
    rw [List.foldlM_cons, pyRemove_eq] at h
    by_cases ha : a ∈ full
    · simp only [ha, if_true, Option.bind_eq_bind, Option.bind_some] at h
      intro hs
      apply ih _ h
      have := hs.trans (List.perm_cons_erase ha).subperm
      exact (List.subperm_cons a).1 this
    · intro hs
      exact ha (hs.subset (by simp))

/-! chunks -/

theorem chunksLoop_flatten (lst : List α) (n : Nat) (hn : 0 < n) (fuel i : Nat)
    (hf : lst.length - i ≤ fuel) : (chunksLoop lst n i fuel).flatten = lst.drop i := by
  induction fuel generalizing i with
  | zero =>
    rw [chunksLoop, List.drop_eq_nil_of_le (by omega)]; rfl
  | succ fuel ih =>
    rw [chunksLoop]
    split
    · rw [List.flatten_cons, ih (i+n) (by omega), ← List.drop_drop, List.take_append_drop]
    · rw [List.drop_eq_nil_of_le (by omega)]; rfl

theorem chunksLoop_getElem (lst : List α) (n : Nat) (fuel i k : Nat)
    (hk : k < (chunksLoop lst n i fuel).length) :
    (chunksLoop lst n i fuel)[k] = (lst.drop (i + k * n)).take n ∧ i + k * n < lst.length := by
  induction fuel generalizing i k with
  | zero => simp [chunksLoop] at hk
  | succ fuel ih =>
    by_cases h : i < lst.length
    · have e : chunksLoop lst n i (fuel+1) = (lst.drop i).take n :: chunksLoop lst n (i+n) fuel := by
        rw [chunksLoop, if_pos h]
      simp only [e] at hk ⊢
      cases k with
      | zero => simp [h]
      | succ k =>
        obtain ⟨h1, h2⟩ := ih (i+n) k (by simpa using hk)
        rw [List.getElem_cons_succ, h1]
        have : i + n + k * n = i + (k+1) * n := by ring
        rw [this] at h2 ⊢
        exact ⟨rfl, h2⟩
    · have e : chunksLoop lst n i (fuel+1) = [] := by rw [chunksLoop, if_neg h]
      simp [e] at hk

end Misc
end SecDec
