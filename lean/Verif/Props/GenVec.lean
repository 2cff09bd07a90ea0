import Verif.Model.GenVec
import Mathlib.Data.List.Basic
import Mathlib.Data.List.Pairwise
import Mathlib.Data.Nat.GCD.Basic
import Mathlib.Data.List.Zip
import Mathlib.Tactic.Common
import Mathlib.Algebra.Order.Group.Int
import Mathlib.Order.Bounds.Basic
import Mathlib.Algebra.Order.Floor.Ring
import Mathlib.Data.Rat.Floor
import Mathlib.Tactic.NormNum
import Mathlib.Tactic.Linarith
/-
C29: selection of the lattice.
-/
namespace SecDec
namespace GenVec

/-- The lattices (size, generating vector) tabulated for `d` variables. -/
def tabulated (d : ℕ) : List (ℕ × List ℕ) :=
  (if d ≤ 100 then dn1Lattice.zip dn1Gv else []) ++ (if d ≤ 10 then cfftw2Lattice.zip cfftw2Gv else [])

theorem len1 : dn1Lattice.length = 154 ∧ dn1Gv.length = 154 := by decide +kernel
theorem len2 : cfftw2Lattice.length = 11 ∧ cfftw2Gv.length = 11 := by decide +kernel
theorem sorted1 : dn1Lattice.Pairwise (· < ·) := by decide +kernel
theorem sorted2 : cfftw2Lattice.Pairwise (· < ·) := by decide +kernel
theorem rows1 : ∀ r ∈ dn1Gv, r.length = 100 := by decide +kernel
theorem rows2 : ∀ r ∈ cfftw2Gv, r.length = 10 := by decide +kernel
theorem below : ∀ a ∈ dn1Lattice, ∀ b ∈ cfftw2Lattice, a < b := by decide +kernel
theorem coprime1 : ∀ t ∈ dn1Lattice.zip dn1Gv, ∀ x ∈ t.2, 1 ≤ x ∧ x < t.1 ∧ Nat.gcd x t.1 = 1 := by decide +kernel
theorem coprime2 : ∀ t ∈ cfftw2Lattice.zip cfftw2Gv, ∀ x ∈ t.2, 1 ≤ x ∧ x < t.1 ∧ Nat.gcd x t.1 = 1 := by decide +kernel


/-- One table: with `i = searchsorted`, either `i` is the position of the smallest sufficient lattice, or
no lattice is sufficient. -/
theorem search_spec (a : List ℕ) (g : List (List ℕ)) (hl : a.length = g.length) (hs : a.Pairwise (· < ·)) (n : ℤ) :
    (searchsorted a n < g.length →
      (a.getD (searchsorted a n) 0, g.getD (searchsorted a n) []) ∈ a.zip g ∧
      n ≤ a.getD (searchsorted a n) 0 ∧ ∀ m ∈ a, n ≤ (m : ℤ) → a.getD (searchsorted a n) 0 ≤ m) ∧
    (¬ searchsorted a n < g.length → ∀ m ∈ a, (m : ℤ) < n) := by
  constructor
  · intro h
    have h' : searchsorted a n < a.length := hl ▸ h
    have hp := List.findIdx_getElem (p := fun x : ℕ => decide (n ≤ (x : ℤ))) (w := h')
    simp only [decide_eq_true_eq] at hp
    have e1 : a.getD (searchsorted a n) 0 = a[searchsorted a n] := by
      simp [List.getD_eq_getElem?_getD, List.getElem?_eq_getElem h']
    have e2 : g.getD (searchsorted a n) [] = g[searchsorted a n] := by
      simp [List.getD_eq_getElem?_getD, List.getElem?_eq_getElem h]
    refine ⟨?_, by rw [e1]; exact hp, fun m hm hnm => ?_⟩
    · rw [e1, e2, List.mem_iff_getElem]
      exact ⟨searchsorted a n, by rw [List.length_zip]; omega, by simp⟩
    · rw [e1]
      obtain ⟨j, hj, rfl⟩ := List.mem_iff_getElem.1 hm
      by_contra hc
      have hlt : j < searchsorted a n := by
        by_contra hj2
        rcases Nat.lt_or_ge (searchsorted a n) j with h3 | h3
        · exact hc (List.pairwise_iff_getElem.1 hs _ _ h' hj h3).le
        · have : j = searchsorted a n := le_antisymm h3 (not_lt.1 hj2)
          subst this; exact hc le_rfl
      have := List.not_of_lt_findIdx (p := fun x : ℕ => decide (n ≤ (x : ℤ))) hlt
      simp at this
      exact absurd hnm (not_le.2 this)
  · intro h m hm
    have h' : ¬ searchsorted a n < a.length := hl ▸ h
    unfold searchsorted at h'
    rw [List.findIdx_lt_length] at h'
    by_contra hc
    exact h' ⟨m, hm, by simpa using hc⟩

theorem mem_zip_fst {a : List ℕ} {g : List (List ℕ)} (hl : a.length = g.length) (m : ℕ) :
    m ∈ a ↔ ∃ v, (m, v) ∈ a.zip g := by
  constructor
  · intro h
    obtain ⟨j, hj, rfl⟩ := List.mem_iff_getElem.1 h
    refine ⟨g[j], ?_⟩
    rw [List.mem_iff_getElem]
    exact ⟨j, by rw [List.length_zip]; omega, by simp⟩
  · rintro ⟨v, h⟩; exact (List.of_mem_zip h).1

/-- C29: the lattice returned for `d` variables is tabulated for `d` variables, has at least `n` points,
no tabulated lattice with at least `n` points is smaller, and the vector consists of the first `d`
components of the tabulated one; there are exactly `d`, each one between `1` and the size of the lattice
and coprime to it. -/
theorem C29_smallest_lattice (d : ℕ) (n : ℤ) (N : ℕ) (v : List ℕ) (h : generatingVector d n = some (N, v)) :
    (∃ w, (N, w) ∈ tabulated d ∧ v = w.take d) ∧ n ≤ N ∧
    (∀ t ∈ tabulated d, n ≤ (t.1 : ℤ) → N ≤ t.1) ∧
    v.length = d ∧ ∀ x ∈ v, 1 ≤ x ∧ x < N ∧ Nat.Coprime x N := by
  obtain ⟨s1, s1'⟩ := search_spec dn1Lattice dn1Gv (by rw [len1.1, len1.2]) sorted1 n
  obtain ⟨s2, s2'⟩ := search_spec cfftw2Lattice cfftw2Gv (by rw [len2.1, len2.2]) sorted2 n
  unfold generatingVector at h
  split at h
  · rename_i hc
    simp only [Option.some.injEq, Prod.mk.injEq] at h
    obtain ⟨rfl, rfl⟩ := h
    obtain ⟨q1, q2, q3⟩ := s1 hc.2
    have hr := rows1 _ (List.of_mem_zip q1).2
    refine ⟨⟨_, ?_, rfl⟩, q2, ?_, ?_, ?_⟩
    · simp only [tabulated, hc.1, if_true, List.mem_append]; exact Or.inl q1
    · intro t ht hn
      simp only [tabulated, hc.1, if_true, List.mem_append] at ht
      rcases ht with ht | ht
      · exact q3 _ (List.of_mem_zip (a := t.1) (b := t.2) ht).1 hn
      · split at ht
        · exact (below _ (List.of_mem_zip q1).1 _ (List.of_mem_zip (a := t.1) (b := t.2) ht).1).le
        · simp at ht
    · rw [List.length_take, hr]; omega
    · intro x hx
      exact coprime1 _ q1 x (List.mem_of_mem_take hx)
  · rename_i hc
    split at h
    · rename_i hc2
      simp only [Option.some.injEq, Prod.mk.injEq] at h
      obtain ⟨rfl, rfl⟩ := h
      obtain ⟨q1, q2, q3⟩ := s2 hc2.2
      have hr := rows2 _ (List.of_mem_zip q1).2
      have h100 : d ≤ 100 := le_trans hc2.1 (by omega)
      refine ⟨⟨_, ?_, rfl⟩, q2, ?_, ?_, ?_⟩
      · simp only [tabulated, hc2.1, if_true, List.mem_append]; exact Or.inr q1
      · intro t ht hn
        simp only [tabulated, hc2.1, h100, if_true, List.mem_append] at ht
        rcases ht with ht | ht
        · have := s1' (fun h => hc ⟨h100, h⟩) _ (List.of_mem_zip (a := t.1) (b := t.2) ht).1
          omega
        · exact q3 _ (List.of_mem_zip (a := t.1) (b := t.2) ht).1 hn
      · rw [List.length_take, hr]; omega
      · intro x hx
        exact coprime2 _ q1 x (List.mem_of_mem_take hx)
    · simp at h

/-- C29: `ValueError` exactly if no lattice tabulated for `d` variables is large enough. -/
theorem C29_error_iff (d : ℕ) (n : ℤ) :
    generatingVector d n = none ↔ ∀ t ∈ tabulated d, (t.1 : ℤ) < n := by
  obtain ⟨s1, s1'⟩ := search_spec dn1Lattice dn1Gv (by rw [len1.1, len1.2]) sorted1 n
  obtain ⟨s2, s2'⟩ := search_spec cfftw2Lattice cfftw2Gv (by rw [len2.1, len2.2]) sorted2 n
  constructor
  · intro h t ht
    unfold generatingVector at h
    split at h
    · simp at h
    rename_i hc
    split at h
    · simp at h
    rename_i hc2
    simp only [tabulated, List.mem_append] at ht
    rcases ht with ht | ht
    · split at ht
      · rename_i h100
        exact s1' (fun h => hc ⟨h100, h⟩) _ (List.of_mem_zip (a := t.1) (b := t.2) ht).1
      · simp at ht
    · split at ht
      · rename_i h10
        exact s2' (fun h => hc2 ⟨h10, h⟩) _ (List.of_mem_zip (a := t.1) (b := t.2) ht).1
      · simp at ht
  · intro h
    cases hg : generatingVector d n with
    | none => rfl
    | some t =>
      obtain ⟨N, v⟩ := t
      obtain ⟨⟨w, hw, -⟩, h2, -⟩ := C29_smallest_lattice d n N v hg
      exact absurd (h _ hw) (not_lt.2 h2)

theorem getLast1 : dn1Lattice.getLast? = some 2147483647 := by decide +kernel
theorem getLast2 : cfftw2Lattice.getLast? = some 68719476767 := by decide +kernel
theorem max1 : ∀ a ∈ dn1Lattice, a ≤ 2147483647 := by decide +kernel
theorem max2 : ∀ a ∈ cfftw2Lattice, a ≤ 68719476767 := by decide +kernel

/-- C29: `max_lattice_size` is the size of the largest lattice tabulated for `d` variables, and raises
exactly if there is none. -/
theorem C29_max_lattice_size (d M : ℕ) :
    maxLatticeSize d = some M ↔ IsGreatest {N | ∃ w, (N, w) ∈ tabulated d} M := by
  have key : ∀ M, maxLatticeSize d = some M → IsGreatest {N | ∃ w, (N, w) ∈ tabulated d} M := by
    intro M h
    unfold maxLatticeSize at h
    split at h
    · rename_i h10
      have h100 : d ≤ 100 := by omega
      rw [getLast2] at h
      obtain rfl := Option.some.inj h
      constructor
      · obtain ⟨v, hv⟩ := (mem_zip_fst (a := cfftw2Lattice) (g := cfftw2Gv) (by rw [len2.1, len2.2]) 68719476767).1
          (List.mem_of_getLast? getLast2)
        exact ⟨v, by simp only [tabulated, h10, if_true, List.mem_append]; exact Or.inr hv⟩
      · rintro N ⟨w, hw⟩
        simp only [tabulated, h10, h100, if_true, List.mem_append] at hw
        rcases hw with hw | hw
        · exact le_trans (max1 _ (List.of_mem_zip hw).1) (by omega)
        · exact max2 _ (List.of_mem_zip hw).1
    · rename_i h10
      split at h
      · rename_i h100
        rw [getLast1] at h
        obtain rfl := Option.some.inj h
        constructor
        · obtain ⟨v, hv⟩ := (mem_zip_fst (a := dn1Lattice) (g := dn1Gv) (by rw [len1.1, len1.2]) 2147483647).1
            (List.mem_of_getLast? getLast1)
          exact ⟨v, by simp only [tabulated, h100, if_true, List.mem_append]; exact Or.inl hv⟩
        · rintro N ⟨w, hw⟩
          simp only [tabulated, h10, h100, if_true, if_false, List.append_nil] at hw
          exact max1 _ (List.of_mem_zip hw).1
      · simp at h
  refine ⟨key M, fun h => ?_⟩
  cases hm : maxLatticeSize d with
  | some M' => rw [(key M' hm).unique h]
  | none =>
    exfalso
    have hd : ¬ d ≤ 10 ∧ ¬ d ≤ 100 := by
      unfold maxLatticeSize at hm
      split at hm
      · rw [getLast2] at hm; simp at hm
      · split at hm
        · rw [getLast1] at hm; simp at hm
        · rename_i a b; exact ⟨a, b⟩
    obtain ⟨w, hw⟩ := h.1
    simp [tabulated, hd.1, hd.2] at hw

/-- C29: a request of `n` points succeeds exactly up to `max_lattice_size`. -/
theorem C29_succeeds_iff (d : ℕ) (n : ℤ) :
    (generatingVector d n).isSome ↔ ∃ M, maxLatticeSize d = some M ∧ n ≤ M := by
  constructor
  · intro h
    obtain ⟨⟨N, v⟩, hg⟩ := Option.isSome_iff_exists.1 h
    obtain ⟨⟨w, hw, -⟩, h2, -⟩ := C29_smallest_lattice d n N v hg
    cases hm : maxLatticeSize d with
    | some M =>
      refine ⟨M, rfl, ?_⟩
      have := ((C29_max_lattice_size d M).1 hm).2 ⟨w, hw⟩
      omega
    | none =>
      exfalso
      unfold maxLatticeSize at hm
      rw [getLast1, getLast2] at hm
      split at hm
      · simp at hm
      · split at hm
        · simp at hm
        · rename_i a b; simp [tabulated, a, b] at hw
  · rintro ⟨M, hM, hn⟩
    by_contra hc
    have hnone : generatingVector d n = none := by simpa using hc
    obtain ⟨w, hw⟩ := ((C29_max_lattice_size d M).1 hM).1
    have := (C29_error_iff d n).1 hnone _ hw
    simp only at this
    omega

example : generatingVector 3 5000 = some (5167, [1, 1428, 2393]) := by decide +kernel
example : maxLatticeSize 3 = some 68719476767 ∧ maxLatticeSize 11 = some 2147483647 ∧ maxLatticeSize 101 = none := by
  decide +kernel
/-- the transition between the tables -/
example : (generatingVector 2 2147483648).map (·.1) = some 2147483659 := by decide +kernel

/-- C29, deviation: a request that is not an integer is truncated by the conversion to `np.int64`, so
the lattice may be smaller than the request by less than one point: `1021.9` points give the lattice
with `1021` points. (The proposed numbers of points in `do_eval` are not rounded.) -/
theorem C29_fraction_truncated : ∃ (q : ℚ) (N : ℕ) (v : List ℕ),
    generatingVector 2 (Int.floor q) = some (N, v) ∧ (N : ℚ) < q :=
  ⟨1021 + 9 / 10, 1021, [1, 374], by
    have : Int.floor (1021 + 9 / 10 : ℚ) = 1021 := by rw [Int.floor_eq_iff]; norm_num
    rw [this]; decide +kernel, by norm_num⟩

end GenVec
end SecDec
