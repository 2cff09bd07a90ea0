import Verif.Proof.SamplerThreads
import Mathlib.Data.List.Sort
import Mathlib.Data.List.Count
/-
Proofs for C68: the size of the packages, the median.
-/
namespace SecDec
namespace Sampler

theorem package_length (maxn n i : ℕ) (hn : 0 < n) (hmax : 0 < maxn) (hi : i < totalPackages maxn n) :
    (offsets (totalPackages maxn n) n i).length ≤ maxn := by
  have hP := totalPackages_pos maxn n hn hmax
  rw [offsets_eq _ _ hP, List.length_map, List.length_range, batchSize_eq _ _ hP _ hi]
  have hq : n ≤ totalPackages maxn n * min maxn n := by
    unfold totalPackages
    dsimp only
    have h0 : 0 < min maxn n := by omega
    have h1 := Nat.div_add_mod n (min maxn n)
    have h2 := Nat.mod_lt n h0
    rw [Nat.add_mul]
    split
    · rw [mul_comm (n / _)]; omega
    · rename_i h; push Not at h; rw [mul_comm (n / _)]; omega
  refine le_trans ?_ (min_le_left maxn n)
  generalize min maxn n = q at *
  generalize totalPackages maxn n = P at *
  unfold batchSize
  split
  · rename_i h
    have h1 := Nat.div_add_mod n P
    by_contra hh
    have h2 : P * q ≤ P * (n / P) := Nat.mul_le_mul_left _ (by omega)
    rw [Nat.mul_comm P q, Nat.mul_comm q P] at h2
    omega
  · exact Nat.div_le_of_le_mul hq

theorem median_spec (results : List ℝ) (hodd : results.length % 2 = 1) :
    ∃ i, ∃ h : i < results.length, medianIndex results = some i ∧
      results.length < 2 * results.countP (fun v => decide (v ≤ results[i])) ∧
      results.length < 2 * results.countP (fun v => decide (results[i] ≤ v)) := by
  have hperm : (results.mergeSort (fun a b => decide (a ≤ b))).Perm results := List.mergeSort_perm _ _
  have hsort : (results.mergeSort (fun a b => decide (a ≤ b))).Pairwise fun a b => decide (a ≤ b) = true :=
    List.pairwise_mergeSort (fun a b c h1 h2 => by simp only [decide_eq_true_eq] at *; exact le_trans h1 h2)
      (fun a b => by simp only [Bool.or_eq_true, decide_eq_true_eq]; exact le_total a b) _
  unfold medianIndex
  dsimp only
  generalize results.mergeSort (fun a b => decide (a ≤ b)) = sorted at *
  have hlen := hperm.length_eq
  have hh : results.length / 2 < sorted.length := by omega
  set h := results.length / 2 with hdef
  rw [List.getElem?_eq_getElem hh, Option.bind_some]
  have hmem : sorted[h] ∈ results := hperm.mem_iff.1 (List.getElem_mem hh)
  have hsome : (results.findIdx? fun v => decide (v = sorted[h])).isSome := by
    rw [List.findIdx?_isSome, List.any_eq_true]
    exact ⟨_, hmem, by simp⟩
  obtain ⟨i, hi⟩ := Option.isSome_iff_exists.1 hsome
  obtain ⟨hil, hiv, -⟩ := List.findIdx?_eq_some_iff_getElem.1 hi
  rw [decide_eq_true_eq] at hiv
  refine ⟨i, hil, hi, ?_, ?_⟩
  · rw [hiv, ← hperm.countP_eq]
    have h1 : h + 1 ≤ sorted.countP fun v => decide (v ≤ sorted[h]) := by
      have e : (sorted.take (h + 1)).countP (fun v => decide (v ≤ sorted[h])) = h + 1 := by
        rw [List.countP_eq_length.2, List.length_take]
        · omega
        · intro a ha
          rw [List.mem_take_iff_getElem] at ha
          obtain ⟨j, hj, rfl⟩ := ha
          rw [decide_eq_true_eq]
          rcases Nat.lt_or_ge j h with hjh | hjh
          · have := List.pairwise_iff_getElem.1 hsort j h (by omega) hh hjh
            exact of_decide_eq_true this
          · have : j = h := by omega
            subst this; exact le_refl _
      calc h + 1 = _ := e.symm
        _ ≤ _ := (List.take_sublist _ _).countP_le
    omega
  · rw [hiv, ← hperm.countP_eq]
    have h1 : h + 1 ≤ sorted.countP fun v => decide (sorted[h] ≤ v) := by
      have e : (sorted.drop h).countP (fun v => decide (sorted[h] ≤ v)) = sorted.length - h := by
        rw [List.countP_eq_length.2, List.length_drop]
        intro a ha
        rw [List.mem_drop_iff_getElem] at ha
        obtain ⟨j, hj, rfl⟩ := ha
        rw [decide_eq_true_eq]
        rcases Nat.eq_zero_or_pos j with rfl | hjh
        · exact le_refl _
        · have := List.pairwise_iff_getElem.1 hsort h (h + j) hh (by omega) (by omega)
          exact of_decide_eq_true this
      have := (List.drop_sublist h sorted).countP_le (p := fun v => decide (sorted[h] ≤ v))
      omega
    omega

end Sampler
end SecDec
