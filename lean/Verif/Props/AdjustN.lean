import Verif.Model.AdjustN
import Mathlib.Tactic.Positivity
import Mathlib.Tactic.Linarith
import Mathlib.Tactic.Ring
import Mathlib.Tactic.FieldSimp
import Mathlib.Analysis.SpecialFunctions.Log.Basic
import Mathlib.Algebra.Order.BigOperators.Group.Finset
set_option linter.unusedSectionVars false
/-
C28: the sampling plan.
-/
namespace SecDec
namespace AdjustN
open Finset
noncomputable section
variable {ι : Type*} [Fintype ι] [DecidableEq ι]
variable {W2 w : ι → ℝ} {V a : ℝ} {tau nmin nmax : ι → ℝ}

/-! ### variance -/

theorem variance_pos (hW : ∀ i, 0 < W2 i) (hw : ∀ i, 0 < w i) {S : Finset ι} {n : ι → ℝ}
    (hn : ∀ i, 0 < n i) (hS : S.Nonempty) : 0 < variance W2 w a S n :=
  Finset.sum_pos (fun i _ => mul_pos (hW i) (div_pos (hw i) (Real.rpow_pos_of_pos (hn i) _))) hS

theorem term_anti (hW : ∀ i, 0 < W2 i) (hw : ∀ i, 0 < w i) (ha : 0 < a) {n m : ℝ} (hn : 0 < n)
    (h : n ≤ m) (i : ι) : W2 i * (w i / m ^ a) ≤ W2 i * (w i / n ^ a) := by
  have := Real.rpow_le_rpow hn.le h ha.le
  have h1 := Real.rpow_pos_of_pos hn a
  exact mul_le_mul_of_nonneg_left (div_le_div_of_nonneg_left (hw i).le h1 this) (hW i).le

theorem variance_anti (hW : ∀ i, 0 < W2 i) (hw : ∀ i, 0 < w i) (ha : 0 < a) {S : Finset ι} {n m : ι → ℝ}
    (hn : ∀ i ∈ S, 0 < n i) (h : ∀ i ∈ S, n i ≤ m i) : variance W2 w a S m ≤ variance W2 w a S n :=
  Finset.sum_le_sum fun i hi => term_anti hW hw ha (hn i hi) (h i hi) i

theorem variance_congr {S : Finset ι} {n m : ι → ℝ} (h : ∀ i ∈ S, n i = m i) :
    variance W2 w a S n = variance W2 w a S m :=
  Finset.sum_congr rfl fun i hi => by rw [h i hi]

theorem variance_split (S : Finset ι) (n : ι → ℝ) :
    variance W2 w a univ n = variance W2 w a S n + variance W2 w a Sᶜ n :=
  (Finset.sum_add_sum_compl S _).symm

theorem variance_rescale (hW : ∀ i, 0 < W2 i) (hw : ∀ i, 0 < w i) (ha : 0 < a) {S : Finset ι} {n : ι → ℝ}
    (hn : ∀ i, 0 < n i) (hS : S.Nonempty) {VV : ℝ} (hV : 0 < VV) :
    variance W2 w a S (rescale W2 w a VV S n) = VV := by
  have hp := variance_pos (a := a) hW hw hn hS
  have hf : 0 < 1 / VV * variance W2 w a S n := by positivity
  have : ∀ i ∈ S, W2 i * (w i / (rescale W2 w a VV S n i) ^ a) =
      (W2 i * (w i / n i ^ a)) * (VV / variance W2 w a S n) := by
    intro i hi
    have h1 := Real.rpow_pos_of_pos (hn i) a
    rw [rescale, if_pos hi, Real.mul_rpow (hn i).le (Real.rpow_nonneg hf.le _), ← Real.rpow_mul hf.le,
      one_div_mul_cancel ha.ne', Real.rpow_one]
    field_simp
  rw [variance, Finset.sum_congr rfl this, ← Finset.sum_mul]
  change variance W2 w a S n * _ = VV
  field_simp

theorem rescale_pos (hW : ∀ i, 0 < W2 i) (hw : ∀ i, 0 < w i) {S : Finset ι} {n : ι → ℝ}
    (hn : ∀ i, 0 < n i) {VV : ℝ} (hV : 0 < VV) (i : ι) : 0 < rescale W2 w a VV S n i := by
  unfold rescale
  split
  · rename_i hi
    have := variance_pos (a := a) hW hw hn ⟨i, hi⟩
    have := hn i
    positivity
  · exact hn i

theorem setMask_pos {mask : Finset ι} {b n : ι → ℝ} (hb : ∀ i, 0 < b i) (hn : ∀ i, 0 < n i) (i : ι) :
    0 < setMask mask b n i := by
  unfold setMask; split
  · exact hb i
  · exact hn i

/-! ### The loop enforcing the maxima -/

/-- On leaving the loop with `break` the plan respects the maxima and meets the target exactly; a
`return` happens only if the target is out of reach. -/
theorem nmaxLoop_spec (hW : ∀ i, 0 < W2 i) (hw : ∀ i, 0 < w i) (ha : 0 < a) (hmax : ∀ i, 0 < nmax i)
    (mask : Finset ι) (n : ι → ℝ) (hn : ∀ i, 0 < n i) (hv : variance W2 w a univ n = V)
    (hm1 : ∀ i ∈ mask, nmax i ≤ n i) (hm2 : ∀ i, nmax i < n i → i ∈ mask) :
    (∀ m, nmaxLoop W2 w V a nmax mask n = .next m →
      (∀ i, 0 < m i ∧ m i ≤ nmax i) ∧ variance W2 w a univ m = V) ∧
    (∀ m, nmaxLoop W2 w V a nmax mask n = .ret m →
      (∀ i, 0 < m i ∧ m i ≤ nmax i) ∧ V ≤ variance W2 w a univ nmax ∧ ∃ i, m i = nmax i) ∧
    (nmaxLoop W2 w V a nmax mask n = .fail → V < variance W2 w a univ nmax) := by
  induction hc : #maskᶜ using Nat.strong_induction_on generalizing mask n with
  | _ c ih =>
  have hset : ∀ i, 0 < setMask mask nmax n i ∧ setMask mask nmax n i ≤ nmax i := by
    intro i
    refine ⟨setMask_pos hmax hn i, ?_⟩
    unfold setMask; split
    · exact le_rfl
    · rename_i hi; by_contra hc; exact hi (hm2 i (not_le.1 hc))
  have hsum : variance W2 w a mask (setMask mask nmax n) = variance W2 w a mask nmax :=
    variance_congr fun i hi => by simp [setMask, hi]
  have hsumc : variance W2 w a maskᶜ (setMask mask nmax n) = variance W2 w a maskᶜ n :=
    variance_congr fun i hi => by simp [setMask, Finset.mem_compl.1 hi]
  have hge : variance W2 w a mask n ≤ variance W2 w a mask nmax :=
    variance_anti hW hw ha (fun i _ => hmax i) hm1
  rw [nmaxLoop]
  split
  · rename_i he
    refine ⟨?_, by simp, by simp⟩
    rintro m hm
    simp only [Res.next.injEq] at hm
    subst hm
    refine ⟨hset, ?_⟩
    rw [← hv]; exact variance_congr fun i _ => by simp [setMask, he]
  rename_i hne
  have hne' : mask.Nonempty := Finset.nonempty_iff_ne_empty.2 hne
  have hex : ∃ i, setMask mask nmax n i = nmax i := by
    obtain ⟨i, hi⟩ := hne'; exact ⟨i, by simp [setMask, hi]⟩
  split
  · rename_i he
    refine ⟨by simp, ?_, by simp⟩
    rintro m hm
    simp only [Res.ret.injEq] at hm
    subst hm
    refine ⟨hset, ?_, hex⟩
    rw [← hv, ← he]; exact hge
  rename_i hnu
  have hcne : (maskᶜ).Nonempty := by
    rw [Finset.nonempty_iff_ne_empty]; intro h; exact hnu (by simpa using h)
  have hcpos : 0 < variance W2 w a maskᶜ nmax := variance_pos hW hw hmax hcne
  split
  · rename_i hlt
    refine ⟨by simp, ?_, by simp⟩
    rintro m hm
    simp only [Res.ret.injEq] at hm
    subst hm
    refine ⟨hset, ?_, hex⟩
    rw [variance_split mask, ← hsum]; linarith
  rename_i hnlt
  split
  · rename_i h0
    refine ⟨by simp, by simp, fun _ => ?_⟩
    rw [variance_split mask, ← hsum]; linarith
  rename_i hn0
  have hVV : 0 < V - variance W2 w a mask (setMask mask nmax n) :=
    lt_of_le_of_ne (not_lt.1 hnlt) (Ne.symm hn0)
  set VV := V - variance W2 w a mask (setMask mask nmax n) with hVVd
  set n2 := rescale W2 w a VV maskᶜ (setMask mask nmax n) with hn2
  have hpos2 : ∀ i, 0 < n2 i := rescale_pos hW hw (fun i => (hset i).1) hVV
  have hmask2 : ∀ i ∈ mask, n2 i = nmax i := by
    intro i hi; simp [hn2, rescale, setMask, hi]
  have hv2 : variance W2 w a univ n2 = V := by
    rw [variance_split mask, variance_rescale hW hw ha (fun i => (hset i).1) hcne hVV]
    have : variance W2 w a mask n2 = variance W2 w a mask (setMask mask nmax n) :=
      variance_congr fun i hi => by rw [hmask2 i hi]; simp [setMask, hi]
    rw [this]; linarith
  split
  · rename_i hadd
    refine ⟨?_, by simp, by simp⟩
    rintro m hm
    simp only [Res.next.injEq] at hm
    subst hm
    refine ⟨fun i => ⟨hpos2 i, ?_⟩, hv2⟩
    by_contra hc
    have := Finset.eq_empty_iff_forall_notMem.1 hadd i
    simp only [Finset.mem_filter, Finset.mem_univ, true_and] at this
    exact this (not_le.1 hc)
  · rename_i hadd
    have hlt : #((mask ∪ univ.filter fun i => nmax i < n2 i)ᶜ) < #maskᶜ :=
      card_compl_lt hadd fun i hi hi2 => by
        have h1 := (Finset.mem_filter.1 hi).2
        rw [hmask2 i hi2] at h1; exact lt_irrefl _ h1
    refine ih _ (hc ▸ hlt) _ n2 hpos2 hv2 ?_ ?_ rfl
    · intro i hi
      rcases Finset.mem_union.1 hi with h | h
      · exact (hmask2 i h).ge
      · exact (Finset.mem_filter.1 h).2.le
    · intro i hi
      exact Finset.mem_union_right _ (by simp [hi])

/-! ### The loop enforcing the minima -/

/-- Unless all the minima suffice, the loop is left with `break`, with a plan that respects the minima,
does not exceed upper bounds respected before, meets the target exactly, and is of the form
`k * b` for those kernels that are not at their minima, `k * b` being below the minima of the others. -/
theorem nminLoop_spec (hW : ∀ i, 0 < W2 i) (hw : ∀ i, 0 < w i) (ha : 0 < a)
    (hmin : ∀ i, 0 < nmin i) (hbig : V < variance W2 w a univ nmin) (u : ι → ℝ) (hu : ∀ i, nmin i ≤ u i)
    (mask : Finset ι) (n : ι → ℝ) (hn : ∀ i, 0 < n i) (hv : variance W2 w a univ n = V)
    (hnu : ∀ i, n i ≤ u i)
    (hm1 : ∀ i ∈ mask, n i ≤ nmin i) (hm2 : ∀ i, n i < nmin i → i ∈ mask) :
    ∃ m, nminLoop W2 w V a nmin mask n = .next m ∧ (∀ i, nmin i ≤ m i ∧ m i ≤ u i) ∧
      variance W2 w a univ m = V ∧
      ∃ k, 0 < k ∧ k ≤ 1 ∧ ∀ i, m i = k * n i ∨ (m i = nmin i ∧ k * n i ≤ nmin i) := by
  induction hc : #maskᶜ using Nat.strong_induction_on generalizing mask n with
  | _ c ih =>
  have hset : ∀ i, 0 < setMask mask nmin n i := setMask_pos hmin hn
  have hsum : variance W2 w a mask (setMask mask nmin n) = variance W2 w a mask nmin :=
    variance_congr fun i hi => by simp [setMask, hi]
  have hsumc : variance W2 w a maskᶜ (setMask mask nmin n) = variance W2 w a maskᶜ n :=
    variance_congr fun i hi => by simp [setMask, Finset.mem_compl.1 hi]
  have hle : variance W2 w a mask nmin ≤ variance W2 w a mask n :=
    variance_anti hW hw ha (fun i _ => hn i) hm1
  rw [nminLoop]
  split
  · rename_i he
    refine ⟨_, rfl, fun i => ?_, ?_, 1, one_pos, le_rfl, fun i => ?_⟩
    · simp only [setMask, he, Finset.notMem_empty, if_false]
      refine ⟨?_, hnu i⟩
      by_contra hc
      have := hm2 i (not_le.1 hc)
      simp [he] at this
    · rw [← hv]; exact variance_congr fun i _ => by simp [setMask, he]
    · left; simp [setMask, he]
  split
  · rename_i he
    exfalso
    rw [he, hv] at hle
    exact absurd hle (not_le.2 hbig)
  rename_i hne hnuniv
  have hcne : (maskᶜ).Nonempty := by
    rw [Finset.nonempty_iff_ne_empty]; intro h; exact hnuniv (by simpa using h)
  have hcpos : 0 < variance W2 w a maskᶜ n := variance_pos hW hw hn hcne
  have hVge : variance W2 w a maskᶜ n ≤ V - variance W2 w a mask (setMask mask nmin n) := by
    rw [variance_split mask] at hv
    rw [hsum]; linarith
  have hmaxeq : max (V - variance W2 w a mask (setMask mask nmin n)) 0 =
      V - variance W2 w a mask (setMask mask nmin n) := max_eq_left (le_trans hcpos.le hVge)
  rw [hmaxeq]
  have hVV : 0 < V - variance W2 w a mask (setMask mask nmin n) := lt_of_lt_of_le hcpos hVge
  set VV := V - variance W2 w a mask (setMask mask nmin n) with hVVd
  set n2 := rescale W2 w a VV maskᶜ (setMask mask nmin n) with hn2
  have hpos2 : ∀ i, 0 < n2 i := rescale_pos hW hw hset hVV
  have hmask2 : ∀ i ∈ mask, n2 i = nmin i := by
    intro i hi; simp [hn2, rescale, setMask, hi]
  set f := (1 / VV * variance W2 w a maskᶜ n) ^ (1 / a) with hf
  have hbase : 0 < 1 / VV * variance W2 w a maskᶜ n := by positivity
  have hf0 : 0 < f := Real.rpow_pos_of_pos hbase _
  have hf1 : f ≤ 1 := by
    apply Real.rpow_le_one hbase.le _ (by positivity)
    rw [one_div_mul_eq_div, div_le_one hVV]; exact hVge
  have hcompl2 : ∀ i, i ∉ mask → n2 i = f * n i := by
    intro i hi
    simp only [hn2, rescale, Finset.mem_compl, hi, not_false_eq_true, if_true, hsumc, setMask, if_false]
    rw [hf, mul_comm]
  have hv2 : variance W2 w a univ n2 = V := by
    rw [variance_split mask, variance_rescale hW hw ha hset hcne hVV]
    have : variance W2 w a mask n2 = variance W2 w a mask (setMask mask nmin n) :=
      variance_congr fun i hi => by rw [hmask2 i hi]; simp [setMask, hi]
    rw [this]; linarith
  have hu2 : ∀ i, n2 i ≤ u i := by
    intro i
    by_cases hi : i ∈ mask
    · rw [hmask2 i hi]; exact hu i
    · rw [hcompl2 i hi]
      exact le_trans (by nlinarith [hn i]) (hnu i)
  split
  · rename_i hadd
    have hge : ∀ i, nmin i ≤ n2 i := by
      intro i
      by_contra hc
      have := Finset.eq_empty_iff_forall_notMem.1 hadd i
      simp only [Finset.mem_filter, Finset.mem_univ, true_and] at this
      exact this (not_le.1 hc)
    refine ⟨n2, rfl, fun i => ⟨hge i, hu2 i⟩, hv2, f, hf0, hf1, fun i => ?_⟩
    by_cases hi : i ∈ mask
    · right
      refine ⟨hmask2 i hi, le_trans ?_ (hm1 i hi)⟩
      nlinarith [hn i]
    · left; exact hcompl2 i hi
  · rename_i hadd
    have hlt : #((mask ∪ univ.filter fun i => n2 i < nmin i)ᶜ) < #maskᶜ :=
      card_compl_lt hadd fun i hi hi2 => by
        have h1 := (Finset.mem_filter.1 hi).2
        rw [hmask2 i hi2] at h1; exact lt_irrefl _ h1
    obtain ⟨m, h1, h2, h3, k, hk0, hk1, hk⟩ := ih _ (hc ▸ hlt)
      (mask ∪ univ.filter fun i => n2 i < nmin i) n2 hpos2 hv2 hu2
      (by
        intro i hi
        rcases Finset.mem_union.1 hi with h | h
        · exact (hmask2 i h).le
        · exact (Finset.mem_filter.1 h).2.le)
      (by intro i hi; exact Finset.mem_union_right _ (by simp [hi])) rfl
    refine ⟨m, h1, h2, h3, k * f, by positivity, by nlinarith, fun i => ?_⟩
    by_cases hi : i ∈ mask
    · right
      have hkf : k * f * n i ≤ nmin i := by
        have h5 := hm1 i hi
        have h6 : k * f ≤ 1 := by nlinarith
        nlinarith [hn i]
      refine ⟨?_, hkf⟩
      rcases hk i with h | h
      · rw [hmask2 i hi] at h
        have h7 := (h2 i).1
        have := hmin i
        nlinarith
      · exact h.1
    · rcases hk i with h | h
      · left; rw [h, hcompl2 i hi]; ring
      · right; refine ⟨h.1, ?_⟩
        have := h.2
        rw [hcompl2 i hi] at this
        linarith

/-! ### The start value -/

theorem base_pos (hW : ∀ i, 0 < W2 i) (hw : ∀ i, 0 < w i) (ht : ∀ i, 0 < tau i) (i : ι) :
    0 < (w i / tau i * W2 i) ^ (1 / (a + 1)) := by
  have := hW i; have := hw i; have := ht i
  positivity

theorem start_spec [Nonempty ι] (hW : ∀ i, 0 < W2 i) (hw : ∀ i, 0 < w i) (ht : ∀ i, 0 < tau i) (ha : 0 < a)
    (hV : 0 < V) :
    (∀ i, 0 < start W2 w V a tau i) ∧ variance W2 w a univ (start W2 w V a tau) = V ∧
    ∃ k, 0 < k ∧ ∀ i, start W2 w V a tau i = k * (w i / tau i * W2 i) ^ (1 / (a + 1)) := by
  have hb := base_pos (a := a) hW hw ht
  refine ⟨rescale_pos hW hw hb hV, variance_rescale hW hw ha hb Finset.univ_nonempty hV, ?_⟩
  refine ⟨(1 / V * variance W2 w a univ fun i => (w i / tau i * W2 i) ^ (1 / (a + 1))) ^ (1 / a), ?_, ?_⟩
  · have := variance_pos (a := a) hW hw hb Finset.univ_nonempty
    positivity
  · intro i; simp [start, rescale, mul_comm]

/-! ### C28 -/

/-- Admissible arguments: positive weights, variances, costs, target and scaling power, and
positive minima. -/
structure Args (W2 : ι → ℝ) (V : ℝ) (w : ι → ℝ) (a : ℝ) (tau nmin : ι → ℝ) : Prop where
  pW2 : ∀ i, 0 < W2 i
  pV : 0 < V
  pw : ∀ i, 0 < w i
  pa : 0 < a
  ptau : ∀ i, 0 < tau i
  pnmin : ∀ i, 0 < nmin i

theorem nonempty_of_big (h : Args W2 V w a tau nmin) (hb : ¬ variance W2 w a univ nmin ≤ V) :
    Nonempty ι := by
  by_contra hc
  rw [not_nonempty_iff] at hc
  apply hb
  simp [variance, h.pV.le]

theorem stageMin_eq (h : Args W2 V w a tau nmin) (hb : ¬ variance W2 w a univ nmin ≤ V) (u : ι → ℝ)
    (hu : ∀ i, nmin i ≤ u i) (n : ι → ℝ)
    (hn : ∀ i, 0 < n i) (hv : variance W2 w a univ n = V) (hnu : ∀ i, n i ≤ u i) :
    ∃ m, stageMin W2 w V a nmin n = .next m ∧ (∀ i, nmin i ≤ m i ∧ m i ≤ u i) ∧
      variance W2 w a univ m = V ∧
      ∃ k, 0 < k ∧ k ≤ 1 ∧ ∀ i, m i = k * n i ∨ (m i = nmin i ∧ k * n i ≤ nmin i) := by
  obtain ⟨m, h1, h2, h3⟩ := nminLoop_spec h.pW2 h.pw h.pa h.pnmin (not_le.1 hb) u hu
    (univ.filter fun i => n i < nmin i) n hn hv hnu
    (fun i hi => (Finset.mem_filter.1 hi).2.le) (fun i hi => by simp [hi])
  refine ⟨m, ?_, h2, h3⟩
  unfold stageMin
  have : (univ.filter fun i => n i < nmin i) = @Finset.filter ι (fun i => n i < nmin i)
      (fun a => Classical.propDecidable _) univ := by congr
  rw [← this, h1]
  simp only
  rw [if_pos fun i => (h2 i).1]

/-- C28 (without the cap on the lattice sizes, i.e. with median lattices): the call succeeds. Before the
final truncation to integers the numbers of samples are at least the minima, and the predicted variance
is at most the target. -/
theorem C28_target_met_uncapped (h : Args W2 V w a tau nmin) :
    ∃ m, (adjust1dReal W2 V w a tau nmin nmax true = .ret m ∨
        adjust1dReal W2 V w a tau nmin nmax true = .next m) ∧
      (∀ i, nmin i ≤ m i) ∧ ∑ i, W2 i * (w i / m i ^ a) ≤ V := by
  by_cases hb : variance W2 w a univ nmin ≤ V
  · refine ⟨nmin, Or.inl ?_, fun i => le_rfl, hb⟩
    simp [adjust1dReal, h.pW2, h.pw, h.ptau, h.pnmin, hb]
  · have := nonempty_of_big h hb
    obtain ⟨s1, s2, -⟩ := start_spec h.pW2 h.pw h.ptau h.pa h.pV
    obtain ⟨m, h1, h2, h3, -⟩ := stageMin_eq h hb (fun i => max (nmin i) (start W2 w V a tau i))
      (fun i => le_max_left _ _) _ s1 s2 (fun i => le_max_right _ _)
    refine ⟨m, Or.inr ?_, fun i => (h2 i).1, h3.le⟩
    simp [adjust1dReal, h.pW2, h.pw, h.ptau, h.pnmin, hb, stageMax, h1]

theorem inv_rpow_ge (ha : 0 < a) {n m : ℝ} (hn : 0 < n) (hm : 0 < m) :
    1 / n ^ a - a / n ^ (a + 1) * (m - n) ≤ 1 / m ^ a := by
  have ht : 0 < m / n := by positivity
  have h1 : 1 - a * (m / n - 1) ≤ (m / n) ^ (-a) := by
    rw [Real.rpow_def_of_pos ht]
    have h2 := Real.add_one_le_exp (Real.log (m / n) * -a)
    have h3 := Real.log_le_sub_one_of_pos ht
    nlinarith
  have hna : 0 < n ^ a := Real.rpow_pos_of_pos hn a
  have hma : 0 < m ^ a := Real.rpow_pos_of_pos hm a
  have e1 : (m / n) ^ (-a) = n ^ a / m ^ a := by
    rw [Real.rpow_neg ht.le, Real.div_rpow hm.le hn.le, inv_div]
  have e2 : n ^ (a + 1) = n ^ a * n := by rw [Real.rpow_add hn, Real.rpow_one]
  rw [e1] at h1
  rw [e2]
  have h4 : (1 / n ^ a - a / (n ^ a * n) * (m - n)) = (1 - a * (m / n - 1)) / n ^ a := by
    field_simp
  rw [h4, div_le_iff₀ hna]
  calc 1 - a * (m / n - 1) ≤ n ^ a / m ^ a := h1
    _ = 1 / m ^ a * n ^ a := by ring

/-- C28: the plan is the cheapest one. Among all numbers of samples `x` that respect the minima and
for which the predicted variance does not exceed the target, the computed numbers (before truncation)
have the lowest cost `∑ tau * n`. -/
theorem C28_cheapest_uncapped (h : Args W2 V w a tau nmin) (m : ι → ℝ)
    (hm : adjust1dReal W2 V w a tau nmin nmax true = .ret m ∨
        adjust1dReal W2 V w a tau nmin nmax true = .next m)
    (x : ι → ℝ) (hx : ∀ i, nmin i ≤ x i) (hxV : ∑ i, W2 i * (w i / x i ^ a) ≤ V) :
    ∑ i, tau i * m i ≤ ∑ i, tau i * x i := by
  by_cases hb : variance W2 w a univ nmin ≤ V
  · have : adjust1dReal W2 V w a tau nmin nmax true = .ret nmin := by
      simp [adjust1dReal, h.pW2, h.pw, h.ptau, h.pnmin, hb]
    rw [this] at hm
    simp only [Res.ret.injEq, reduceCtorEq, or_false] at hm
    subst hm
    exact Finset.sum_le_sum fun i _ => mul_le_mul_of_nonneg_left (hx i) (h.ptau i).le
  · have := nonempty_of_big h hb
    obtain ⟨s1, s2, k0, hk0, s3⟩ := start_spec h.pW2 h.pw h.ptau h.pa h.pV
    obtain ⟨m', h1, h2, h3, k, hk, hk1, hkm⟩ := stageMin_eq h hb (fun i => max (nmin i) (start W2 w V a tau i))
      (fun i => le_max_left _ _) _ s1 s2 (fun i => le_max_right _ _)
    have : adjust1dReal W2 V w a tau nmin nmax true = .next m' := by
      simp [adjust1dReal, h.pW2, h.pw, h.ptau, h.pnmin, hb, stageMax, h1]
    rw [this] at hm
    simp only [reduceCtorEq, Res.next.injEq, false_or] at hm
    subst hm
    set K := k * k0 with hK
    have hKpos : 0 < K := by positivity
    have hKa : 0 < K ^ (a + 1) := Real.rpow_pos_of_pos hKpos _
    have ha1 : a + 1 ≠ 0 := by have := h.pa; linarith
    have hbase : ∀ i, 0 < w i / tau i * W2 i := fun i => by
      have := h.pW2 i; have := h.pw i; have := h.ptau i; positivity
    have hpow : ∀ i, (K * (w i / tau i * W2 i) ^ (1 / (a + 1))) ^ (a + 1) = K ^ (a + 1) * (w i / tau i * W2 i) := by
      intro i
      rw [Real.mul_rpow hKpos.le (Real.rpow_nonneg (hbase i).le _), ← Real.rpow_mul (hbase i).le,
        one_div_mul_cancel ha1, Real.rpow_one]
    -- slope of the variance compared with the cost, kernel by kernel
    have slope : ∀ i, W2 i * w i * (a / m' i ^ (a + 1)) * (x i - m' i) ≤ a / K ^ (a + 1) * tau i * (x i - m' i) := by
      intro i
      have hW := h.pW2 i; have hw := h.pw i; have ht := h.ptau i
      have hmp : 0 < m' i := lt_of_lt_of_le (h.pnmin i) (h2 i).1
      have hma := Real.rpow_pos_of_pos hmp (a + 1)
      have hks : k * start W2 w V a tau i = K * (w i / tau i * W2 i) ^ (1 / (a + 1)) := by
        rw [s3 i, hK]; ring
      rcases hkm i with he | ⟨he, hle⟩
      · have e : m' i ^ (a + 1) = K ^ (a + 1) * (w i / tau i * W2 i) := by
          rw [he, hks, hpow]
        rw [e]
        apply le_of_eq
        field_simp
      · have hle' : K ^ (a + 1) * (w i / tau i * W2 i) ≤ m' i ^ (a + 1) := by
          rw [← hpow, he, ← hks]
          exact Real.rpow_le_rpow (by rw [hks]; have := hbase i; positivity) hle (by have := h.pa; linarith)
        have hxm : 0 ≤ x i - m' i := by rw [he]; linarith [hx i]
        apply mul_le_mul_of_nonneg_right _ hxm
        have e1 : W2 i * w i * (a / m' i ^ (a + 1)) = a * (W2 i * w i) / m' i ^ (a + 1) := by ring
        have e2 : a / K ^ (a + 1) * tau i = a * tau i / K ^ (a + 1) := by ring
        rw [e1, e2, div_le_div_iff₀ hma hKa]
        have e3 : a * (W2 i * w i) * K ^ (a + 1) = a * tau i * (K ^ (a + 1) * (w i / tau i * W2 i)) := by
          field_simp
        rw [e3]
        exact mul_le_mul_of_nonneg_left hle' (by have := h.pa; positivity)
    have tangent : ∀ i, W2 i * (w i / m' i ^ a) - W2 i * (w i / x i ^ a) ≤
        W2 i * w i * (a / m' i ^ (a + 1)) * (x i - m' i) := by
      intro i
      have hmp : 0 < m' i := lt_of_lt_of_le (h.pnmin i) (h2 i).1
      have hxp : 0 < x i := lt_of_lt_of_le (h.pnmin i) (hx i)
      have h5 := inv_rpow_ge h.pa hmp hxp
      have hc : 0 ≤ W2 i * w i := by have := h.pW2 i; have := h.pw i; positivity
      have h6 := mul_le_mul_of_nonneg_left h5 hc
      have e1 : W2 i * (w i / m' i ^ a) = W2 i * w i * (1 / m' i ^ a) := by ring
      have e2 : W2 i * (w i / x i ^ a) = W2 i * w i * (1 / x i ^ a) := by ring
      rw [e1, e2]
      linarith
    have hsum : variance W2 w a univ m' - ∑ i, W2 i * (w i / x i ^ a) ≤
        a / K ^ (a + 1) * (∑ i, tau i * x i - ∑ i, tau i * m' i) := by
      rw [variance, ← Finset.sum_sub_distrib, ← Finset.sum_sub_distrib, Finset.mul_sum]
      refine Finset.sum_le_sum fun i _ => ((tangent i).trans (slope i)).trans (le_of_eq ?_)
      ring
    rw [h3] at hsum
    have hpos : 0 < a / K ^ (a + 1) := div_pos h.pa hKa
    by_contra hc
    have : a / K ^ (a + 1) * (∑ i, tau i * x i - ∑ i, tau i * m' i) < 0 :=
      mul_neg_of_pos_of_neg hpos (by linarith)
    linarith

theorem stageMax_spec (h : Args W2 V w a tau nmin) (hmx : ∀ i, nmin i ≤ nmax i) [Nonempty ι] :
    (∀ m, stageMax W2 w V a nmax false (start W2 w V a tau) = .next m →
      (∀ i, 0 < m i ∧ m i ≤ nmax i) ∧ variance W2 w a univ m = V) ∧
    (∀ m, stageMax W2 w V a nmax false (start W2 w V a tau) = .ret m →
      (∀ i, 0 < m i ∧ m i ≤ nmax i) ∧ V ≤ variance W2 w a univ nmax ∧ ∃ i, m i = nmax i) ∧
    (stageMax W2 w V a nmax false (start W2 w V a tau) = .fail → V < variance W2 w a univ nmax) := by
  obtain ⟨s1, s2, -⟩ := start_spec h.pW2 h.pw h.ptau h.pa h.pV
  have hmax : ∀ i, 0 < nmax i := fun i => lt_of_lt_of_le (h.pnmin i) (hmx i)
  have := nmaxLoop_spec h.pW2 h.pw h.pa hmax (univ.filter fun i => nmax i < start W2 w V a tau i)
    (start W2 w V a tau) s1 s2 (fun i hi => (Finset.mem_filter.1 hi).2.le) (fun i hi => by simp [hi])
  have e : (univ.filter fun i => nmax i < start W2 w V a tau i) =
      @Finset.filter ι (fun i => nmax i < start W2 w V a tau i) (fun a => Classical.propDecidable _) univ := by congr
  simp only [stageMax, Bool.false_eq_true, if_false]
  rw [← e]; exact this

/-- C28 (with the cap): if the target can be met with a strict margin by the maximal numbers of samples, the
call succeeds, with numbers (before truncation) between the minima and the maxima and a
predicted variance of at most the target. -/
theorem C28_target_met_capped (h : Args W2 V w a tau nmin) (hmx : ∀ i, nmin i ≤ nmax i)
    (hreach : ∑ i, W2 i * (w i / nmax i ^ a) < V) :
    ∃ m, (adjust1dReal W2 V w a tau nmin nmax false = .ret m ∨
        adjust1dReal W2 V w a tau nmin nmax false = .next m) ∧
      (∀ i, nmin i ≤ m i ∧ m i ≤ nmax i) ∧ ∑ i, W2 i * (w i / m i ^ a) ≤ V := by
  by_cases hb : variance W2 w a univ nmin ≤ V
  · refine ⟨nmin, Or.inl ?_, fun i => ⟨le_rfl, hmx i⟩, hb⟩
    simp [adjust1dReal, h.pW2, h.pw, h.ptau, h.pnmin, hb]
  · have := nonempty_of_big h hb
    obtain ⟨h1, h2, h3⟩ := stageMax_spec h hmx
    cases hs : stageMax W2 w V a nmax false (start W2 w V a tau) with
    | fail => exact absurd (h3 hs) (not_lt.2 hreach.le)
    | ret m => exact absurd (h2 m hs).2.1 (not_le.2 hreach)
    | next m0 =>
      obtain ⟨g1, g2⟩ := h1 m0 hs
      obtain ⟨m, q1, q2, q3, -⟩ := stageMin_eq h hb nmax hmx m0 (fun i => (g1 i).1) g2 (fun i => (g1 i).2)
      refine ⟨m, Or.inr ?_, q2, q3.le⟩
      simp [adjust1dReal, h.pW2, h.pw, h.ptau, h.pnmin, hb, hs, q1]

/-- C28 (with the cap): the call gives up (returns a plan with a predicted variance above the target, or
raises) only if no plan within the maxima meets the target with a margin: then `V` is at
most the predicted variance of every plan within the maxima. In that case the maxima are still
respected, and some kernel is at its maximum. -/
theorem C28_gives_up_only_if_unreachable (h : Args W2 V w a tau nmin) (hmx : ∀ i, nmin i ≤ nmax i)
    (hbad : adjust1dReal W2 V w a tau nmin nmax false = .fail ∨
      ∃ m, (adjust1dReal W2 V w a tau nmin nmax false = .ret m ∨
        adjust1dReal W2 V w a tau nmin nmax false = .next m) ∧ V < ∑ i, W2 i * (w i / m i ^ a))
    (x : ι → ℝ) (hx : ∀ i, 0 < x i ∧ x i ≤ nmax i) :
    V ≤ ∑ i, W2 i * (w i / x i ^ a) := by
  by_contra hc
  have hle : variance W2 w a univ nmax ≤ variance W2 w a univ x :=
    variance_anti h.pW2 h.pw h.pa (fun i _ => (hx i).1) (fun i _ => (hx i).2)
  obtain ⟨m, h1, -, h3⟩ := C28_target_met_capped h hmx (lt_of_le_of_lt hle (not_le.1 hc))
  rcases hbad with hf | ⟨m', h4, h5⟩
  · rw [hf] at h1; simp at h1
  · have : m' = m := by
      rcases h1 with h1 | h1 <;> rcases h4 with h4 | h4 <;> rw [h1] at h4 <;> simp at h4 <;> exact h4.symm
    subst this
    exact absurd h5 (not_lt.2 h3)

/-- C28: the maxima are respected in every case. -/
theorem C28_max_respected (h : Args W2 V w a tau nmin) (hmx : ∀ i, nmin i ≤ nmax i) (m : ι → ℝ)
    (hm : adjust1dReal W2 V w a tau nmin nmax false = .ret m ∨
      adjust1dReal W2 V w a tau nmin nmax false = .next m) : ∀ i, m i ≤ nmax i := by
  by_cases hb : variance W2 w a univ nmin ≤ V
  · have : adjust1dReal W2 V w a tau nmin nmax false = .ret nmin := by
      simp [adjust1dReal, h.pW2, h.pw, h.ptau, h.pnmin, hb]
    rw [this] at hm
    simp only [Res.ret.injEq, reduceCtorEq, or_false] at hm
    subst hm; exact hmx
  · have := nonempty_of_big h hb
    obtain ⟨h1, h2, h3⟩ := stageMax_spec h hmx
    cases hs : stageMax W2 w V a nmax false (start W2 w V a tau) with
    | fail => simp [adjust1dReal, h.pW2, h.pw, h.ptau, h.pnmin, hb, hs] at hm
    | ret m0 =>
      have e : adjust1dReal W2 V w a tau nmin nmax false = .ret m0 := by
        simp [adjust1dReal, h.pW2, h.pw, h.ptau, h.pnmin, hb, hs]
      rw [e] at hm
      simp only [Res.ret.injEq, reduceCtorEq, or_false] at hm
      subst hm
      exact fun i => ((h2 m0 hs).1 i).2
    | next m0 =>
      obtain ⟨g1, g2⟩ := h1 m0 hs
      obtain ⟨m1, q1, q2, q3, -⟩ := stageMin_eq h hb nmax hmx m0 (fun i => (g1 i).1) g2 (fun i => (g1 i).2)
      have e : adjust1dReal W2 V w a tau nmin nmax false = .next m1 := by
        simp [adjust1dReal, h.pW2, h.pw, h.ptau, h.pnmin, hb, hs, q1]
      rw [e] at hm
      simp only [reduceCtorEq, Res.next.injEq, false_or] at hm
      subst hm
      exact fun i => (q2 i).2

/-- C28: the final result. The conversion to integers keeps integer minima (lattice sizes are
integers), and the target is met by one sample more than returned for each kernel. -/
theorem C28_integer_plan (h : Args W2 V w a tau nmin) (hint : ∀ i, ∃ z : ℤ, nmin i = z) :
    ∃ m, adjust1d W2 V w a tau nmin nmax true = some m ∧ (∀ i, nmin i ≤ m i) ∧ (∀ i, ∃ z : ℤ, m i = z) ∧
      ∑ i, W2 i * (w i / (m i + 1) ^ a) ≤ V := by
  obtain ⟨m, h1, h2, h3⟩ := C28_target_met_uncapped h
  have hmp : ∀ i, 0 < m i := fun i => lt_of_lt_of_le (h.pnmin i) (h2 i)
  rcases h1 with h1 | h1
  · have hmn : m = nmin := by
      by_cases hb : variance W2 w a univ nmin ≤ V
      · have : adjust1dReal W2 V w a tau nmin nmax true = .ret nmin := by
          simp [adjust1dReal, h.pW2, h.pw, h.ptau, h.pnmin, hb]
        rw [this] at h1; simpa using h1.symm
      · exfalso
        have := nonempty_of_big h hb
        obtain ⟨s1, s2, -⟩ := start_spec h.pW2 h.pw h.ptau h.pa h.pV
        obtain ⟨m', q1, -⟩ := stageMin_eq h hb (fun i => max (nmin i) (start W2 w V a tau i))
          (fun i => le_max_left _ _) _ s1 s2 (fun i => le_max_right _ _)
        simp [adjust1dReal, h.pW2, h.pw, h.ptau, h.pnmin, hb, stageMax, q1] at h1
    refine ⟨m, by simp [adjust1d, h1], h2, by rw [hmn]; exact hint, le_trans ?_ h3⟩
    exact variance_anti h.pW2 h.pw h.pa (fun i _ => hmp i) (m := fun i => m i + 1) (fun i _ => by linarith)
  · refine ⟨fun i => (⌊m i⌋ : ℝ), by simp [adjust1d, h1], fun i => ?_, fun i => ⟨_, rfl⟩, le_trans ?_ h3⟩
    · obtain ⟨z, hz⟩ := hint i
      have := h2 i
      rw [hz] at this ⊢
      have h4 := Int.le_floor.2 this
      simp only
      exact_mod_cast h4
    · exact variance_anti h.pW2 h.pw h.pa (fun i _ => hmp i) (m := fun i => (⌊m i⌋ : ℝ) + 1)
        (fun i _ => (Int.lt_floor_add_one (m i)).le)

/-! ### adjust_n -/

theorem adjustRow_spec (w : ι → ℝ) (a : ℝ) (tau nmax n : ι → ℝ) (row : (ι → ℝ) × ℝ)
    (hw : ∀ i, 0 ≤ w i) (ha : 0 < a) (ht : ∀ i, 0 < tau i) (hV : 0 < row.2) (hW : ∀ i, 0 ≤ row.1 i)
    (hn : ∀ i, ∃ z : ℤ, n i = z ∧ 0 < z) :
    ∃ m, adjustRow w a tau nmax true n row = some m ∧ (∀ i, n i ≤ m i) ∧
      (∀ i, ∃ z : ℤ, m i = z ∧ 0 < z) ∧ ∑ i, row.1 i * (w i / (m i + 1) ^ a) ≤ row.2 := by
  have hzero : ∀ m : ι → ℝ, (∑ i, row.1 i * (w i / (m i + 1) ^ a)) =
      ∑ i : Active w row.1, row.1 i.1 * (w i.1 / (m i.1 + 1) ^ a) := by
    classical
    intro m
    have e := Finset.sum_subtype (F := inferInstanceAs (Fintype {i // w i ≠ 0 ∧ row.1 i ≠ 0}))
      (univ.filter fun i => w i ≠ 0 ∧ row.1 i ≠ 0) (p := fun i => w i ≠ 0 ∧ row.1 i ≠ 0)
      (by simp) (fun i => row.1 i * (w i / (m i + 1) ^ a))
    have e2 : ∑ i : Active w row.1, row.1 i.1 * (w i.1 / (m i.1 + 1) ^ a) =
        ∑ i : {i // w i ≠ 0 ∧ row.1 i ≠ 0}, row.1 i.1 * (w i.1 / (m i.1 + 1) ^ a) := by
      apply Finset.sum_congr
      · ext i; exact ⟨fun _ => Finset.mem_univ _, fun _ => Finset.mem_univ _⟩
      · intros; rfl
    rw [e2, ← e]
    symm
    apply Finset.sum_subset (Finset.filter_subset _ _)
    intro i _ hi
    simp only [Finset.mem_filter, Finset.mem_univ, true_and, not_and, not_not] at hi
    by_cases h0 : w i = 0
    · simp [h0]
    · simp [hi h0]
  have hnp : ∀ i, 0 < n i := fun i => by
    obtain ⟨z, h1, h2⟩ := hn i; rw [h1]; exact_mod_cast h2
  unfold adjustRow
  split
  · have hargs : Args (ι := Active w row.1) (fun i => row.1 i.1) row.2 (fun i => w i.1) a
        (fun i => tau i.1) (fun i => n i.1) :=
      ⟨fun i => lt_of_le_of_ne (hW i.1) (Ne.symm i.2.2), hV, fun i => lt_of_le_of_ne (hw i.1) (Ne.symm i.2.1), ha,
        fun i => ht i.1, fun i => hnp i.1⟩
    obtain ⟨m, h1, h2, h3, h4⟩ := C28_integer_plan (nmax := fun i : Active w row.1 => nmax i.1) hargs
      (fun i => let ⟨z, hz, _⟩ := hn i.1; ⟨z, hz⟩)
    have hle : ∀ i, n i ≤ (if h : w i ≠ 0 ∧ row.1 i ≠ 0 then m ⟨i, h⟩ else n i) := by
      intro i; split
      · rename_i h; exact h2 ⟨i, h⟩
      · exact le_rfl
    refine ⟨fun i => if h : w i ≠ 0 ∧ row.1 i ≠ 0 then m ⟨i, h⟩ else n i, ?_, hle, fun i => ?_, ?_⟩
    · rw [h1]; rfl
    · have hp := lt_of_lt_of_le (hnp i) (hle i)
      have : ∃ z : ℤ, (if h : w i ≠ 0 ∧ row.1 i ≠ 0 then m ⟨i, h⟩ else n i) = z := by
        split
        · exact h3 _
        · obtain ⟨z, hz, _⟩ := hn i; exact ⟨z, hz⟩
      obtain ⟨z, hz⟩ := this
      rw [hz] at hp
      exact ⟨z, hz, by exact_mod_cast hp⟩
    · rw [hzero]
      refine le_trans (le_of_eq ?_) h4
      apply Finset.sum_congr rfl
      intro i _
      have : (if h : w i.1 ≠ 0 ∧ row.1 i.1 ≠ 0 then m ⟨i.1, h⟩ else n i.1) = m i := by
        rw [dif_pos i.2]; rfl
      simp only [this]
  · rename_i hc
    push Not at hc
    refine ⟨n, rfl, fun i => le_rfl, hn, ?_⟩
    have : ∑ i, row.1 i * (w i / (n i + 1) ^ a) = 0 := by
      apply Finset.sum_eq_zero
      intro i _
      by_cases h0 : w i = 0
      · simp [h0]
      · simp [hc i h0]
    rw [this]; exact hV.le

/-- C28 for several amplitudes and orders (`adjust_n`, with median lattices, i.e. without a cap):
the call succeeds, the numbers of samples are integers, not smaller than before, and for every amplitude and
order (row of squared weights `W2` with target variance `V`) the variance predicted for one sample more
per kernel is at most the target. -/
theorem C28_all_amplitudes (rows : List ((ι → ℝ) × ℝ)) (w : ι → ℝ) (a : ℝ) (tau nmin nmax : ι → ℝ)
    (hw : ∀ i, 0 ≤ w i) (ha : 0 < a) (ht : ∀ i, 0 < tau i)
    (hrows : ∀ row ∈ rows, 0 < row.2 ∧ ∀ i, 0 ≤ row.1 i)
    (hn : ∀ i, ∃ z : ℤ, nmin i = z ∧ 0 < z) :
    ∃ m, adjustN rows w a tau nmin nmax true = some m ∧ (∀ i, nmin i ≤ m i) ∧
      (∀ i, ∃ z : ℤ, m i = z ∧ 0 < z) ∧
      ∀ row ∈ rows, ∑ i, row.1 i * (w i / (m i + 1) ^ a) ≤ row.2 := by
  unfold adjustN
  induction rows generalizing nmin with
  | nil => exact ⟨nmin, rfl, fun i => le_rfl, hn, by simp⟩
  | cons row rows ih =>
    obtain ⟨hV, hW⟩ := hrows row (by simp)
    obtain ⟨m1, h1, h2, h3, h4⟩ := adjustRow_spec w a tau nmax nmin row hw ha ht hV hW hn
    obtain ⟨m, g1, g2, g3, g4⟩ := ih m1 (fun r hr => hrows r (by simp [hr])) h3
    refine ⟨m, ?_, fun i => (h2 i).trans (g2 i), g3, ?_⟩
    · rw [List.foldlM_cons, h1]; exact g1
    · intro r hr
      rcases List.mem_cons.1 hr with rfl | hr
      · refine le_trans (Finset.sum_le_sum fun i _ => ?_) h4
        apply mul_le_mul_of_nonneg_left _ (hW i)
        have hp : 0 < m1 i + 1 := by
          obtain ⟨z, hz, hz2⟩ := h3 i
          rw [hz]; have : (0 : ℝ) < z := by exact_mod_cast hz2
          linarith
        exact div_le_div_of_nonneg_left (hw i) (Real.rpow_pos_of_pos hp _)
          (Real.rpow_le_rpow hp.le (by linarith [g2 i]) ha.le)
      · exact g4 r hr

/-! ### Examples and deviations -/

/-- The hypotheses are satisfiable with the plan not being trivial (the minima do not suffice). -/
example : Args (ι := Fin 2) (fun _ => 1) (1 / 8) (fun _ => 1) 2 (fun _ => 1) (fun _ => 1) ∧
    (1 : ℝ) / 8 < variance (fun _ : Fin 2 => 1) (fun _ => 1) 2 univ (fun _ => 1) ∧
    ∑ i : Fin 2, (1 : ℝ) * (1 / (100 : ℝ) ^ (2 : ℝ)) < 1 / 8 := by
  refine ⟨⟨fun _ => one_pos, by norm_num, fun _ => one_pos, by norm_num, fun _ => one_pos, fun _ => one_pos⟩, ?_, ?_⟩
  · norm_num [variance]
  · norm_num

/-- C28, deviation: an early `return` (target out of reach because of the capped kernels) skips the loop
enforcing the minima. Two kernels with minima `100`; the first is capped at `100`, its variance alone
exceeds the target; the second would need fewer samples than its minimum, and gets fewer. -/
theorem C28_early_return_below_minimum :
    ∃ (W2 w tau nmin nmax : Fin 2 → ℝ) (V a : ℝ) (m : Fin 2 → ℝ), Args W2 V w a tau nmin ∧
      (∀ i, nmin i ≤ nmax i) ∧ adjust1d W2 V w a tau nmin nmax false = some m ∧ ∃ i, m i < nmin i := by
  have hs : start (fun _ : Fin 2 => (1 : ℝ)) ![10 ^ 8, 1] 1000 1 (fun _ => 1) = ![100010, 10001 / 1000] := by
    have h4 : ((10 : ℝ) ^ 8) ^ ((1 : ℝ) / 2) = 10 ^ 4 := by
      rw [← Real.sqrt_eq_rpow, show (10 : ℝ) ^ 8 = (10 ^ 4) ^ 2 by norm_num]
      exact Real.sqrt_sq (by norm_num)
    have h2 : (1 : ℝ) + 1 = 2 := by norm_num
    funext i
    fin_cases i <;>
      simp only [start, rescale, variance, Fin.sum_univ_two, Finset.mem_univ, if_true, Fin.zero_eta,
        Fin.mk_one, Matrix.cons_val_zero, Matrix.cons_val_one, div_one, mul_one, h2, h4, Real.one_rpow,
        Real.rpow_one] <;> norm_num
  have hf : (univ.filter fun i : Fin 2 => (![100, 1000] : Fin 2 → ℝ) i < (![100010, 10001 / 1000] : Fin 2 → ℝ) i) = {0} := by
    ext i
    fin_cases i <;> norm_num
  refine ⟨fun _ => 1, ![10 ^ 8, 1], fun _ => 1, fun _ => 100, ![100, 1000], 1000, 1,
    ![100, 10001 / 1000], ⟨fun _ => one_pos, by norm_num, ?_, by norm_num, fun _ => one_pos, by norm_num⟩, ?_, ?_, 1, ?_⟩
  · intro i; fin_cases i <;> norm_num
  · intro i; fin_cases i <;> norm_num
  · have hm : setMask ({0} : Finset (Fin 2)) ![100, 1000] ![100010, 10001 / 1000] = (![100, 10001 / 1000] : Fin 2 → ℝ) := by
      funext i; fin_cases i <;> simp [setMask]
    have hr : adjust1dReal (fun _ : Fin 2 => (1 : ℝ)) 1000 ![10 ^ 8, 1] 1 (fun _ => 1) (fun _ => 100)
        ![100, 1000] false = .ret ![100, 10001 / 1000] := by
      unfold adjust1dReal
      rw [if_neg, if_neg, hs]
      · unfold stageMax
        rw [if_neg (by simp), hf, nmaxLoop, if_neg (by simp), if_neg (by decide), hm, if_pos]
        simp [variance]
        norm_num
      · norm_num [variance, Fin.sum_univ_two]
      · rw [not_not]
        refine ⟨by norm_num, ?_, by norm_num, by norm_num⟩
        intro i; fin_cases i <;> norm_num
    unfold adjust1d
    rw [hr]
  · norm_num

end
end AdjustN
end SecDec
