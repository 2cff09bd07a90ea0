import Mathlib.Analysis.Analytic.OfScalars
import Mathlib.Analysis.Calculus.IteratedDeriv.Lemmas
import Mathlib.Analysis.Calculus.FDeriv.Analytic
import Mathlib.Analysis.Complex.CauchyIntegral
import Verif.Spec.Expansion
/-
One variable: Taylor and Laurent expansions, and their uniqueness.
-/
namespace SecDec
namespace Expansion
open Filter Topology Asymptotics

theorem taylor_isBigO {f : ℂ → ℂ} (hf : AnalyticAt ℂ f 0) (m : ℕ) :
    (fun s => f s - ∑ k ∈ Finset.range m, iteratedDeriv k f 0 / (k.factorial : ℂ) * s ^ k) =O[𝓝 0]
      (fun s => s ^ m) := by
  have h := hf.hasFPowerSeriesAt.isBigO_sub_partialSum_pow m
  have h2 : (fun s : ℂ => ‖s‖ ^ m) =O[𝓝 0] (fun s => s ^ m) := by
    refine IsBigO.of_bound 1 (Eventually.of_forall fun s => ?_)
    simp
  refine (h.trans h2).congr_left fun s => ?_
  simp only [zero_add, FormalMultilinearSeries.partialSum]
  congr 1
  refine Finset.sum_congr rfl fun k _ => ?_
  simp [FormalMultilinearSeries.ofScalars, mul_comm]

theorem pow_isBigO {m k : ℕ} (h : m ≤ k) : (fun s : ℂ => s ^ k) =O[𝓝 0] (fun s => s ^ m) := by
  obtain ⟨j, rfl⟩ := Nat.exists_eq_add_of_le h
  have : (fun s : ℂ => s ^ m * s ^ j) =O[𝓝 0] (fun s => s ^ m * 1) := by
    refine (isBigO_refl _ _).mul ?_
    exact ((continuous_pow j).tendsto (0:ℂ)).isBigO_one ℂ
  simpa [pow_add] using this

theorem zpow_isBigO {a b : ℤ} (h : a ≤ b) : (fun s : ℂ => s ^ b) =O[𝓝[≠] 0] (fun s => s ^ a) := by
  obtain ⟨j, rfl⟩ := Int.le.dest h
  have h1 : (fun s : ℂ => s ^ a * s ^ j) =O[𝓝[≠] 0] (fun s => s ^ a * 1) := by
    refine (isBigO_refl _ _).mul ?_
    exact (((continuous_pow j).tendsto (0:ℂ)).mono_left nhdsWithin_le_nhds).isBigO_one ℂ
  refine h1.congr' ?_ (Eventually.of_forall fun s => by simp)
  filter_upwards [self_mem_nhdsWithin] with s hs
  rw [zpow_add₀ hs]; simp

/-- The consecutive terms starting at `a`. -/
def consec (a : ℤ) (cs : List ℂ) : List (ℤ × ℂ) := cs.zipIdx.map (fun c => ((c.2 : ℤ) + a, c.1))

theorem consec_sum (a : ℤ) (cs : List ℂ) (s : ℂ) :
    ((consec a cs).map (fun t => t.2 * s ^ t.1)).sum =
      ∑ k ∈ Finset.range cs.length, cs.getD k 0 * s ^ ((k : ℤ) + a) := by
  have : ∀ (cs : List ℂ) (j : ℕ), ((cs.zipIdx j).map (fun c => c.1 * s ^ ((c.2 : ℤ) + a))).sum =
      ∑ k ∈ Finset.range cs.length, cs.getD k 0 * s ^ (((k + j : ℕ) : ℤ) + a) := by
    intro cs
    induction cs with
    | nil => intro j; simp
    | cons c cs ih =>
      intro j
      rw [List.zipIdx_cons, List.map_cons, List.sum_cons, ih, List.length_cons, Finset.sum_range_succ']
      rw [add_comm]
      congr 1
      · refine Finset.sum_congr rfl fun k _ => ?_
        simp [add_comm, add_left_comm]
      · simp
  rw [consec, List.map_map]
  simpa [Function.comp_def] using this cs 0

theorem consec_fst (a : ℤ) (cs : List ℂ) :
    (consec a cs).map Prod.fst = (List.range cs.length).map (fun k : ℕ => (k : ℤ) + a) := by
  rw [consec, List.map_map]
  have : (cs.zipIdx.map (fun c => c.2)) = List.range cs.length := by
    simpa [List.range_eq_range'] using List.zipIdx_map_snd 0 cs
  rw [← this, List.map_map]; rfl

theorem isExpansion_consec {f g : ℂ → ℂ} {a o : ℤ} (hg : AnalyticAt ℂ g 0)
    (hfg : ∀ᶠ s in 𝓝[≠] 0, f s = s ^ a * g s) (m : ℕ) (hm : (m : ℤ) = o + 1 - a) (cs : List ℂ) (hlen : cs.length ≤ m)
    (hcs : ∀ k < m, cs.getD k 0 = iteratedDeriv k g 0 / (k.factorial : ℂ)) :
    IsExpansion f o (consec a cs) := by
  refine ⟨?_, ?_, ?_⟩
  · rw [consec_fst, List.pairwise_map]
    refine List.Pairwise.imp ?_ List.pairwise_lt_range
    intro x y hxy; omega
  · intro t ht
    have : t.1 ∈ (consec a cs).map Prod.fst := List.mem_map_of_mem ht
    rw [consec_fst] at this
    simp only [List.mem_map, List.mem_range] at this
    obtain ⟨k, hk, e⟩ := this
    omega
  · have h1 := ((taylor_isBigO hg m).mono (nhdsWithin_le_nhds (s := {0}ᶜ)))
    have h2 := (isBigO_refl (fun s : ℂ => s ^ a) (𝓝[≠] 0)).mul h1
    refine h2.congr' ?_ ?_
    · filter_upwards [hfg, self_mem_nhdsWithin] with s hs hs0
      rw [hs, consec_sum, mul_sub]
      congr 1
      have : ∑ k ∈ Finset.range cs.length, cs.getD k 0 * s ^ ((k : ℤ) + a) =
          ∑ k ∈ Finset.range m, cs.getD k 0 * s ^ ((k : ℤ) + a) := by
        refine Finset.sum_subset (by simpa using hlen) ?_
        intro k _ hk
        rw [List.getD_eq_getElem?_getD, List.getElem?_eq_none (by simpa using hk)]; simp
      rw [this, Finset.mul_sum]
      refine Finset.sum_congr rfl fun k hk => ?_
      rw [hcs k (by simpa using hk), zpow_add₀ hs0]; simp; ring
    · filter_upwards [self_mem_nhdsWithin] with s hs0
      have : o + 1 = a + m := by omega
      rw [this, zpow_add₀ hs0]; simp

theorem isExpansion_nil {f g : ℂ → ℂ} {a o : ℤ} (hg : AnalyticAt ℂ g 0)
    (hfg : ∀ᶠ s in 𝓝[≠] 0, f s = s ^ a * g s) (h : o < a) : IsExpansion f o [] := by
  refine ⟨List.Pairwise.nil, by simp, ?_⟩
  have h1 : g =O[𝓝[≠] 0] (fun _ => (1:ℂ)) :=
    (hg.continuousAt.tendsto.mono_left nhdsWithin_le_nhds).isBigO_one ℂ
  have h2 := (isBigO_refl (fun s : ℂ => s ^ a) (𝓝[≠] 0)).mul h1
  have h3 : (fun s => f s - (([] : List (ℤ × ℂ)).map (fun t => t.2 * s ^ t.1)).sum) =O[𝓝[≠] 0] (fun s => s ^ a) := by
    refine h2.congr' ?_ (Eventually.of_forall fun s => by simp)
    filter_upwards [hfg] with s hs
    simp [hs]
  exact h3.trans (zpow_isBigO (by omega))

/-! ### Uniqueness -/

theorem tendsto_zpow_zero {a : ℤ} (h : 0 < a) : Tendsto (fun s : ℂ => s ^ a) (𝓝[≠] 0) (𝓝 0) := by
  obtain ⟨k, rfl⟩ := Int.eq_ofNat_of_zero_le h.le
  have hk : k ≠ 0 := by rintro rfl; simp at h
  have := ((continuous_pow k).tendsto (0:ℂ)).mono_left (nhdsWithin_le_nhds (s := {0}ᶜ))
  simpa [hk] using this

/-- The coefficient of the power `k`. -/
noncomputable def coeffAt (l : List (ℤ × ℂ)) (k : ℤ) : ℂ := ((l.filter (fun t => t.1 = k)).map Prod.snd).sum

theorem coeffAt_append (l l' : List (ℤ × ℂ)) (k : ℤ) : coeffAt (l ++ l') k = coeffAt l k + coeffAt l' k := by
  simp [coeffAt]

theorem coeffAt_consec_nat (a : ℤ) (cs : List ℂ) (m : ℕ) (e : ℤ) (h : (m : ℤ) + a = e) :
    coeffAt (consec a cs) e = cs.getD m 0 := by
  have : ∀ (cs : List ℂ) (j : ℕ), ((((cs.zipIdx j).map (fun c => ((c.2 : ℤ) + a, c.1))).filter
      (fun t => t.1 = ((m + j : ℕ) : ℤ) + a)).map Prod.snd).sum = cs.getD m 0 := by
    clear h
    induction m with
    | zero =>
      intro cs j
      cases cs with
      | nil => simp
      | cons c cs =>
        rw [List.zipIdx_cons, List.map_cons, List.filter_cons]
        have : (((cs.zipIdx (j + 1)).map (fun c => ((c.2 : ℤ) + a, c.1))).filter
            (fun t => t.1 = ((0 + j : ℕ) : ℤ) + a)) = [] := by
          rw [List.filter_eq_nil_iff]
          intro t ht
          obtain ⟨d, hd, rfl⟩ := List.mem_map.1 ht
          have := List.le_snd_of_mem_zipIdx hd
          simp only [decide_eq_true_eq]; omega
        rw [if_pos (by simp), this]; simp
    | succ m ih =>
      intro cs j
      cases cs with
      | nil => simp
      | cons c cs =>
        rw [List.zipIdx_cons, List.map_cons, List.filter_cons]
        have h2 := ih cs (j + 1)
        rw [show m + (j + 1) = m + 1 + j by ring] at h2
        rw [if_neg (by simp only [decide_eq_true_eq]; omega), h2]; simp
  have h3 := this cs 0
  rw [add_zero, h] at h3
  exact h3

theorem sum_eq_coeffAt (l : List (ℤ × ℂ)) (s : ℂ) (S : Finset ℤ) (hS : ∀ t ∈ l, t.1 ∈ S) :
    (l.map (fun t => t.2 * s ^ t.1)).sum = ∑ k ∈ S, coeffAt l k * s ^ k := by
  induction l with
  | nil => simp [coeffAt]
  | cons t l ih =>
    rw [List.map_cons, List.sum_cons, ih (fun u hu => hS u (by simp [hu]))]
    have : ∀ k, coeffAt (t :: l) k = (if t.1 = k then t.2 else 0) + coeffAt l k := by
      intro k
      unfold coeffAt
      rw [List.filter_cons]
      split <;> simp_all
    simp only [this, add_mul, Finset.sum_add_distrib]
    congr 1
    rw [Finset.sum_eq_single t.1]
    · simp
    · intro b _ hb; simp [Ne.symm hb]
    · intro h; exact absurd (hS t (by simp)) h

theorem vanish_of_isBigO (S : Finset ℤ) (d : ℤ → ℂ) (o : ℤ) (hS : ∀ k ∈ S, k ≤ o)
    (h : (fun s => ∑ k ∈ S, d k * s ^ k) =O[𝓝[≠] 0] (fun s : ℂ => s ^ (o + 1))) : ∀ k ∈ S, d k = 0 := by
  by_contra hne
  push Not at hne
  set T := S.filter (fun k => d k ≠ 0) with hT
  have hTne : T.Nonempty := by
    obtain ⟨k, h1, h2⟩ := hne
    exact ⟨k, by simp [hT, h1, h2]⟩
  set a := T.min' hTne with ha
  have haT : a ∈ T := Finset.min'_mem T hTne
  have haS : a ∈ S := (Finset.mem_filter.1 haT).1
  have had : d a ≠ 0 := (Finset.mem_filter.1 haT).2
  have h1 : Tendsto (fun s : ℂ => s ^ (-a) * ∑ k ∈ S, d k * s ^ k) (𝓝[≠] 0) (𝓝 0) := by
    have h2 := (isBigO_refl (fun s : ℂ => s ^ (-a)) (𝓝[≠] 0)).mul h
    refine h2.trans_tendsto ?_
    refine (tendsto_zpow_zero (a := o + 1 - a) (by have := hS a haS; omega)).congr' ?_
    filter_upwards [self_mem_nhdsWithin] with s hs
    rw [← zpow_add₀ hs]; congr 1; ring
  have h3 : Tendsto (fun s : ℂ => s ^ (-a) * ∑ k ∈ S, d k * s ^ k) (𝓝[≠] 0) (𝓝 (d a)) := by
    have : Tendsto (fun s : ℂ => ∑ k ∈ T, d k * s ^ (k - a)) (𝓝[≠] 0) (𝓝 (∑ k ∈ T, if k = a then d a else 0)) := by
      refine tendsto_finsetSum _ fun k hk => ?_
      by_cases hka : k = a
      · subst hka; simp
      · rw [if_neg hka]
        have hlt : a < k := lt_of_le_of_ne (Finset.min'_le T k hk) (Ne.symm hka)
        simpa using (tendsto_zpow_zero (a := k - a) (by omega)).const_mul (d k)
    rw [Finset.sum_ite_eq' T a (fun _ => d a), if_pos haT] at this
    refine this.congr' ?_
    filter_upwards [self_mem_nhdsWithin] with s hs
    have e1 : ∑ k ∈ S, d k * s ^ k = ∑ k ∈ T, d k * s ^ k := by
      rw [hT, Finset.sum_filter]
      refine Finset.sum_congr rfl fun k _ => ?_
      split
      · rfl
      · rename_i h; push Not at h; simp [h]
    rw [e1, Finset.mul_sum]
    refine Finset.sum_congr rfl fun k _ => ?_
    rw [sub_eq_neg_add, zpow_add₀ hs]; ring
  exact had (tendsto_nhds_unique h3 h1)

theorem isExpansion_unique {f : ℂ → ℂ} {o : ℤ} {l l' : List (ℤ × ℂ)} (h : IsExpansion f o l)
    (h' : IsExpansion f o l') (k : ℤ) : coeffAt l k = coeffAt l' k := by
  obtain ⟨-, b1, c1⟩ := h
  obtain ⟨-, b2, c2⟩ := h'
  set S : Finset ℤ := (l.map Prod.fst ++ l'.map Prod.fst).toFinset with hS
  have hl : ∀ t ∈ l, t.1 ∈ S := fun t ht => by simp [hS]; left; exact ⟨t.2, ht⟩
  have hl' : ∀ t ∈ l', t.1 ∈ S := fun t ht => by simp [hS]; right; exact ⟨t.2, ht⟩
  have hb : ∀ k ∈ S, k ≤ o := by
    intro k hk
    simp only [hS, List.mem_toFinset, List.mem_append, List.mem_map] at hk
    rcases hk with ⟨t, ht, rfl⟩ | ⟨t, ht, rfl⟩
    · exact b1 t ht
    · exact b2 t ht
  have h3 := vanish_of_isBigO S (fun k => coeffAt l k - coeffAt l' k) o hb (by
    refine (c2.sub c1).congr_left fun s => ?_
    rw [sum_eq_coeffAt l s S hl, sum_eq_coeffAt l' s S hl']
    simp only [sub_mul, Finset.sum_sub_distrib]; ring)
  by_cases hk : k ∈ S
  · exact sub_eq_zero.1 (h3 k hk)
  · have e1 : coeffAt l k = 0 := by
      unfold coeffAt
      rw [List.filter_eq_nil_iff.2]
      · simp
      · intro t ht; simp; rintro rfl; exact hk (hl t ht)
    have e2 : coeffAt l' k = 0 := by
      unfold coeffAt
      rw [List.filter_eq_nil_iff.2]
      · simp
      · intro t ht; simp; rintro rfl; exact hk (hl' t ht)
    rw [e1, e2]

end Expansion
end SecDec
