import Verif.Spec.ExtraReg
import Mathlib.NumberTheory.PrimeCounting
import Mathlib.Data.Rat.Lemmas
import Mathlib.RingTheory.Int.Basic
import Mathlib.Algebra.BigOperators.Associated
import Mathlib.Tactic.FieldSimp
import Mathlib.Tactic.LinearCombination
import Mathlib.Tactic.FinCases
/-!
Property C52: exponents of the extra analytic regulator for an expansion by regions.
-/
namespace SecDec
namespace ExtraReg
open scoped BigOperators
variable {m : ℕ}

/-! ### the loop over the variables -/

/-- the number of needed variables before `i` -/
def rankOf (need : Fin m → Bool) (i : Fin m) : ℕ := ((List.finRange m).filter fun j => need j && decide (j < i)).length

theorem value_eq (k : ℤ) (hk : 1 ≤ k) : value k = 1 / (Nat.nth Nat.Prime (k.toNat - 1) : ℚ) := by
  unfold value
  rw [if_neg (by omega), if_neg (by omega)]

/-- The inner loop, for any list of variables without repetition. -/
theorem assign_list (need : Fin m → Bool) (l : List (Fin m)) (hl : l.Nodup) (e : Fin m → ℚ) (o : Option (Fin m)) (k : ℤ) :
    let st := l.foldl (fun st i => if need i then (Function.update st.1 i (value st.2.2), some i, st.2.2 + 1) else st) (e, o, k)
    (∀ i, i ∉ l ∨ need i = false → st.1 i = e i) ∧
    (∃ r : Fin m → ℕ, (∀ i ∈ l, need i = true → st.1 i = value (k + r i)) ∧
      ∀ i ∈ l, ∀ j ∈ l, need i = true → need j = true → r i = r j → i = j) ∧
    (st.2.1 = o ∧ (∀ i ∈ l, need i = false) ∨ ∃ i ∈ l, need i = true ∧ st.2.1 = some i) := by
  induction l generalizing e o k with
  | nil => exact ⟨fun _ _ => rfl, ⟨fun _ => 0, by simp, by simp⟩, Or.inl ⟨rfl, by simp⟩⟩
  | cons a l ih =>
    have hnd := List.nodup_cons.1 hl
    simp only [List.foldl_cons]
    by_cases ha : need a = true
    · rw [if_pos ha]
      obtain ⟨h1, ⟨r, h2, h3⟩, h4⟩ := ih hnd.2 (Function.update e a (value k)) (some a) (k + 1)
      refine ⟨?_, ⟨fun i => if i = a then 0 else r i + 1, ?_, ?_⟩, ?_⟩
      · intro i hi
        have hia : i ≠ a := by
          rintro rfl
          rcases hi with hi | hi
          · exact hi (by simp)
          · rw [ha] at hi; exact absurd hi (by simp)
        rw [h1 i (hi.imp (fun h h' => h (by simp [h'])) id), Function.update_of_ne hia]
      · intro i hi hn
        by_cases hia : i = a
        · subst hia
          rw [h1 i (Or.inl hnd.1)]
          simp
        · rw [h2 i (by simpa [hia] using hi) hn]
          simp only [hia, if_false]
          congr 1; push_cast; ring
      · intro i hi j hj hn hn' hr
        by_cases hia : i = a
        · by_cases hja : j = a
          · rw [hia, hja]
          · simp [hia, hja] at hr
        · by_cases hja : j = a
          · simp [hia, hja] at hr
          · simp only [hia, hja, if_false] at hr
            exact h3 i (by simpa [hia] using hi) j (by simpa [hja] using hj) hn hn' (by omega)
      · rcases h4 with ⟨h4, -⟩ | ⟨i, hi, hn, h4⟩
        · exact Or.inr ⟨a, by simp, ha, h4⟩
        · exact Or.inr ⟨i, by simp [hi], hn, h4⟩
    · rw [if_neg ha]
      have ha' : need a = false := by simpa using ha
      obtain ⟨h1, ⟨r, h2, h3⟩, h4⟩ := ih hnd.2 e o k
      have hmem : ∀ i ∈ a :: l, need i = true → i ∈ l := by
        intro i hi hn
        rcases List.mem_cons.1 hi with rfl | hi
        · exact absurd hn ha
        · exact hi
      refine ⟨?_, ⟨r, fun i hi hn => h2 i (hmem i hi hn) hn, fun i hi j hj hn hn' hr =>
        h3 i (hmem i hi hn) j (hmem j hj hn') hn hn' hr⟩, ?_⟩
      · intro i hi
        refine h1 i ?_
        rcases hi with hi | hi
        · exact Or.inl fun h => hi (by simp [h])
        · exact Or.inr hi
      · rcases h4 with ⟨h4, h5⟩ | ⟨i, hi, hn, h4⟩
        · exact Or.inl ⟨h4, by simp [ha']; exact h5⟩
        · exact Or.inr ⟨i, by simp [hi], hn, h4⟩

/-- One iteration. -/
theorem attempt_spec (constr : List (Fin m → ℤ)) (exp : Fin m → ℚ) (nzero : ℤ)
    (h0 : ∀ i, needed constr i = false → exp i = 0) :
    (attempt constr exp nzero = none ∧ ∀ i, needed constr i = false) ∨
    ∃ e l, attempt constr exp nzero = some e ∧ needed constr l = true ∧ ∑ i, e i = 0 ∧
      (∀ i, needed constr i = false → e i = 0) ∧
      ∃ r : Fin m → ℕ, (∀ i, needed constr i = true → i ≠ l → e i = value (-nzero + r i)) ∧
        ∀ i j, needed constr i = true → needed constr j = true → r i = r j → i = j := by
  obtain ⟨h1, ⟨r, h2, h3⟩, h4⟩ := assign_list (needed constr) (List.finRange m) (List.nodup_finRange m) exp none (-nzero)
  unfold attempt assign
  dsimp only
  rcases h4 with ⟨h4, h5⟩ | ⟨l, -, hn, h4⟩
  · left
    rw [h4]
    exact ⟨rfl, fun i => h5 i (List.mem_finRange i)⟩
  · right
    rw [h4]
    refine ⟨_, l, rfl, hn, ?_, ?_, r, ?_, fun i j hi hj hr => h3 i (List.mem_finRange i) j (List.mem_finRange j) hi hj hr⟩
    · rw [Finset.sum_update_of_mem (Finset.mem_univ l), ← Finset.sum_sdiff (Finset.subset_univ {l})]
      rw [Finset.sum_singleton, Function.update_self]; ring
    · intro i hi
      have hil : i ≠ l := by rintro rfl; rw [hn] at hi; exact absurd hi (by simp)
      beta_reduce
      rw [Function.update_of_ne hil, Function.update_of_ne hil, h1 i (Or.inr hi), h0 i hi]
    · intro i hi hil
      beta_reduce
      rw [Function.update_of_ne hil, Function.update_of_ne hil, h2 i (List.mem_finRange i) hi]

theorem good_iff (constr : List (Fin m → ℤ)) (e : Fin m → ℚ) : good constr e = true ↔ ∀ c ∈ constr, Regulates e c := by
  unfold good Regulates
  simp

theorem needed_iff (constr : List (Fin m → ℤ)) (i : Fin m) : needed constr i = false ↔ ∀ c ∈ constr, c i = 0 := by
  unfold needed
  simp

/-- Everything about the result of the search, from any starting point. -/
theorem search_valid (constr : List (Fin m → ℤ)) (fuel : ℕ) (exp : Fin m → ℚ) (nzero : ℤ)
    (h0 : ∀ i, needed constr i = false → exp i = 0) (e : Fin m → ℚ) (h : search constr fuel exp nzero = some (.ok e)) :
    (∀ c ∈ constr, Regulates e c) ∧ ∑ i, e i = 0 ∧ ∀ i, (∀ c ∈ constr, c i = 0) → e i = 0 := by
  induction fuel generalizing exp nzero with
  | zero => simp [search] at h
  | succ fuel ih =>
    rcases attempt_spec constr exp nzero h0 with ⟨ha, -⟩ | ⟨e', l, ha, -, h1, h2, -⟩
    · simp [search, ha] at h
    · unfold search at h
      rw [ha] at h
      dsimp only at h
      by_cases hg : good constr e' = true
      · rw [if_pos hg] at h
        cases h
        exact ⟨(good_iff _ _).1 hg, h1, fun i hi => h2 i ((needed_iff _ _).2 hi)⟩
      · rw [if_neg hg] at h
        exact ih e' _ h2 h

/-- Different primes: `∑ a_i / p_i` does not vanish if some `a_i` is not divisible by `p_i`. -/
theorem sum_primes {ι : Type} [DecidableEq ι] (s : Finset ι) (a : ι → ℤ) (p : ι → ℕ) (hp : ∀ i ∈ s, (p i).Prime)
    (hinj : ∀ i ∈ s, ∀ j ∈ s, p i = p j → i = j) (i : ι) (hi : i ∈ s) (hd : ¬ (p i : ℤ) ∣ a i) :
    ∑ j ∈ s, (a j : ℚ) * (1 / (p j : ℚ)) ≠ 0 := by
  intro h
  have hne : ∀ j ∈ s, (p j : ℚ) ≠ 0 := fun j hj => by exact_mod_cast (hp j hj).ne_zero
  have h1 : ∑ j ∈ s, (a j : ℚ) * ((∏ k ∈ s.erase j, (p k : ℚ))) = 0 := by
    have : (∏ k ∈ s, (p k : ℚ)) * ∑ j ∈ s, (a j : ℚ) * (1 / (p j : ℚ)) = ∑ j ∈ s, (a j : ℚ) * ((∏ k ∈ s.erase j, (p k : ℚ))) := by
      rw [Finset.mul_sum]
      refine Finset.sum_congr rfl fun j hj => ?_
      rw [← Finset.mul_prod_erase s _ hj]
      have := hne j hj
      field_simp
    rw [← this, h, mul_zero]
  have h2 : ∑ j ∈ s, a j * ∏ k ∈ s.erase j, (p k : ℤ) = 0 := by exact_mod_cast h1
  rw [← Finset.add_sum_erase s _ hi] at h2
  have h3 : (p i : ℤ) ∣ ∑ j ∈ s.erase i, a j * ∏ k ∈ s.erase j, (p k : ℤ) := by
    refine Finset.dvd_sum fun j hj => ?_
    have hji := Finset.ne_of_mem_erase hj
    exact Dvd.dvd.mul_left (Finset.dvd_prod_of_mem (fun k => (p k : ℤ)) (Finset.mem_erase.2 ⟨hji.symm, hi⟩)) _
  have h4 : (p i : ℤ) ∣ a i * ∏ k ∈ s.erase i, (p k : ℤ) := by
    rw [eq_neg_of_add_eq_zero_left h2]
    exact (dvd_neg).2 h3
  have hpi : _root_.Prime (p i : ℤ) := Nat.prime_iff_prime_int.1 (hp i hi)
  rcases hpi.dvd_or_dvd h4 with h5 | h5
  · exact hd h5
  · rw [hpi.dvd_finset_prod_iff] at h5
    obtain ⟨k, hk, h6⟩ := h5
    have h7 := (Nat.prime_dvd_prime_iff_eq (hp i hi) (hp k (Finset.mem_of_mem_erase hk))).1 (by exact_mod_cast h6)
    exact Finset.ne_of_mem_erase hk (hinj i hi k (Finset.mem_of_mem_erase hk) h7).symm

/-- With large enough primes, an iteration succeeds. -/
theorem attempt_good (constr : List (Fin m → ℤ)) (exp : Fin m → ℚ) (h0 : ∀ i, needed constr i = false → exp i = 0)
    (hne : constr ≠ [])
    (hc : ∀ c ∈ constr, ∃ i j, needed constr i = true ∧ needed constr j = true ∧ c i ≠ c j) (nzero : ℤ) (B : ℕ)
    (hB : ∀ c ∈ constr, ∀ i j, (c i - c j).natAbs ≤ B) (hz : nzero ≤ -(B + 1 : ℕ)) :
    ∃ e, attempt constr exp nzero = some e ∧ good constr e = true := by
  rcases attempt_spec constr exp nzero h0 with ⟨-, ha⟩ | ⟨e, l, ha, hl, h1, h2, r, h3, h4⟩
  · obtain ⟨c, hcm⟩ := List.exists_mem_of_ne_nil constr hne
    obtain ⟨i, -, hi, -⟩ := hc c hcm
    rw [ha i] at hi
    exact absurd hi (by simp)
  · refine ⟨e, ha, (good_iff _ _).2 fun c hcm => ?_⟩
    unfold Regulates
    set s : Finset (Fin m) := Finset.univ.filter fun i => needed constr i = true ∧ i ≠ l with hs
    set p : Fin m → ℕ := fun i => Nat.nth Nat.Prime ((-nzero + r i).toNat - 1) with hp
    have hinf := Nat.infinite_setOfPred_prime
    have e1 : ∑ i, (c i : ℚ) * e i = ∑ i, ((c i - c l : ℤ) : ℚ) * e i := by
      have : ∑ i, ((c i - c l : ℤ) : ℚ) * e i = ∑ i, (c i : ℚ) * e i - (c l : ℚ) * ∑ i, e i := by
        rw [Finset.mul_sum, ← Finset.sum_sub_distrib]
        exact Finset.sum_congr rfl fun i _ => by push_cast; ring
      rw [this, h1]; ring
    have e2 : ∑ i, ((c i - c l : ℤ) : ℚ) * e i = ∑ i ∈ s, ((c i - c l : ℤ) : ℚ) * (1 / (p i : ℚ)) := by
      rw [hs, Finset.sum_filter]
      refine Finset.sum_congr rfl fun i _ => ?_
      by_cases hi : needed constr i = true ∧ i ≠ l
      · rw [if_pos hi, h3 i hi.1 hi.2, value_eq _ (by omega)]
      · rw [if_neg hi]
        by_cases hil : i = l
        · rw [hil]; simp
        · rw [h2 i (by simpa [hil] using hi), mul_zero]
    rw [e1, e2]
    obtain ⟨i, j, hi, hj, hij⟩ := hc c hcm
    obtain ⟨k, hk, hkl⟩ : ∃ k, needed constr k = true ∧ c k ≠ c l := by
      by_cases h : c i = c l
      · exact ⟨j, hj, fun h' => hij (h.trans h'.symm)⟩
      · exact ⟨i, hi, h⟩
    refine sum_primes s _ p (fun i _ => Nat.prime_nth_prime _) ?_ k ?_ ?_
    · intro i hi j hj hpij
      have := Nat.nth_injective hinf hpij
      have hi' := (Finset.mem_filter.1 hi).2
      have hj' := (Finset.mem_filter.1 hj).2
      exact h4 i j hi'.1 hj'.1 (by omega)
    · exact Finset.mem_filter.2 ⟨Finset.mem_univ _, hk, fun h => hkl (by rw [h])⟩
    · intro hd
      have h5 := Int.natAbs_dvd_natAbs.2 hd
      have h6 : (c k - c l).natAbs ≠ 0 := by simpa [sub_eq_zero] using hkl
      have h7 := Nat.le_of_dvd (Nat.pos_of_ne_zero h6) h5
      have h8 := Nat.add_two_le_nth_prime ((-nzero + r k).toNat - 1)
      have h9 := hB c hcm k l
      simp only [Int.natAbs_natCast] at h7
      simp only [hp] at h7
      omega

/-- The loop comes to the iteration `n`, or has ended before. -/
theorem search_reaches (constr : List (Fin m → ℤ)) (hnd : ∃ i, needed constr i = true) (n : ℕ) (exp : Fin m → ℚ) (nzero : ℤ)
    (h0 : ∀ i, needed constr i = false → exp i = 0)
    (hgood : ∀ exp', (∀ i, needed constr i = false → exp' i = 0) → ∃ e, attempt constr exp' (nzero - n) = some e ∧ good constr e = true) :
    ∃ e, search constr (n + 1) exp nzero = some (.ok e) := by
  induction n generalizing exp nzero with
  | zero =>
    obtain ⟨e, h1, h2⟩ := hgood exp h0
    rw [Nat.cast_zero, sub_zero] at h1
    exact ⟨e, by rw [search, h1]; simp [h2]⟩
  | succ n ih =>
    rcases attempt_spec constr exp nzero h0 with ⟨-, ha⟩ | ⟨e, l, ha, hl, h1, h2, -⟩
    · obtain ⟨i, hi⟩ := hnd
      rw [ha i] at hi
      exact absurd hi (by simp)
    · by_cases hg : good constr e = true
      · exact ⟨e, by rw [search, ha]; simp [hg]⟩
      · obtain ⟨e', h'⟩ := ih e (nzero - 1) h2 (by
          intro exp' he'
          have := hgood exp' he'
          rw [show nzero - 1 - (n : ℤ) = nzero - ((n + 1 : ℕ) : ℤ) by push_cast; ring]
          exact this)
        exact ⟨e', by rw [search, ha]; simpa [hg] using h'⟩

theorem search_mono (constr : List (Fin m → ℤ)) (fuel : ℕ) (exp : Fin m → ℚ) (nzero : ℤ) (x : Except Err (Fin m → ℚ))
    (h : search constr fuel exp nzero = some x) : search constr (fuel + 1) exp nzero = some x := by
  induction fuel generalizing exp nzero with
  | zero => simp [search] at h
  | succ fuel ih =>
    unfold search at h ⊢
    cases ha : attempt constr exp nzero with
    | none => rw [ha] at h; exact h
    | some e =>
      rw [ha] at h
      dsimp only at h ⊢
      split at h
      · rw [if_pos (by assumption)]; exact h
      · rw [if_neg (by assumption)]; exact ih _ _ h

theorem needed_true (constr : List (Fin m → ℤ)) (i : Fin m) : needed constr i = true ↔ ∃ c ∈ constr, c i ≠ 0 := by
  unfold needed
  simp

/-- C52: the exponents that are returned regulate all the constraints, their sum is zero, and only variables that occur in
a constraint get one. -/
theorem C52_valid (constr : List (Fin m → ℤ)) (fuel : ℕ) (e : Fin m → ℚ)
    (h : search constr fuel (fun _ => 0) m = some (.ok e)) :
    (∀ c ∈ constr, Regulates e c) ∧ ∑ i, e i = 0 ∧ ∀ i, (∀ c ∈ constr, c i = 0) → e i = 0 :=
  search_valid constr fuel _ _ (fun _ _ => rfl) e h

/-- C52: the search is complete.  It ends with exponents if and only if there are exponents (of the variables that occur in
a constraint, with vanishing sum) which regulate all the constraints. -/
theorem C52_complete (constr : List (Fin m → ℤ)) (hne : constr ≠ []) :
    (∃ fuel e, search constr fuel (fun _ => 0) m = some (.ok e)) ↔
      ∃ e : Fin m → ℚ, (∀ c ∈ constr, Regulates e c) ∧ ∑ i, e i = 0 ∧ ∀ i, (∀ c ∈ constr, c i = 0) → e i = 0 := by
  constructor
  · rintro ⟨fuel, e, h⟩
    exact ⟨e, C52_valid constr fuel e h⟩
  · rintro ⟨e, h1, h2, h3⟩
    have hc : ∀ c ∈ constr, ∃ i j, needed constr i = true ∧ needed constr j = true ∧ c i ≠ c j := by
      intro c hcm
      by_contra hcon
      push Not at hcon
      apply h1 c hcm
      by_cases hex : ∃ l, needed constr l = true
      · obtain ⟨l, hl⟩ := hex
        have : ∑ i, (c i : ℚ) * e i = ∑ i, (c l : ℚ) * e i := by
          refine Finset.sum_congr rfl fun i _ => ?_
          by_cases hi : needed constr i = true
          · rw [hcon i l hi hl]
          · rw [h3 i ((needed_iff _ _).1 (by simpa using hi)), mul_zero, mul_zero]
        rw [this, ← Finset.mul_sum, h2, mul_zero]
      · push Not at hex
        exact Finset.sum_eq_zero fun i _ => by
          rw [h3 i ((needed_iff _ _).1 (by simpa using hex i)), mul_zero]
    obtain ⟨B, hB⟩ : ∃ B : ℕ, ∀ c ∈ constr, ∀ i j, (c i - c j).natAbs ≤ B := by
      clear h1 h2 h3 hc hne
      induction constr with
      | nil => exact ⟨0, by simp⟩
      | cons c l ih =>
        obtain ⟨B, hB⟩ := ih
        refine ⟨max B (∑ i, ∑ j, (c i - c j).natAbs), ?_⟩
        intro c' hc' i j
        rcases List.mem_cons.1 hc' with rfl | hc'
        · refine le_trans ?_ (le_max_right _ _)
          refine le_trans ?_ (Finset.single_le_sum (f := fun i => ∑ j, (c' i - c' j).natAbs) (fun _ _ => Nat.zero_le _) (Finset.mem_univ i))
          exact Finset.single_le_sum (f := fun j => (c' i - c' j).natAbs) (fun _ _ => Nat.zero_le _) (Finset.mem_univ j)
        · exact le_trans (hB c' hc' i j) (le_max_left _ _)
    obtain ⟨c, hcm⟩ := List.exists_mem_of_ne_nil constr hne
    obtain ⟨i, -, hi, -⟩ := hc c hcm
    obtain ⟨e', he'⟩ := search_reaches constr ⟨i, hi⟩ (m + B + 1) (fun _ => 0) m (fun _ _ => rfl) fun exp' hexp =>
      attempt_good constr exp' hexp hne hc _ B hB (by push_cast; omega)
    exact ⟨_, e', he'⟩

/-! ### the constraints -/

theorem mem_internal (all : List (Fin m → ℤ)) (f : Fin m → ℤ) : f ∈ internal all ↔ f ∈ all ∧ -f ∈ all := by
  unfold internal
  simp only [List.mem_filter, List.any_eq_true, decide_eq_true_eq]
  refine and_congr_right fun _ => ⟨?_, fun h => ⟨-f, h, (neg_neg f).symm⟩⟩
  rintro ⟨g, hg, rfl⟩
  rwa [neg_neg]

theorem mem_zeroFacets (l : List (Facet m)) (f : Fin m → ℤ) : f ∈ zeroFacets l ↔ (f, 0) ∈ l := by
  unfold zeroFacets
  simp only [List.mem_map, List.mem_filter, decide_eq_true_eq, Prod.exists, exists_and_right, exists_eq_right]

theorem mem_flatten_zero (Ps : List (List (Facet m))) (f : Fin m → ℤ) :
    f ∈ (Ps.map zeroFacets).flatten ↔ ∃ P ∈ Ps, (f, 0) ∈ P := by
  simp only [List.mem_flatten, List.mem_map]
  constructor
  · rintro ⟨l, ⟨P, hP, rfl⟩, hf⟩; exact ⟨P, hP, (mem_zeroFacets P f).1 hf⟩
  · rintro ⟨P, hP, hf⟩; exact ⟨_, ⟨P, hP, rfl⟩, (mem_zeroFacets P f).2 hf⟩

theorem firstPositive_neg (f : Fin m → ℤ) (h : firstPositive f = some false) : firstPositive (-f) = some true := by
  unfold firstPositive at h ⊢
  have : ((List.finRange m).map (-f)).filter (fun z => z ≠ 0) = (((List.finRange m).map f).filter fun z => z ≠ 0).map (fun z => -z) := by
    induction List.finRange m with
    | nil => rfl
    | cons a l ih =>
      by_cases ha : f a = 0
      · rw [List.map_cons, List.map_cons, List.filter_cons_of_neg (by simp [ha]), List.filter_cons_of_neg (by simp [ha]), ih]
      · rw [List.map_cons, List.map_cons, List.filter_cons_of_pos (by simp [ha]), List.filter_cons_of_pos (by simp [ha]), ih]
        rfl
  rw [this, List.head?_map]
  cases hh : (((List.finRange m).map f).filter fun z => z ≠ 0).head? with
  | none => rw [hh] at h; simp at h
  | some z =>
    rw [hh] at h
    have hz : z ≠ 0 := by
      have := List.mem_of_mem_head? hh
      simpa using (List.mem_filter.1 this).2
    simp at h ⊢
    omega

theorem firstPositive_neg' (f : Fin m → ℤ) (h : firstPositive f = some true) : firstPositive (-f) ≠ some true := by
  unfold firstPositive at *
  have hl : (((List.finRange m).map (-f)).filter fun z => z ≠ 0) = (((List.finRange m).map f).filter fun z => z ≠ 0).map fun z => -z := by
    rw [List.filter_map, List.filter_map, List.map_map]
    congr 1
    apply List.filter_congr
    intro i _
    simp
  rw [hl, List.head?_map, Option.map_map]
  rw [Option.map_eq_some_iff] at h
  obtain ⟨z, hz, hp⟩ := h
  rw [hz]
  simp at hp ⊢
  omega

theorem firstPositive_some (f : Fin m → ℤ) (h : f ≠ 0) : ∃ b, firstPositive f = some b := by
  unfold firstPositive
  obtain ⟨i, hi⟩ := Function.ne_iff.1 h
  cases hh : (((List.finRange m).map f).filter fun z => z ≠ 0) with
  | nil =>
    have : f i ∈ (((List.finRange m).map f).filter fun z => z ≠ 0) :=
      List.mem_filter.2 ⟨List.mem_map.2 ⟨i, List.mem_finRange i, rfl⟩, by simpa using hi⟩
    rw [hh] at this; simp at this
  | cons a l => exact ⟨_, rfl⟩

/-- The selection of one of the two directions. -/
theorem select_spec (l : List (Fin m → ℤ)) (h0 : ∀ f ∈ l, f ≠ 0) :
    ∃ s, select l = some s ∧ ∀ f, f ∈ s ↔ f ∈ l ∧ firstPositive f = some true := by
  induction l with
  | nil => exact ⟨[], rfl, by simp⟩
  | cons a l ih =>
    obtain ⟨s, h1, h2⟩ := ih fun f hf => h0 f (by simp [hf])
    obtain ⟨b, hb⟩ := firstPositive_some a (h0 a (by simp))
    unfold select at h1 ⊢
    rw [Option.map_eq_some_iff] at h1
    obtain ⟨t, ht, rfl⟩ := h1
    refine ⟨(((a, b) :: t).filter fun x => x.2).map Prod.fst, ?_, ?_⟩
    · rw [List.mapM_cons, hb, ht]; rfl
    · intro f
      cases b
      · rw [List.filter_cons_of_neg (by simp), h2]
        constructor
        · rintro ⟨hf, hp⟩; exact ⟨by simp [hf], hp⟩
        · rintro ⟨hf, hp⟩
          rcases List.mem_cons.1 hf with rfl | hf
          · rw [hb] at hp; simp at hp
          · exact ⟨hf, hp⟩
      · rw [List.filter_cons_of_pos (by simp), List.map_cons, List.mem_cons, h2]
        constructor
        · rintro (rfl | ⟨hf, hp⟩)
          · exact ⟨by simp, hb⟩
          · exact ⟨by simp [hf], hp⟩
        · rintro ⟨hf, hp⟩
          rcases List.mem_cons.1 hf with rfl | hf
          · exact Or.inl rfl
          · exact Or.inr ⟨hf, hp⟩

theorem regulates_neg (e : Fin m → ℚ) (f : Fin m → ℤ) : Regulates e (-f) ↔ Regulates e f := by
  unfold Regulates
  have : ∑ i, (((-f) i : ℤ) : ℚ) * e i = -∑ i, (f i : ℚ) * e i := by
    rw [← Finset.sum_neg_distrib]
    exact Finset.sum_congr rfl fun i _ => by simp
  rw [this, neg_ne_zero]

variable {oracle : (k : ℕ) → List (Fin k → ℤ) → List (Facet k)} {p : Fin (m+1)} {vertices : List (Fin (m+1) → ℤ)}
    {powers : Fin (m+1) → ℚ} {half order : ℚ}

/-- The result of `constraints`. -/
theorem constraints_spec (h0 : ∀ f, Internal (regionPolytopes oracle p vertices powers half order) f → f ≠ 0) :
    (constraints oracle p vertices powers half order = .error .noRegion ∧ regionPolytopes oracle p vertices powers half order = []) ∨
    ∃ s : List (Fin m → ℤ), constraints oracle p vertices powers half order =
        .ok ((regionPolytopes oracle p vertices powers half order).map (fun P => ((zeroFacets P).filter fun f =>
          (internal ((regionPolytopes oracle p vertices powers half order).map zeroFacets).flatten).any fun g => f = g).map (insertZero p)),
          s.map (insertZero p)) ∧
      ∀ f, f ∈ s ↔ Internal (regionPolytopes oracle p vertices powers half order) f ∧ firstPositive f = some true := by
  set Ps := regionPolytopes oracle p vertices powers half order with hPs
  have hint : ∀ f, f ∈ internal (Ps.map zeroFacets).flatten ↔ Internal Ps f := by
    intro f
    rw [mem_internal, mem_flatten_zero, mem_flatten_zero]; rfl
  have hfs : (regions p powers half order (oracle (m+1) vertices)).map (fun r => zeroFacets (oracle m (regionVertices p vertices r))) =
      Ps.map zeroFacets := by
    rw [hPs, regionPolytopes, List.map_map]; rfl
  obtain ⟨s, hs1, hs2⟩ := select_spec (internal (Ps.map zeroFacets).flatten) fun f hf => h0 f ((hint f).1 hf)
  unfold constraints
  dsimp only
  rw [hfs]
  by_cases he : Ps = []
  · left
    rw [he]; exact ⟨rfl, rfl⟩
  · right
    rw [if_neg (by simpa using he), hs1]
    refine ⟨s, ?_, fun f => by rw [hs2, hint]⟩
    dsimp only
    rw [List.map_map]; rfl

/-- C52: the constraints of a region are its internal facets (with a zero for the small parameter), the entry `all` has one
of the two normals of every internal facet; so exponents regulate the constraints in `all` if and only if they regulate all
the internal facets of all the regions. -/
theorem C52_constraints (h0 : ∀ f, Internal (regionPolytopes oracle p vertices powers half order) f → f ≠ 0)
    (hne : regionPolytopes oracle p vertices powers half order ≠ []) :
    ∃ regs all, constraints oracle p vertices powers half order = .ok (regs, all) ∧
      List.Forall₂ (fun P l => ∀ f, f ∈ l ↔ ∃ g, f = p.insertNth (0 : ℤ) g ∧ (g, 0) ∈ P ∧
        Internal (regionPolytopes oracle p vertices powers half order) g) (regionPolytopes oracle p vertices powers half order) regs ∧
      (∀ f ∈ all, ∃ g, f = p.insertNth (0 : ℤ) g ∧ Internal (regionPolytopes oracle p vertices powers half order) g) ∧
      (∀ g, Internal (regionPolytopes oracle p vertices powers half order) g →
        (p.insertNth (0 : ℤ) g ∈ all ↔ p.insertNth (0 : ℤ) (-g) ∉ all)) ∧
      ∀ e : Fin (m+1) → ℚ, (∀ f ∈ all, Regulates e f) ↔ ∀ l ∈ regs, ∀ f ∈ l, Regulates e f := by
  have hcs := constraints_spec h0
  set Ps := regionPolytopes oracle p vertices powers half order with hPs
  rcases hcs with ⟨-, h⟩ | ⟨s, hs1, hs2⟩
  · exact absurd h hne
  · have hint : ∀ f, f ∈ internal (Ps.map zeroFacets).flatten ↔ Internal Ps f := by
      intro f
      rw [mem_internal, mem_flatten_zero, mem_flatten_zero]; rfl
    have hmem : ∀ P : List (Facet m), ∀ f, f ∈ ((zeroFacets P).filter fun f => (internal (Ps.map zeroFacets).flatten).any fun g => f = g).map (insertZero p) ↔
        ∃ g, f = p.insertNth (0 : ℤ) g ∧ (g, 0) ∈ P ∧ Internal Ps g := by
      intro P f
      simp only [List.mem_map, List.mem_filter, List.any_eq_true, decide_eq_true_eq, mem_zeroFacets]
      constructor
      · rintro ⟨g, ⟨h1, g', h2, rfl⟩, rfl⟩
        exact ⟨_, rfl, h1, (hint _).1 h2⟩
      · rintro ⟨g, rfl, h1, h2⟩
        exact ⟨g, ⟨h1, g, (hint g).2 h2, rfl⟩, rfl⟩
    refine ⟨_, _, hs1, ?_, ?_, ?_, ?_⟩
    · rw [List.forall₂_map_right_iff, List.forall₂_same]
      intro P _ f
      exact hmem P f
    · intro f hf
      obtain ⟨g, hg, rfl⟩ := List.mem_map.1 hf
      exact ⟨g, rfl, ((hs2 g).1 hg).1⟩
    · intro g hg
      have hg' : Internal Ps (-g) := ⟨hg.2, by rw [neg_neg]; exact hg.1⟩
      have hin : ∀ g : Fin m → ℤ, p.insertNth (0 : ℤ) g ∈ s.map (insertZero p) ↔ g ∈ s := by
        intro g
        rw [List.mem_map]
        constructor
        · rintro ⟨g', h, he⟩
          have : g' = g := by
            funext i
            have := congrFun he (p.succAbove i)
            simpa [insertZero] using this
          exact this ▸ h
        · exact fun h => ⟨g, h, rfl⟩
      rw [hin, hin, hs2, hs2]
      obtain ⟨b, hb⟩ := firstPositive_some g (h0 g hg)
      cases b
      · simp [hb, hg', firstPositive_neg g hb]
      · simp [hb, hg, firstPositive_neg' g hb]
    · intro e
      have hneg : ∀ g : Fin m → ℤ, insertZero p (-g) = -insertZero p g := by
        intro g
        unfold insertZero
        funext i
        refine Fin.succAboveCases p ?_ (fun j => ?_) i
        · simp
        · simp
      constructor
      · intro h l hl f hf
        rw [List.mem_map] at hl
        obtain ⟨P, hP, rfl⟩ := hl
        obtain ⟨g, rfl, -, hg⟩ := (hmem P f).1 hf
        obtain ⟨b, hb⟩ := firstPositive_some g (h0 g hg)
        cases b
        · have hg' : Internal Ps (-g) := ⟨hg.2, by rw [neg_neg]; exact hg.1⟩
          have := h (insertZero p (-g)) (List.mem_map.2 ⟨-g, (hs2 _).2 ⟨hg', firstPositive_neg g hb⟩, rfl⟩)
          rw [hneg, regulates_neg] at this
          exact this
        · exact h (insertZero p g) (List.mem_map.2 ⟨g, (hs2 g).2 ⟨hg, hb⟩, rfl⟩)
      · intro h f hf
        rw [List.mem_map] at hf
        obtain ⟨g, hg, rfl⟩ := hf
        obtain ⟨⟨P, hP, h1⟩, h2⟩ := ((hs2 g).1 hg).1
        exact h _ (List.mem_map.2 ⟨P, hP, rfl⟩) _ ((hmem P _).2 ⟨g, rfl, h1, ⟨P, hP, h1⟩, h2⟩)

/-- An internal facet has normal components of both signs. -/
theorem internal_signs {Ps : List (List (Facet m))} {f : Fin m → ℤ} (hI : Internal Ps f)
    (hv : ∀ P ∈ Ps, ∃ V : List (Fin m → ℤ), (∀ v ∈ V, ∀ i, 0 ≤ v i) ∧ Proper V P) : (∃ i, 0 < f i) ∧ ∃ i, f i < 0 := by
  have key : ∀ g : Fin m → ℤ, (∃ P ∈ Ps, (g, 0) ∈ P) → ∃ i, 0 < g i := by
    rintro g ⟨P, hP, hg⟩
    obtain ⟨V, h1, h2⟩ := hv P hP
    obtain ⟨-, v, hvm, h3⟩ := h2 _ hg
    by_contra hcon
    push Not at hcon
    have : ∑ i, v i * g i ≤ 0 := Finset.sum_nonpos fun i _ => mul_nonpos_of_nonneg_of_nonpos (h1 v hvm i) (hcon i)
    simp only [Facet.at] at h3
    omega
  refine ⟨key f hI.1, ?_⟩
  obtain ⟨i, hi⟩ := key (-f) hI.2
  exact ⟨i, by simpa using hi⟩

/-- C52: for a polynomial with nonnegative exponents, if the facets of the polytopes of the regions are proper, then the
function ends.  Either it returns `None` and there is no internal facet, or the exponents it returns have the sum zero and
regulate all the internal facets of all the regions. -/
theorem C52_suggested (hnn : ∀ v ∈ vertices, ∀ i, 0 ≤ v i)
    (hproper : ∀ r ∈ regions (Fin.last m) powers half order (oracle (m+1) vertices),
      Proper (regionVertices (Fin.last m) vertices r) (oracle m (regionVertices (Fin.last m) vertices r))) :
    (∃ fuel, suggested oracle vertices powers half order fuel = some (.ok none) ∧
      ∀ f, ¬ Internal (regionPolytopes oracle (Fin.last m) vertices powers half order) f) ∨
    ∃ fuel e, suggested oracle vertices powers half order fuel = some (.ok (some e)) ∧ ∑ i, e i = 0 ∧
      ∀ f, Internal (regionPolytopes oracle (Fin.last m) vertices powers half order) f → Regulates e f := by
  have hv : ∀ P ∈ regionPolytopes oracle (Fin.last m) vertices powers half order, ∃ V : List (Fin m → ℤ), (∀ v ∈ V, ∀ i, 0 ≤ v i) ∧ Proper V P := by
    intro P hP
    obtain ⟨r, hr, rfl⟩ := List.mem_map.1 hP
    refine ⟨_, ?_, hproper r hr⟩
    intro v hvm i
    obtain ⟨w, hw, rfl⟩ := List.mem_map.1 hvm
    exact hnn w (List.mem_filter.1 hw).1 _
  have h0 : ∀ f, Internal (regionPolytopes oracle (Fin.last m) vertices powers half order) f → f ≠ 0 := by
    rintro f hf rfl
    obtain ⟨⟨i, hi⟩, -⟩ := internal_signs hf hv
    simp at hi
  have hcs := constraints_spec h0
  set Ps := regionPolytopes oracle (Fin.last m) vertices powers half order with hPs
  rcases hcs with ⟨h1, h2⟩ | ⟨s, h1, h2⟩
  · left
    refine ⟨0, by unfold suggested; rw [h1], ?_⟩
    rw [h2]
    rintro f ⟨⟨P, hP, -⟩, -⟩
    simp at hP
  · have hsel : ∀ f, Internal Ps f → f ∈ s ∨ -f ∈ s := by
      intro f hf
      obtain ⟨b, hb⟩ := firstPositive_some f (h0 f hf)
      cases b
      · exact Or.inr ((h2 _).2 ⟨⟨hf.2, by rw [neg_neg]; exact hf.1⟩, firstPositive_neg f hb⟩)
      · exact Or.inl ((h2 f).2 ⟨hf, hb⟩)
    have hinit : (s.map (insertZero (Fin.last m))).map (fun c => Fin.init c) = s := by
      rw [List.map_map]
      conv_rhs => rw [← List.map_id s]
      refine List.map_congr_left fun f _ => ?_
      funext i
      simp [insertZero, Fin.init]
    by_cases hs : s = []
    · left
      refine ⟨0, ?_, ?_⟩
      · unfold suggested; rw [h1, hs]; rfl
      · intro f hf
        rw [hs] at hsel
        simpa using hsel f hf
    · right
      have hc : ∀ c ∈ s, (∃ i, 0 < c i) ∧ ∃ i, c i < 0 := fun c hcm => internal_signs ((h2 c).1 hcm).1 hv
      have hval : ∃ fuel e, search s fuel (fun _ => 0) m = some (.ok e) := by
        obtain ⟨B, hB⟩ : ∃ B : ℕ, ∀ c ∈ s, ∀ i j, (c i - c j).natAbs ≤ B := by
          clear hc hsel hinit h1 h2 hs
          induction s with
          | nil => exact ⟨0, by simp⟩
          | cons c l ih =>
            obtain ⟨B, hB⟩ := ih
            refine ⟨max B (∑ i, ∑ j, (c i - c j).natAbs), ?_⟩
            intro c' hc' i j
            rcases List.mem_cons.1 hc' with rfl | hc'
            · refine le_trans ?_ (le_max_right _ _)
              refine le_trans ?_ (Finset.single_le_sum (f := fun i => ∑ j, (c' i - c' j).natAbs) (fun _ _ => Nat.zero_le _) (Finset.mem_univ i))
              exact Finset.single_le_sum (f := fun j => (c' i - c' j).natAbs) (fun _ _ => Nat.zero_le _) (Finset.mem_univ j)
            · exact le_trans (hB c' hc' i j) (le_max_left _ _)
        have hc' : ∀ c ∈ s, ∃ i j, needed s i = true ∧ needed s j = true ∧ c i ≠ c j := by
          intro c hcm
          obtain ⟨⟨i, hi⟩, j, hj⟩ := hc c hcm
          exact ⟨i, j, (needed_true s i).2 ⟨c, hcm, hi.ne'⟩, (needed_true s j).2 ⟨c, hcm, hj.ne⟩, by omega⟩
        obtain ⟨c, hcm⟩ := List.exists_mem_of_ne_nil s hs
        obtain ⟨i, -, hi, -⟩ := hc' c hcm
        obtain ⟨e', he'⟩ := search_reaches s ⟨i, hi⟩ (m + B + 1) (fun _ => 0) m (fun _ _ => rfl) fun exp' hexp =>
          attempt_good s exp' hexp hs hc' _ B hB (by push_cast; omega)
        exact ⟨_, e', he'⟩
      obtain ⟨fuel, e, he⟩ := hval
      obtain ⟨v1, v2, -⟩ := C52_valid s fuel e he
      refine ⟨fuel, e, ?_, v2, ?_⟩
      · unfold suggested
        rw [h1]
        dsimp only
        rw [if_neg (by simpa using hs), hinit, he]
        rfl
      · intro f hf
        rcases hsel f hf with h | h
        · exact v1 f h
        · exact (regulates_neg e f).1 (v1 _ h)

/-- C52, a defect for other constraints: a constraint on a single variable is never satisfied, the loop does not end, although
the exponents `(1, -1)` would do. -/
theorem C52_endless_defect (fuel : ℕ) :
    search [(![1, 0] : Fin 2 → ℤ)] fuel (fun _ => 0) 2 = none ∧ Regulates ![1, -1] (![1, 0] : Fin 2 → ℤ) := by
  refine ⟨?_, by simp [Regulates, Fin.sum_univ_two]⟩
  cases h : search [(![1, 0] : Fin 2 → ℤ)] fuel (fun _ => 0) 2 with
  | none => rfl
  | some x =>
    exfalso
    have hn : ∀ i, needed [(![1, 0] : Fin 2 → ℤ)] i = false ↔ i = 1 := by decide
    have key : ∀ (fuel : ℕ) (exp : Fin 2 → ℚ) (z : ℤ), (∀ i, needed [(![1, 0] : Fin 2 → ℤ)] i = false → exp i = 0) →
        search [(![1, 0] : Fin 2 → ℤ)] fuel exp z = none := by
      intro fuel
      induction fuel with
      | zero => intros; rfl
      | succ fuel ih =>
        intro exp z h0
        rcases attempt_spec [(![1, 0] : Fin 2 → ℤ)] exp z h0 with ⟨-, h1⟩ | ⟨e, l, ha, -, h1, h2, -⟩
        · have := (hn 0).1 (h1 0); simp at this
        · have e1 : e 1 = 0 := h2 1 ((hn 1).2 rfl)
          have e0 : e 0 = 0 := by rw [Fin.sum_univ_two, e1, add_zero] at h1; exact h1
          have hg : good [(![1, 0] : Fin 2 → ℤ)] e = false := by simp [good, Fin.sum_univ_two, e0, e1]
          rw [search, ha]
          simp only [hg]
          exact ih e _ h2
    rw [key fuel (fun _ => 0) 2 (fun _ _ => rfl)] at h
    simp at h

/-! ### The hypotheses can be met

The polynomial `x**2*y + x*y**2 + x*y*t` has two regions, which share an internal facet with the normal `(1, -1)`. -/

def exVertices : List (Fin 3 → ℤ) := [![2, 1, 0], ![1, 2, 0], ![1, 1, 1]]

def exOracle : (k : ℕ) → List (Fin k → ℤ) → List (Facet k)
  | 3, _ => [(![1, 2, 1], -4), (![2, 1, 1], -4)]
  | 2, V => if V = [![2, 1], ![1, 1]] then [(![1, -1], 0)] else [(![-1, 1], 0)]
  | _, _ => []

theorem ex_regions : regions (Fin.last 2) (fun _ => 0) 2 0 (exOracle 3 exVertices) = [(![1, 2, 1], -4), (![2, 1, 1], -4)] := by
  decide +kernel

theorem ex_vertices : regionVertices (Fin.last 2) exVertices (![1, 2, 1], -4) = [![2, 1], ![1, 1]] ∧
    regionVertices (Fin.last 2) exVertices (![2, 1, 1], -4) = [![1, 2], ![1, 1]] := by
  decide +kernel

theorem ex_polytopes : regionPolytopes exOracle (Fin.last 2) exVertices (fun _ => 0) 2 0 = [[(![1, -1], 0)], [(![-1, 1], 0)]] := by
  decide +kernel

theorem ex_proper : ∀ r ∈ regions (Fin.last 2) (fun _ => (0 : ℚ)) 2 0 (exOracle 3 exVertices),
    Proper (regionVertices (Fin.last 2) exVertices r) (exOracle 2 (regionVertices (Fin.last 2) exVertices r)) := by
  rw [ex_regions]
  intro r hr
  simp only [List.mem_cons, List.not_mem_nil, or_false] at hr
  rcases hr with rfl | rfl
  · rw [ex_vertices.1]
    unfold Proper
    decide +kernel
  · rw [ex_vertices.2]
    unfold Proper
    decide +kernel

example : ∃ fuel e, suggested exOracle exVertices (fun _ => 0) 2 0 fuel = some (.ok (some e)) ∧ ∑ i, e i = 0 ∧
    Regulates e ![1, -1] := by
  have hint : Internal (regionPolytopes exOracle (Fin.last 2) exVertices (fun _ => 0) 2 0) ![1, -1] := by
    rw [ex_polytopes]
    unfold Internal
    decide +kernel
  rcases C52_suggested (oracle := exOracle) (vertices := exVertices) (powers := fun _ => 0) (half := 2) (order := 0)
    (by decide +kernel) ex_proper with ⟨-, -, h⟩ | ⟨fuel, e, h1, h2, h3⟩
  · exact absurd hint (h _)
  · exact ⟨fuel, e, h1, h2, h3 _ hint⟩

example : ∃ regs all, constraints exOracle (Fin.last 2) exVertices (fun _ => 0) 2 0 = .ok (regs, all) := by
  obtain ⟨regs, all, h, -⟩ := C52_constraints (oracle := exOracle) (p := Fin.last 2) (vertices := exVertices) (powers := fun _ => 0)
    (half := 2) (order := 0) (by
      rw [ex_polytopes]
      rintro f ⟨⟨P, hP, hf⟩, -⟩
      simp only [List.mem_cons, List.not_mem_nil, or_false] at hP
      rcases hP with rfl | rfl
      · simp only [List.mem_singleton, Prod.mk.injEq, and_true] at hf
        rw [hf]; decide
      · simp only [List.mem_singleton, Prod.mk.injEq, and_true] at hf
        rw [hf]; decide)
    (by rw [ex_polytopes]; simp)
  exact ⟨regs, all, h⟩

example : ∃ fuel e, search [(![1, -1] : Fin 2 → ℤ)] fuel (fun _ => 0) 2 = some (.ok e) :=
  (C52_complete [(![1, -1] : Fin 2 → ℤ)] (by simp)).2 ⟨![1, -1], by simp [Regulates, Fin.sum_univ_two], by simp [Fin.sum_univ_two], by
    intro i hi
    fin_cases i
    · simp at hi
    · simp at hi⟩

end ExtraReg
end SecDec
