import Verif.Spec.Splitting
import Verif.Proof.SplitIntegral
import Verif.Proof.Decomp
import Verif.Proof.PolyCanon
import Mathlib.Data.Nat.Choose.Sum
/-
Property C18: pySecDec/decomposition/splitting.py.
-/
set_option linter.unusedSectionVars false
namespace SecDec.Splitting
open SecDec SecDec.Squash MeasureTheory SecDec.Decomp

variable {n : Nat} {E : Type} {K : Type} [Field K] [DecidableEq K]

theorem binomCoeff_eq (m k : Nat) (h : k ≤ m) : binomCoeff m k = (-1) ^ k * (m.choose k : Int) := by
  unfold binomCoeff
  have h1 : (m.factorial : Int) = m.choose k * k.factorial * (m - k).factorial := by
    rw [← Nat.choose_mul_factorial_mul_factorial h]; push_cast; ring
  have e1 : ((-1 : Int)) ^ k * (m.factorial : Int) =
      ((-1) ^ k * m.choose k * k.factorial) * (m - k).factorial := by rw [h1]; ring
  rw [e1, Int.mul_fdiv_cancel _ (by exact_mod_cast (m - k).factorial_ne_zero),
    Int.mul_fdiv_cancel _ (by exact_mod_cast k.factorial_ne_zero)]

theorem mono_single (x : Fin n → K) (i : Fin n) (k : Nat) :
    Poly.mono x (fun j => if j = i then (k : Int) else 0) = x i ^ k := by
  unfold Poly.mono
  rw [Finset.prod_eq_single i]
  · simp
  · intro b _ hb; simp [hb]
  · simp

theorem eval_binomPoly (i : Fin n) (m : Nat) (x : Fin n → K) :
    (binomPoly i m : Poly n K).eval x = (1 - x i) ^ m := by
  unfold binomPoly Poly.eval
  simp only [List.map_map]
  have : (1 - x i) ^ m = ∑ k ∈ Finset.range (m + 1), (-x i) ^ k * 1 ^ (m - k) * m.choose k := by
    rw [← add_pow]; congr 1; ring
  rw [this, ← List.sum_toFinset _ List.nodup_range, List.toFinset_range]
  · apply Finset.sum_congr rfl
    intro k hk
    simp only [Function.comp, mono_single]
    rw [binomCoeff_eq m k (by simpa [Nat.lt_succ_iff] using hk)]
    push_cast
    rw [neg_pow]
    ring

theorem defined_binomPoly (i : Fin n) (m : Nat) (x : Fin n → K) :
    (binomPoly i m : Poly n K).Defined x := by
  intro t ht j _
  obtain ⟨k, _, rfl⟩ := List.mem_map.1 ht
  simp only
  split_ifs <;> omega

/-- the point with `x_i -> 1 - x_i` for the selected variables -/
def reflect (indices : List (Fin n)) (x : Fin n → K) : Fin n → K :=
  fun i => if i ∈ indices then 1 - x i else x i

theorem foldl_binom (e : Expo n) (x : Fin n → K) (indices : List (Fin n)) (q : Poly n K)
    (hq : q.Defined x) :
    (indices.foldl (fun termpoly i => termpoly.mul (binomPoly i (e i).toNat)) q).Defined x ∧
    (indices.foldl (fun termpoly i => termpoly.mul (binomPoly i (e i).toNat)) q).eval x =
      q.eval x * (indices.map (fun i => (1 - x i) ^ (e i).toNat)).prod := by
  induction indices generalizing q with
  | nil => simp [hq]
  | cons i l ih =>
    have hd := defined_binomPoly i (e i).toNat x
    obtain ⟨h1, h2⟩ := ih (q.mul (binomPoly i (e i).toNat)) (hq.mul hd)
    refine ⟨h1, ?_⟩
    rw [List.foldl_cons, h2, Poly.eval_mul _ _ _ hq hd, eval_binomPoly]
    simp [mul_assoc]

theorem mono_reflect (e : Expo n) (x : Fin n → K) (indices : List (Fin n)) (hnd : indices.Nodup)
    (hnn : ∀ i ∈ indices, 0 ≤ e i) :
    Poly.mono x (fun m => if m ∈ indices then 0 else e m) *
      (indices.map (fun i => (1 - x i) ^ (e i).toNat)).prod = Poly.mono (reflect indices x) e := by
  classical
  unfold Poly.mono
  rw [← List.prod_toFinset _ hnd]
  have h2 : ∏ i ∈ indices.toFinset, (1 - x i) ^ (e i).toNat =
      ∏ i, (if i ∈ indices.toFinset then (1 - x i) ^ (e i).toNat else 1) := by
    rw [Finset.prod_ite_mem, Finset.univ_inter]
  rw [h2, ← Finset.prod_mul_distrib]
  apply Finset.prod_congr rfl
  intro i _
  by_cases hi : i ∈ indices
  · obtain ⟨k, hk⟩ := Int.eq_ofNat_of_zero_le (hnn i hi)
    simp [hi, reflect, hk]
  · simp [hi, reflect]

theorem remapTerm_eval {indices : List (Fin n)} (hnd : indices.Nodup) {t : Expo n × K} {q : Poly n K}
    (h : remapTerm indices t = some q) (x : Fin n → K)
    (hd : ∀ i, i ∉ indices → x i = 0 → 0 ≤ t.1 i) :
    q.eval x = t.2 * Poly.mono (reflect indices x) t.1 := by
  unfold remapTerm at h
  split_ifs at h with hnn
  simp only [Option.some.injEq] at h
  subst h
  have hdef : (⟨[(fun m => if m ∈ indices then 0 else t.1 m, t.2)]⟩ : Poly n K).Defined x := by
    intro u hu i hi
    simp only [List.mem_singleton] at hu
    subst hu
    simp only
    split_ifs with h
    · exact le_refl _
    · exact hd i h hi
  rw [(foldl_binom t.1 x indices _ hdef).2, ← mono_reflect t.1 x indices hnd]
  · simp [Poly.eval, mul_assoc]
  · simpa using hnn

/-- C18: `remap_one_to_zero(p, *indices)` is `p` with `x -> 1 - x` for the selected variables, at
every point of its domain; it fails exactly if a selected variable has a negative power. -/
theorem C18_remap_one_to_zero (p : Poly n K) (indices : List (Fin n)) (hnd : indices.Nodup) :
    (remapOneToZero p indices = none ↔ ∃ t ∈ p.terms, ∃ i ∈ indices, t.1 i < 0) ∧
    ∀ q, remapOneToZero p indices = some q → ∀ x : Fin n → K,
      (∀ t ∈ p.terms, ∀ i, i ∉ indices → x i = 0 → 0 ≤ t.1 i) →
      q.eval x = p.eval (fun i => if i ∈ indices then 1 - x i else x i) := by
  constructor
  · unfold remapOneToZero
    rw [Option.map_eq_none_iff]
    induction p.terms with
    | nil => simp
    | cons t l ih =>
      rw [List.mapM_cons]
      by_cases ht : ∃ i ∈ indices, t.1 i < 0
      · have : remapTerm indices t = none := by
          unfold remapTerm
          rw [if_neg]
          obtain ⟨i, hi, hlt⟩ := ht
          simp only [List.all_eq_true, decide_eq_true_eq, not_forall]
          exact ⟨i, hi, by omega⟩
        rw [this]
        simp only [Option.bind_eq_bind, Option.bind_none, true_iff]
        exact ⟨t, by simp, ht⟩
      · have : ∃ q, remapTerm indices t = some q := by
          unfold remapTerm
          rw [if_pos]
          · exact ⟨_, rfl⟩
          · simp only [List.all_eq_true, decide_eq_true_eq]
            intro i hi
            by_contra hc
            exact ht ⟨i, hi, by omega⟩
        obtain ⟨q, hq⟩ := this
        rw [hq]
        have h1 : (∃ t_1 ∈ t :: l, ∃ i ∈ indices, t_1.1 i < 0) ↔ ∃ t ∈ l, ∃ i ∈ indices, t.1 i < 0 := by
          constructor
          · rintro ⟨u, hu, h⟩
            rcases List.mem_cons.1 hu with rfl | hu
            · exact absurd h ht
            · exact ⟨u, hu, h⟩
          · rintro ⟨u, hu, h⟩
            exact ⟨u, by simp [hu], h⟩
        rw [h1, ← ih]
        cases hm : l.mapM (remapTerm indices) <;> simp
  · intro q h x hd
    unfold remapOneToZero at h
    rw [Option.map_eq_some_iff] at h
    obtain ⟨l, hl, rfl⟩ := h
    rw [Poly.eval_simplify]
    replace hl := mapM_option_forall₂ hl
    change _ = p.eval (reflect indices x)
    unfold Poly.eval
    generalize p.terms = terms at hd hl
    induction hl with
    | nil => simp
    | cons h _ ih =>
      rw [List.flatMap_cons, List.map_append, List.sum_append, List.map_cons, List.sum_cons,
        ih (fun t ht => hd t (by simp [ht]))]
      congr 1
      exact remapTerm_eval hnd h x (hd _ (by simp))

example : (⟨[(![3, -1], (2:ℚ)), (![0, 2], 1)]⟩ : Poly 2 ℚ).terms.all (fun t => decide (0 ≤ t.1 0)) = true := by
  decide

/-! ### singular sets at one -/

theorem eval_indicator (p : Poly n K) (S : List (Fin n)) :
    p.eval (fun i => if i ∈ S then 1 else 0) =
      (⟨p.terms.map (fun t => (zeroCols S t.1, t.2))⟩ : Poly n K).coeffOf 0 := by
  unfold Poly.eval Poly.coeffOf
  simp only
  induction p.terms with
  | nil => simp
  | cons t l ih =>
    rw [List.map_cons, List.sum_cons, ih, List.map_cons, List.filter_cons]
    have hm : Poly.mono (fun i => if i ∈ S then (1:K) else 0) t.1 = if zeroCols S t.1 = 0 then 1 else 0 := by
      unfold Poly.mono
      split_ifs with h
      · apply Finset.prod_eq_one
        intro i _
        by_cases hi : i ∈ S
        · simp [hi]
        · have := congrFun h i
          simp only [zeroCols, hi, if_false, Pi.zero_apply] at this
          simp [hi, this]
      · have : ∃ i, i ∉ S ∧ t.1 i ≠ 0 := by
          by_contra hc
          push Not at hc
          apply h
          funext i
          by_cases hi : i ∈ S
          · simp [zeroCols, hi]
          · simp [zeroCols, hi, hc i hi]
        obtain ⟨i, hi, h0⟩ := this
        apply Finset.prod_eq_zero (Finset.mem_univ i)
        simp [hi, zero_zpow _ h0]
    rw [hm]
    by_cases h : zeroCols S t.1 = 0
    · simp [h]
    · simp [h]

theorem coeffOf_zero_iff (p : Poly n K) :
    p.coeffOf 0 = 0 ↔ (!(p.simplify.hasConstantTerm none) || (match p.simplify.terms with
      | [t] => decide (t.2 = 0)
      | _ => false)) = true := by
  rw [← Poly.coeffOf_simplify p 0]
  have hc : p.simplify.hasConstantTerm none = true ↔ ∃ t ∈ p.simplify.terms, t.1 = 0 := by
    simp only [Poly.hasConstantTerm, List.any_eq_true, List.all_eq_true, beq_iff_eq,
      List.mem_finRange, true_implies]
    constructor
    · rintro ⟨t, ht, h⟩; exact ⟨t, ht, funext h⟩
    · rintro ⟨t, ht, h⟩; exact ⟨t, ht, fun i => by rw [h]; rfl⟩
  rw [Poly.simplify_nz] at *
  split_ifs at * with hz
  · have hz0 : (fun _ => 0 : Expo n) = 0 := rfl
    simp [Poly.zeroPoly, Poly.coeffOf, hz0]
  · have hsorted := Poly.nz_sorted p
    have hne := Poly.nz_ne_zero p
    simp only at hc ⊢
    generalize hl : p.nzTerms = l at *
    by_cases hconst : ∃ t ∈ l, t.1 = 0
    · obtain ⟨t, ht, h0⟩ := hconst
      have hfilter : l.filter (fun t => decide (t.1 = 0)) = [t] := by
        have hp : (l.filter (fun t => decide (t.1 = 0))).Pairwise (fun a b => Poly.KLt a.1 b.1) :=
          hsorted.sublist List.filter_sublist
        have hmem : t ∈ l.filter (fun t => decide (t.1 = 0)) := by simp [ht, h0]
        have hall : ∀ u ∈ l.filter (fun t => decide (t.1 = 0)), u.1 = 0 := by
          intro u hu; simpa using (List.mem_filter.1 hu).2
        cases hf : l.filter (fun t => decide (t.1 = 0)) with
        | nil => rw [hf] at hmem; simp at hmem
        | cons a m =>
          rw [hf] at hp hmem hall
          cases m with
          | nil =>
            rw [List.mem_singleton] at hmem
            rw [hmem]
          | cons b m =>
            exfalso
            have := (List.pairwise_cons.1 hp).1 b (by simp)
            have ha := hall a (by simp)
            have hb := hall b (by simp)
            exact this.2 (by rw [ha, hb])
      have : (⟨l⟩ : Poly n K).coeffOf 0 = t.2 := by
        unfold Poly.coeffOf
        simp only [hfilter]
        simp
      rw [this]
      have hct : (⟨l⟩ : Poly n K).hasConstantTerm none = true := hc.2 ⟨t, ht, h0⟩
      rw [hct]
      simp only [Bool.not_true, Bool.false_or]
      constructor
      · intro h; exact absurd h (hne t ht)
      · intro h
        split at h
        · rename_i u
          rw [List.mem_singleton] at ht
          rw [ht]; simpa using h
        · simp at h
    · have hct : (⟨l⟩ : Poly n K).hasConstantTerm none = false := by
        rw [Bool.eq_false_iff]
        intro h; exact hconst (hc.1 h)
      rw [hct]
      simp only [Bool.not_false, Bool.true_or, iff_true]
      unfold Poly.coeffOf
      have : l.filter (fun t => decide (t.1 = 0)) = [] := by
        rw [List.filter_eq_nil_iff]
        intro t ht h
        exact hconst ⟨t, ht, by simpa using h⟩
      simp only [this]
      rfl

/-- C18: `find_singular_sets_at_one(p)` yields exactly the sets of variables that appear in `p` (in
increasing order) such that `p` vanishes if these variables are set to one and all others to zero. -/
theorem C18_find_singular_sets_at_one (p : Poly n K) (S : List (Fin n)) :
    S ∈ findSingularSetsAtOne p ↔
      S.Pairwise (· < ·) ∧ (∀ i ∈ S, ∃ t ∈ p.terms, t.1 i ≠ 0) ∧
      p.eval (fun i => if i ∈ S then 1 else 0) = 0 := by
  unfold findSingularSetsAtOne
  rw [List.mem_filter, eval_indicator, coeffOf_zero_iff]
  simp only
  rw [← and_assoc]
  apply and_congr_left
  intro _
  obtain ⟨out, ho, hp⟩ := Misc.powerset_perm (indicesToConsider p) 0 1 (by omega)
  rw [ho, Option.getD_some, hp.mem_iff]
  have hsorted : (indicesToConsider p).Pairwise (· < ·) :=
    (List.pairwise_lt_finRange n).sublist List.filter_sublist
  have hmem : ∀ i, i ∈ indicesToConsider p ↔ ∃ t ∈ p.terms, t.1 i ≠ 0 := by
    intro i; simp [indicesToConsider]
  simp only [List.mem_filter, List.mem_sublists]
  constructor
  · rintro ⟨h, _⟩
    exact ⟨hsorted.sublist h, fun i hi => (hmem i).1 (h.subset hi)⟩
  · rintro ⟨h1, h2⟩
    refine ⟨?_, by simp⟩
    apply List.sublist_of_subperm_of_pairwise (r := (· < ·)) _ h1 hsorted
    apply List.subperm_of_subset
    · exact h1.imp (fun h => ne_of_lt h)
    · intro i hi; exact (hmem i).2 (h2 i hi)

/-! ### split -/

theorem multiplyBy_eval (terms : List (Expo n × K)) (c : K) (hc : c ≠ 0) (i : Fin n) (x : Fin n → K) :
    (⟨multiplyBy terms c i⟩ : Poly n K).eval x = (⟨terms⟩ : Poly n K).eval (Function.update x i (c * x i)) := by
  unfold multiplyBy Poly.eval
  simp only [List.map_map]
  congr 1
  apply List.map_congr_left
  intro t _
  simp only [Function.comp]
  rw [Poly.replaceCoeff_eq c t i (fun h => absurd h hc), Poly.mono_update]
  have : Poly.mono x t.1 = x i ^ (t.1 i) * ∏ k ∈ Finset.univ.erase i, x k ^ (t.1 k) := by
    unfold Poly.mono
    rw [← Finset.mul_prod_erase _ _ (Finset.mem_univ i)]
  rw [this, mul_zpow]
  ring

variable {V : Type} [NormedAddCommGroup V] [NormedSpace ℝ V]

section real
variable [DecidableEq ℝ]

theorem rescale_integrand (i : Fin n) (c : ℝ) (hc : c ≠ 0) (s : GSector n ℝ E)
    (F : List (ℝ × Option E) → List (ℝ × Option E) → V) (x : Fin n → ℝ) :
    gIntegrand F (rescale i c s) x = c • gIntegrand F s (Function.update x i (c * x i)) := by
  unfold gIntegrand rescale
  simp only [List.map_map]
  rw [multiplyBy_eval _ _ hc]
  have hj : (⟨(s.jac.mulScalar c).terms⟩ : Poly n ℝ).eval (Function.update x i (c * x i)) =
      c * s.jac.eval (Function.update x i (c * x i)) := by
    unfold Poly.mulScalar
    split_ifs with h1
    · rw [h1]; simp
    · unfold Poly.eval
      simp only [List.map_map]
      rw [← List.sum_map_mul_left]
      congr 1
      apply List.map_congr_left
      intro t _
      simp only [Function.comp]; ring
  rw [hj, smul_smul]
  congr 2
  · apply List.map_congr_left
    intro p _
    simp only [Function.comp]
    congr 1
    have h1 : Poly.replaceCoeff c p.mono i * Poly.mono x p.mono.1 =
        p.mono.2 * Poly.mono (Function.update x i (c * x i)) p.mono.1 := by
      have := multiplyBy_eval [p.mono] c hc i x
      simpa [multiplyBy, Poly.eval] using this
    rw [h1]
    congr 1
    exact multiplyBy_eval _ c hc i x
  · apply List.map_congr_left
    intro p _
    simp only [Function.comp]
    congr 1
    exact multiplyBy_eval _ c hc i x

theorem reflect_single (i : Fin n) (x : Fin n → ℝ) :
    (fun k => if k ∈ [i] then 1 - x k else x k) = Function.update x i (1 - x i) := by
  funext k
  by_cases h : k = i
  · subst h; simp
  · simp [h]

theorem remapCast_value (i : Fin n) (p q : SProd n ℝ E) (h : remapCast i p = some q) (x : Fin n → ℝ)
    (hx : ∀ k, x k ≠ 0) (hx1 : x i ≠ 1) :
    (q.mono.2 * Poly.mono x q.mono.1 * q.poly.eval x, q.poly.exponent) =
    (p.mono.2 * Poly.mono (Function.update x i (1 - x i)) p.mono.1 *
      p.poly.eval (Function.update x i (1 - x i)), p.poly.exponent) := by
  unfold remapCast at h
  rw [Option.bind_eq_some_iff] at h
  obtain ⟨r, hr, h⟩ := h
  obtain ⟨h1, h2⟩ := refactorizeAt_value h x hx
  rw [h1, h2]
  simp only
  congr 1
  have hv := (C18_remap_one_to_zero _ [i] (by simp)).2 r hr x (fun t _ k _ hk => absurd hk (hx k))
  rw [reflect_single] at hv
  have hr' : (⟨r.terms, p.poly.exponent⟩ : SPoly n ℝ E).eval x = r.eval x := rfl
  rw [hr', hv]
  have hne : (1 : ℝ) - x i ≠ 0 := sub_ne_zero.2 (Ne.symm hx1)
  set x' := Function.update x i (1 - x i) with hx'
  have hx'i : x' i = 1 - x i := by simp [hx']
  have hm : Poly.mono x' p.mono.1 = x' i ^ (p.mono.1 i) * Poly.mono x (Function.update p.mono.1 i 0) := by
    rw [hx', Poly.mono_update, Poly.mono_update_expo]
    simp
  have he : (⟨p.poly.terms.map (fun t => (Function.update t.1 i (t.1 i + p.mono.1 i), t.2))⟩ : Poly n ℝ).eval x' =
      x' i ^ (p.mono.1 i) * p.poly.eval x' := by
    unfold SPoly.eval Poly.eval
    simp only [List.map_map]
    rw [← List.sum_map_mul_left]
    congr 1
    apply List.map_congr_left
    intro t _
    simp only [Function.comp]
    rw [Decomp.mono_update x' i (by rw [hx'i]; exact hne)]
    ring
  rw [he, hm]
  ring

theorem remapSector_integrand (i : Fin n) (s t : GSector n ℝ E) (h : remapSector i s = some t)
    (F : List (ℝ × Option E) → List (ℝ × Option E) → V) (x : Fin n → ℝ)
    (hx : ∀ k, x k ≠ 0) (hx1 : x i ≠ 1) :
    gIntegrand F t x = gIntegrand F s (Function.update x i (1 - x i)) := by
  unfold remapSector at h
  simp only [Option.bind_eq_some_iff, Option.map_eq_some_iff] at h
  obtain ⟨cast, hc, other, ho, jac, hj, rfl⟩ := h
  have hc := mapM_option_forall₂ hc
  have ho := mapM_option_forall₂ ho
  have hremap : ∀ (p q : Poly n ℝ), remapOneToZero p [i] = some q →
      q.eval x = p.eval (Function.update x i (1 - x i)) := by
    intro p q hq
    rw [(C18_remap_one_to_zero p [i] (by simp)).2 q hq x (fun t _ k _ hk => absurd hk (hx k)),
      reflect_single]
  unfold gIntegrand
  simp only
  rw [hremap _ _ hj]
  congr 2
  · clear * - hc hx hx1
    generalize s.cast = l at hc
    induction hc with
    | nil => rfl
    | cons h _ ih => rw [List.map_cons, List.map_cons, ih, remapCast_value i _ _ h x hx hx1]
  · clear * - ho hremap
    generalize s.other = l at ho
    induction ho with
    | nil => rfl
    | cons h _ ih =>
      rw [Option.map_eq_some_iff] at h
      obtain ⟨q, hq, rfl⟩ := h
      rw [List.map_cons, List.map_cons, ih]
      congr 2
      exact hremap _ _ hq

/-- C18: `split` with splitting points in `(0,1)`.  If it succeeds and the integral of the sector over
the unit hypercube exists, then the integrals of the resulting sectors exist and add up to it, for an
arbitrary integrand `F` of the polynomials; each split variable doubles the number of sectors. -/
theorem C18_split_preserves_integral (pts : List (Fin n × ℝ)) (hpts : ∀ p ∈ pts, 0 < p.2 ∧ p.2 < 1)
    (s : GSector n ℝ E) (out : List (GSector n ℝ E)) (h : splitRec pts s = some out)
    (F : List (ℝ × Option E) → List (ℝ × Option E) → V)
    (hint : CubeIntegrable (gIntegrand F s)) :
    out.length = 2 ^ pts.length ∧
    (∀ t ∈ out, CubeIntegrable (gIntegrand F t)) ∧
    (out.map (fun t => cubeIntegral (gIntegrand F t))).sum = cubeIntegral (gIntegrand F s) := by
  induction pts generalizing s out with
  | nil =>
    simp only [splitRec, Option.some.injEq] at h
    subst h
    simpa using hint
  | cons pc rest ih =>
    obtain ⟨i, c⟩ := pc
    obtain ⟨h0, h1⟩ : 0 < c ∧ c < 1 := hpts (i, c) (by simp)
    rw [splitRec] at h
    simp only [Option.bind_eq_some_iff, Option.map_eq_some_iff] at h
    obtain ⟨s1, hs1, l0, hl0, l1, hl1, rfl⟩ := h
    have hd : 0 < 1 - c := by linarith
    have hint' : IntegrableOn (gIntegrand F s) (oc n) := (integrableOn_congr_set_ae oc_ae).2 hint
    obtain ⟨a1, a2, a3⟩ := cube_split_at i c h0 h1 (gIntegrand F s) hint'
    have e0 : ∀ x ∈ oc n, gIntegrand F (rescale i c s) x = c • gIntegrand F s (aff i 0 c x) := by
      intro x _
      rw [rescale_integrand i c h0.ne']
      simp [aff]
    have e1 : ∀ x ∈ oc n, gIntegrand F (rescale i (1 - c) s1) x =
        (1 - c) • gIntegrand F s (aff i 1 (-(1 - c)) x) := by
      intro x hx
      rw [mem_oc] at hx
      have hi := hx i
      rw [rescale_integrand i (1 - c) hd.ne', remapSector_integrand i s s1 hs1]
      · congr 2
        unfold aff
        rw [Function.update_idem, Function.update_self]
        congr 1
        ring
      · intro k
        by_cases hk : k = i
        · subst hk
          simp only [Function.update_self]
          exact (mul_pos hd hi.1).ne'
        · simpa [hk] using (hx k).1.ne'
      · simp only [Function.update_self]
        nlinarith
    have i0 : CubeIntegrable (gIntegrand F (rescale i c s)) :=
      (integrableOn_congr_set_ae oc_ae).1 ((integrableOn_congr_fun e0 measurableSet_oc).2 a1)
    have i1 : CubeIntegrable (gIntegrand F (rescale i (1 - c) s1)) :=
      (integrableOn_congr_set_ae oc_ae).1 ((integrableOn_congr_fun e1 measurableSet_oc).2 a2)
    obtain ⟨b1, b2, b3⟩ := ih (fun p hp => hpts p (by simp [hp])) _ _ hl0 i0
    obtain ⟨c1, c2, c3⟩ := ih (fun p hp => hpts p (by simp [hp])) _ _ hl1 i1
    refine ⟨by rw [List.length_append, b1, c1, List.length_cons, pow_succ]; ring, ?_, ?_⟩
    · intro t ht
      rw [List.mem_append] at ht
      rcases ht with ht | ht
      · exact b2 t ht
      · exact c2 t ht
    · rw [List.map_append, List.sum_append, b3, c3]
      have hce : ∀ f : (Fin n → ℝ) → V, cubeIntegral f = ∫ x in oc n, f x :=
        fun f => (setIntegral_congr_set oc_ae).symm
      rw [hce, hce, hce, setIntegral_congr_fun measurableSet_oc e0,
        setIntegral_congr_fun measurableSet_oc e1, a3]

/-- C18: `split` and `split_singular` for every random number sequence (`randint(1,20)` returns numbers
from 1 to 19). -/
theorem C18_split_singular_preserves_integral (rng : Nat → Nat) (hrng : ∀ k, 1 ≤ rng k ∧ rng k ≤ 19)
    (s : GSector n ℝ E) (indices : List (Fin n)) (out : List (GSector n ℝ E))
    (h : splitSingular rng s indices = some out)
    (F : List (ℝ × Option E) → List (ℝ × Option E) → V)
    (hint : CubeIntegrable (gIntegrand F s)) :
    (∀ t ∈ out, CubeIntegrable (gIntegrand F t)) ∧
    (out.map (fun t => cubeIntegral (gIntegrand F t))).sum = cubeIntegral (gIntegrand F s) := by
  refine (C18_split_preserves_integral _ ?_ s out h F hint).2
  rintro ⟨i, c⟩ hp
  obtain ⟨⟨j, k⟩, _, heq⟩ := List.mem_map.1 hp
  obtain ⟨rfl, rfl⟩ := Prod.mk.inj heq
  obtain ⟨h1, h2⟩ := hrng k
  have h1' : (1:ℝ) ≤ rng k := by exact_mod_cast h1
  have h2' : (rng k:ℝ) ≤ 19 := by exact_mod_cast h2
  constructor
  · simp only; positivity
  · simp only
    rw [div_lt_one (by norm_num)]
    linarith

/-- C18: `split_singular` splits exactly the variables (among `indices`, if any are given) that occur
in a singular set at one of some `cast` polynomial, each once, in increasing order. -/
theorem C18_split_singular_variables (s : GSector n ℝ E) (indices : List (Fin n)) :
    (singularParameters s indices).Pairwise (· < ·) ∧
    ∀ i, i ∈ singularParameters s indices ↔
      (indices = [] ∨ i ∈ indices) ∧
      ∃ p ∈ s.cast, ∃ S ∈ findSingularSetsAtOne (⟨p.poly.terms⟩ : Poly n ℝ), i ∈ S := by
  constructor
  · exact (List.pairwise_lt_finRange n).sublist List.filter_sublist
  · intro i
    simp [singularParameters, and_comm]

/-! ### success -/

/-- no negative powers -/
def NonNeg (terms : List (Expo n × ℝ)) : Prop := ∀ t ∈ terms, ∀ i, 0 ≤ t.1 i

/-- no negative powers in a sector -/
def GSector.NonNeg (s : GSector n ℝ E) : Prop :=
  Splitting.NonNeg s.jac.terms ∧
  (∀ p ∈ s.cast, (∀ i, 0 ≤ p.mono.1 i) ∧ Splitting.NonNeg p.poly.terms) ∧
  (∀ p ∈ s.other, Splitting.NonNeg p.terms)

theorem NonNeg.simplify {p : Poly n ℝ} (h : NonNeg p.terms) : NonNeg p.simplify.terms := by
  intro t ht i
  rcases Poly.simplify_expo_subset p t ht with ⟨u, hu, h'⟩ | h'
  · rw [← h']; exact h u hu i
  · rw [h']; simp

theorem NonNeg.mul {p q : Poly n ℝ} (hp : NonNeg p.terms) (hq : NonNeg q.terms) :
    NonNeg (p.mul q).terms := by
  apply NonNeg.simplify
  intro t ht i
  obtain ⟨s, hs, h⟩ := List.mem_flatMap.1 ht
  obtain ⟨u, hu, rfl⟩ := List.mem_map.1 h
  exact add_nonneg (hq u hu i) (hp s hs i)

theorem remap_nonneg (p : Poly n ℝ) (i : Fin n) (hp : NonNeg p.terms) :
    ∃ q, remapOneToZero p [i] = some q ∧ NonNeg q.terms ∧ q.terms ≠ [] := by
  cases h : remapOneToZero p [i] with
  | none =>
    obtain ⟨t, ht, j, _, hlt⟩ := (C18_remap_one_to_zero p [i] (by simp)).1.1 h
    have := hp t ht j
    omega
  | some q =>
    refine ⟨q, rfl, ?_⟩
    unfold remapOneToZero at h
    rw [Option.map_eq_some_iff] at h
    obtain ⟨l, hl, rfl⟩ := h
    replace hl := mapM_option_forall₂ hl
    constructor
    · apply NonNeg.simplify
      intro t ht j
      obtain ⟨r, hr, ht⟩ := List.mem_flatMap.1 ht
      obtain ⟨k, hk, rfl⟩ := List.mem_iff_getElem.1 hr
      have hrem := (List.forall₂_iff_get.1 hl).2 k (by rw [hl.length_eq]; exact hk) hk
      simp only [List.get_eq_getElem] at hrem
      have hmem := List.getElem_mem (l := p.terms) (n := k) (by rw [hl.length_eq]; exact hk)
      unfold remapTerm at hrem
      split_ifs at hrem
      simp only [List.foldl_cons, List.foldl_nil, Option.some.injEq] at hrem
      rw [← hrem] at ht
      refine NonNeg.mul ?_ ?_ t ht j
      · intro u hu m
        simp only [List.mem_singleton] at hu
        subst hu
        simp only
        split_ifs
        · exact le_refl _
        · exact hp _ hmem m
      · intro u hu m
        obtain ⟨k, _, rfl⟩ := List.mem_map.1 hu
        simp only
        split_ifs <;> omega
    · rw [Poly.simplify_nz]
      split_ifs with h0
      · simp [Poly.zeroPoly]
      · intro h; simp only at h; rw [h] at h0; simp at h0

theorem refactorizeAt_nonneg (i : Fin n) (p : SProd n ℝ E) (hm : ∀ k, 0 ≤ p.mono.1 k)
    (hp : NonNeg p.poly.terms) (hne : p.poly.terms ≠ []) :
    ∃ q, refactorizeAt i p = some q ∧ (∀ k, 0 ≤ q.mono.1 k) ∧ NonNeg q.poly.terms := by
  have hne' : (p.poly.terms.map (fun t => t.1 i)) ≠ [] := by simpa using hne
  obtain ⟨m, hmin⟩ := Option.isSome_iff_exists.1 (List.isSome_min?_of_ne_nil hne')
  refine ⟨_, by unfold refactorizeAt; rw [hmin]; rfl, ?_, ?_⟩
  · intro k
    rw [List.min?_eq_some_iff] at hmin
    obtain ⟨t, ht, h⟩ := List.mem_map.1 hmin.1
    have := hp t ht i
    have := hm i
    by_cases hk : k = i
    · subst hk; simp only [Function.update_self]; omega
    · simpa [hk] using hm k
  · intro t ht k
    rw [List.min?_eq_some_iff] at hmin
    obtain ⟨u, hu, rfl⟩ := List.mem_map.1 ht
    have := hmin.2 _ (List.mem_map.2 ⟨u, hu, rfl⟩)
    by_cases hk : k = i
    · subst hk; simp only [Function.update_self]; omega
    · simpa [hk] using hp u hu k

theorem mapM_exists {α β : Type} {f : α → Option β} {P : β → Prop} (l : List α)
    (h : ∀ a ∈ l, ∃ b, f a = some b ∧ P b) : ∃ r, l.mapM f = some r ∧ ∀ b ∈ r, P b := by
  induction l with
  | nil => exact ⟨[], rfl, by simp⟩
  | cons a l ih =>
    obtain ⟨b, hb, hP⟩ := h a (by simp)
    obtain ⟨r, hr, hPr⟩ := ih (fun a ha => h a (by simp [ha]))
    refine ⟨b :: r, by rw [List.mapM_cons, hb, hr]; rfl, ?_⟩
    intro c hc
    rcases List.mem_cons.1 hc with rfl | hc
    · exact hP
    · exact hPr c hc

theorem remapSector_nonneg (i : Fin n) (s : GSector n ℝ E) (h : s.NonNeg) :
    ∃ t, remapSector i s = some t ∧ t.NonNeg := by
  obtain ⟨hj, hc, ho⟩ := h
  obtain ⟨c, hc1, hc2⟩ := mapM_exists (f := remapCast i)
    (P := fun p : SProd n ℝ E => (∀ i, 0 ≤ p.mono.1 i) ∧ NonNeg p.poly.terms) s.cast (by
    intro p hp
    obtain ⟨hm, ht⟩ := hc p hp
    obtain ⟨q, hq, hq1, hq2⟩ := remap_nonneg (⟨p.poly.terms.map (fun t =>
      (Function.update t.1 i (t.1 i + p.mono.1 i), t.2))⟩ : Poly n ℝ) i (by
        intro t ht' k
        obtain ⟨u, hu, rfl⟩ := List.mem_map.1 ht'
        have h1 := hm i
        have h2 := ht u hu i
        by_cases hk : k = i
        · subst hk; simp only [Function.update_self]; omega
        · simpa [hk] using ht u hu k)
    obtain ⟨r, hr, hr1, hr2⟩ := refactorizeAt_nonneg i
      (⟨(Function.update p.mono.1 i 0, p.mono.2), ⟨q.terms, p.poly.exponent⟩⟩ : SProd n ℝ E) (by
        intro k
        by_cases hk : k = i
        · subst hk; simp
        · simpa [hk] using hm k) hq1 hq2
    exact ⟨r, by unfold remapCast; rw [hq]; exact hr, hr1, hr2⟩)
  obtain ⟨o, ho1, ho2⟩ := mapM_exists (f := fun p : SPoly n ℝ E => (remapOneToZero ⟨p.terms⟩ [i]).map (fun q =>
      ({ terms := q.terms, exponent := p.exponent } : SPoly n ℝ E)))
    (P := fun p : SPoly n ℝ E => NonNeg p.terms) s.other (by
      intro p hp
      obtain ⟨q, hq, hq1, _⟩ := remap_nonneg (⟨p.terms⟩ : Poly n ℝ) i (ho p hp)
      exact ⟨_, by rw [hq]; rfl, hq1⟩)
  obtain ⟨j, hj1, hj2, _⟩ := remap_nonneg s.jac i hj
  refine ⟨⟨j, c, o⟩, ?_, hj2, hc2, ho2⟩
  unfold remapSector
  rw [hc1, Option.bind_some, ho1, Option.bind_some, hj1]
  rfl

theorem rescale_nonneg (i : Fin n) (c : ℝ) (s : GSector n ℝ E) (h : s.NonNeg) : (rescale i c s).NonNeg := by
  obtain ⟨hj, hc, ho⟩ := h
  have hmul : ∀ (terms : List (Expo n × ℝ)), NonNeg terms → NonNeg (multiplyBy terms c i) := by
    intro terms ht t ht' k
    obtain ⟨u, hu, rfl⟩ := List.mem_map.1 ht'
    exact ht u hu k
  refine ⟨?_, ?_, ?_⟩
  · apply hmul
    unfold Poly.mulScalar
    split_ifs
    · exact hj
    · intro t ht k
      simp only [Poly.zeroPoly, List.mem_singleton] at ht
      subst ht
      simp
    · intro t ht k
      obtain ⟨u, hu, rfl⟩ := List.mem_map.1 ht
      exact hj u hu k
  · intro p hp
    obtain ⟨q, hq, rfl⟩ := List.mem_map.1 hp
    exact ⟨(hc q hq).1, hmul _ (hc q hq).2⟩
  · intro p hp
    obtain ⟨q, hq, rfl⟩ := List.mem_map.1 hp
    exact hmul _ (ho q hq)

/-- C18: `split` succeeds if no power in the sector is negative. -/
theorem C18_split_succeeds (pts : List (Fin n × ℝ)) (s : GSector n ℝ E)
    (hjac : ∀ t ∈ s.jac.terms, ∀ i, 0 ≤ t.1 i)
    (hcast : ∀ p ∈ s.cast, (∀ i, 0 ≤ p.mono.1 i) ∧ ∀ t ∈ p.poly.terms, ∀ i, 0 ≤ t.1 i)
    (hother : ∀ p ∈ s.other, ∀ t ∈ p.terms, ∀ i, 0 ≤ t.1 i) :
    ∃ out, splitRec pts s = some out := by
  have hs : s.NonNeg := ⟨hjac, hcast, hother⟩
  clear hjac hcast hother
  induction pts generalizing s with
  | nil => exact ⟨_, rfl⟩
  | cons pc rest ih =>
    obtain ⟨i, c⟩ := pc
    obtain ⟨t, ht, htn⟩ := remapSector_nonneg i s hs
    obtain ⟨l0, h0⟩ := ih _ (rescale_nonneg i c s hs)
    obtain ⟨l1, h1⟩ := ih _ (rescale_nonneg i (1 - c) t htn)
    exact ⟨l0 ++ l1, by rw [splitRec, ht, Option.bind_some, h0, Option.bind_some, h1]; rfl⟩

end real

/-- hypotheses of C18: `1 - x₀` is singular at one, and not negative in its powers -/
example : ([0] : List (Fin 1)) ∈ findSingularSetsAtOne (⟨[(![0], (1:ℚ)), (![1], -1)]⟩ : Poly 1 ℚ) := by
  rw [C18_find_singular_sets_at_one]
  refine ⟨by simp, ?_, ?_⟩
  · intro i _
    exact ⟨(![1], -1), by simp, by fin_cases i; simp⟩
  · simp [Poly.eval, Poly.mono]

end SecDec.Splitting
