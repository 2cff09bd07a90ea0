import Mathlib.Algebra.Order.Hom.Ring
import Verif.Proof.RegionsExp
/-
Proofs about the rescaling in `make_regions`.
-/
set_option linter.unusedSectionVars false
set_option linter.unusedVariables false
namespace SecDec
namespace Regions
open Filter Topology Asymptotics Poly Expansion
open Subtraction (pev NonNeg pev_simplify pev_zero pev_mul pev_add pev_addScalar pev_mulScalar)
variable {n : Nat} {F : Type} [Field F] [DecidableEq F] {φ : F →+* ℂ}

theorem pev_applyRegion (i : Fin n) (v : Fin n → ℤ) (p : Poly n F) (x : Fin n → ℂ) (h : x i ≠ 0) :
    pev φ x (applyRegion i v p) = pev φ (rescaled i v (x i) x) p := by
  simp only [pev, applyRegion, List.map_map]
  congr 1
  refine List.map_congr_left fun t _ => ?_
  simp only [Function.comp_apply]
  congr 1
  unfold Poly.mono
  rw [← Finset.mul_prod_erase _ _ (Finset.mem_univ i), ← Finset.mul_prod_erase (a := i) _ _ (Finset.mem_univ i)]
  have h1 : ∀ k ∈ Finset.univ.erase i, x k ^ (Function.update t.1 i (∑ j, t.1 j * v j)) k = x k ^ t.1 k := by
    intro k hk
    rw [Function.update_of_ne (Finset.ne_of_mem_erase hk)]
  have h2 : ∀ k ∈ Finset.univ.erase i, rescaled i v (x i) x k ^ t.1 k = x k ^ t.1 k * x i ^ (t.1 k * v k) := by
    intro k hk
    rw [rescaled, if_neg (Finset.ne_of_mem_erase hk), mul_zpow, ← zpow_mul, mul_comm (v k)]
  rw [Finset.prod_congr rfl h1, Finset.prod_congr rfl h2, Finset.prod_mul_distrib, rescaled, if_pos rfl, ← zpow_mul,
    Function.update_self, ← Finset.add_sum_erase _ _ (Finset.mem_univ i), zpow_add₀ h]
  have h3 : x i ^ (∑ k ∈ Finset.univ.erase i, t.1 k * v k) = ∏ k ∈ Finset.univ.erase i, x i ^ (t.1 k * v k) := by
    induction (Finset.univ.erase i) using Finset.induction_on with
    | empty => simp
    | insert a s ha ih => rw [Finset.sum_insert ha, Finset.prod_insert ha, zpow_add₀ h, ih]
  rw [h3, mul_comm (v i)]
  ring

theorem pev_shift' (x : Fin n → ℂ) (p : Poly n F) (i : Fin n) (m : ℤ) (h : x i ≠ 0) :
    pev φ x p = x i ^ m * pev φ x (p.shiftPower i (-m)) := by
  simp only [pev, Poly.shiftPower, List.map_map]
  rw [← List.sum_map_mul_left]
  congr 1
  refine List.map_congr_left fun t _ => ?_
  simp only [Function.comp_apply]
  unfold Poly.mono
  rw [← Finset.mul_prod_erase _ _ (Finset.mem_univ i), ← Finset.mul_prod_erase (a := i) _ _ (Finset.mem_univ i)]
  have h1 : ∀ k ∈ Finset.univ.erase i, x k ^ (Function.update t.1 i (t.1 i + -m)) k = x k ^ t.1 k := by
    intro k hk
    rw [Function.update_of_ne (Finset.ne_of_mem_erase hk)]
  rw [Finset.prod_congr rfl h1, Function.update_self, zpow_add₀ h, zpow_neg]
  have := zpow_ne_zero m h
  field_simp

theorem minPower_spec {p : Poly n F} {i : Fin n} {m : ℤ} (h : p.minPower i = some m) :
    (∃ t ∈ p.terms, t.1 i = m) ∧ ∀ t ∈ p.terms, m ≤ t.1 i := by
  unfold Poly.minPower at h
  rw [List.min?_eq_some_iff] at h
  obtain ⟨h1, h2⟩ := h
  refine ⟨?_, ?_⟩
  · obtain ⟨t, ht, e⟩ := List.mem_map.1 h1
    exact ⟨t, ht, e⟩
  · intro t ht
    exact h2 _ (List.mem_map.2 ⟨t, ht, rfl⟩)

theorem pull_rows {i : Fin n} {v : Fin n → ℤ} {p : Poly n F} {r : ℤ × Poly n F} (hp : NonNeg p)
    (h : pullOut i (applyRegion i v p) = some r) : NonNeg r.2 ∧ (∀ k, k ≠ i → Indep p k → Indep r.2 k) := by
  unfold pullOut at h
  rw [Option.map_eq_some_iff] at h
  obtain ⟨m, hm, rfl⟩ := h
  obtain ⟨h1, h2⟩ := minPower_spec hm
  refine ⟨?_, ?_⟩
  · intro t ht k
    simp only [Poly.shiftPower, List.mem_map] at ht
    obtain ⟨s, hs, rfl⟩ := ht
    by_cases hk : k = i
    · subst hk
      have := h2 s hs
      simp only [Function.update_self]; omega
    · simp only [Function.update_of_ne hk]
      simp only [applyRegion, List.mem_map] at hs
      obtain ⟨u, hu, rfl⟩ := hs
      simp only [Function.update_of_ne hk]
      exact hp u hu k
  · intro k hk hi t ht
    simp only [Poly.shiftPower, List.mem_map] at ht
    obtain ⟨s, hs, rfl⟩ := ht
    simp only [applyRegion, List.mem_map] at hs
    obtain ⟨u, hu, rfl⟩ := hs
    simp only [Function.update_of_ne hk]
    exact hi u hu

/-- `pullOut i (applyRegion i v p)` -/
theorem pull_spec {i : Fin n} {v : Fin n → ℤ} {p : Poly n F} {r : ℤ × Poly n F} (hp : NonNeg p)
    (h : pullOut i (applyRegion i v p) = some r) :
    ((∃ e ∈ p.terms, ∑ k, e.1 k * v k = r.1) ∧ ∀ e ∈ p.terms, r.1 ≤ ∑ k, e.1 k * v k) ∧ NonNeg r.2 ∧
    (∀ k, k ≠ i → Indep p k → Indep r.2 k) ∧
    ∀ x : Fin n → ℂ, x i ≠ 0 → pev φ (rescaled i v (x i) x) p = x i ^ r.1 * pev φ x r.2 := by
  unfold pullOut at h
  rw [Option.map_eq_some_iff] at h
  obtain ⟨m, hm, rfl⟩ := h
  obtain ⟨h1, h2⟩ := minPower_spec hm
  simp only at *
  refine ⟨⟨?_, ?_⟩, ?_, ?_, ?_⟩
  · obtain ⟨t, ht, e⟩ := h1
    simp only [applyRegion, List.mem_map] at ht
    obtain ⟨s, hs, rfl⟩ := ht
    exact ⟨s, hs, by simpa using e⟩
  · intro e he
    have := h2 (Function.update e.1 i (∑ j, e.1 j * v j), e.2) (by
      simp only [applyRegion, List.mem_map]; exact ⟨e, he, rfl⟩)
    simpa using this
  · intro t ht k
    simp only [Poly.shiftPower, List.mem_map] at ht
    obtain ⟨s, hs, rfl⟩ := ht
    by_cases hk : k = i
    · subst hk
      have := h2 s hs
      simp only [Function.update_self]; omega
    · simp only [Function.update_of_ne hk]
      simp only [applyRegion, List.mem_map] at hs
      obtain ⟨u, hu, rfl⟩ := hs
      simp only [Function.update_of_ne hk]
      exact hp u hu k
  · intro k hk hi t ht
    simp only [Poly.shiftPower, List.mem_map] at ht
    obtain ⟨s, hs, rfl⟩ := ht
    simp only [applyRegion, List.mem_map] at hs
    obtain ⟨u, hu, rfl⟩ := hs
    simp only [Function.update_of_ne hk]
    exact hi u hu
  · intro x hx
    rw [← pev_applyRegion i v p x hx, pev_shift' x _ i m hx]

theorem mapM_forall₂ {α β : Type} {f : α → Option β} : ∀ {l : List α} {l' : List β}, l.mapM f = some l' →
    List.Forall₂ (fun a b => f a = some b) l l'
  | [], l', h => by simp at h; subst h; exact List.Forall₂.nil
  | a :: l, l', h => by
    rw [List.mapM_cons] at h
    cases ha : f a with
    | none => simp [ha] at h
    | some b =>
      cases hl : l.mapM f with
      | none => simp [ha, hl] at h
      | some bs =>
        simp [ha, hl] at h
        subst h
        exact List.Forall₂.cons ha (mapM_forall₂ hl)

theorem forall₂_mem_right {α β : Type} {R : α → β → Prop} {l : List α} {l' : List β} (h : List.Forall₂ R l l') :
    ∀ b ∈ l', ∃ a ∈ l, R a b := by
  induction h with
  | nil => simp
  | cons h1 _ ih =>
    intro b hb
    rcases List.mem_cons.1 hb with rfl | hb
    · exact ⟨_, by simp, h1⟩
    · obtain ⟨a, ha, e⟩ := ih b hb
      exact ⟨a, by simp [ha], e⟩

theorem filter_sum_lookup {names : List (Fin n)} (hn : names.Nodup) (ms : List ℤ) (k : Fin n) :
    (((names.zip ms).filter (fun q => decide (q.1 = k))).map (·.2)).sum = ((names.zip ms).lookup k).getD 0 := by
  induction names generalizing ms with
  | nil => simp
  | cons a l ih =>
    cases ms with
    | nil => simp
    | cons m ms =>
      have hn' := List.nodup_cons.1 hn
      rw [lookup_zip_cons, List.zip_cons_cons, List.filter_cons]
      by_cases hk : k = a
      · subst hk
        simp only [decide_true, if_true, List.map_cons, List.sum_cons, Option.getD_some]
        rw [ih hn'.2, lookup_none hn'.1]; simp
      · rw [if_neg hk, if_neg (by simpa using fun h => hk h.symm), ih hn'.2]

/-- the values of the names of the rescaled polynomials -/
theorem withNames_rescaled {names : List (Fin n)} {i : Fin n} {v : Fin n → ℤ} (hn : names.Nodup) (hi : i ∉ names)
    (hv : ∀ k ∈ names, v k = 0) (ps : List (EPoly n F)) (rs : List (ℤ × EPoly n F)) (t : ℂ) (x : Fin n → ℂ) (hx : x i = t)
    (h : List.Forall₂ (fun p r => pev φ (rescaled i v t x) p.base = t ^ r.1 * pev φ x r.2.base) ps rs) :
    rescaled i (numeratorRegion v names (rs.map (·.1))) t (withNames names (bvals φ (rs.map (·.2)) x) x) =
      withNames names (bvals φ ps (rescaled i v t x)) (rescaled i v t x) := by
  funext k
  have hw : ∀ k, numeratorRegion v names (rs.map (·.1)) k = v k + ((names.zip (rs.map (·.1))).lookup k).getD 0 := by
    intro k
    rw [numeratorRegion, filter_sum_lookup hn]
  by_cases hk : k = i
  · subst hk
    rw [withNames_of_notMem hi, rescaled, rescaled, if_pos rfl, if_pos rfl, hw, lookup_none hi]; simp
  · rw [rescaled, if_neg hk, hw]
    have hX : rescaled i v t x k = x k * t ^ v k := by rw [rescaled, if_neg hk]
    generalize rescaled i v t x = X at *
    clear hw
    unfold withNames bvals
    induction names generalizing ps rs with
    | nil => simp [hX]
    | cons a l ih =>
      cases h with
      | nil => simp [hX]
      | @cons p r ps rs h1 h2 =>
        have hn' := List.nodup_cons.1 hn
        simp only [List.map_cons, lookup_zip_cons]
        by_cases hka : k = a
        · simp only [hka, if_true, Option.getD_some]
          rw [h1, hv a (by simp)]; simp [mul_comm]
        · simp only [hka, if_false]
          exact ih hn'.2 (fun h => hi (by simp [h])) (fun k hk => hv k (by simp [hk])) ps rs h2

theorem log_zpow_mul {t : ℝ} (ht : 0 < t) (m : ℤ) {q : ℂ} (hq : q ≠ 0) :
    Complex.log ((t : ℂ) ^ m * q) = (m : ℂ) * Complex.log t + Complex.log q := by
  have h1 : ((t : ℂ) ^ m) = ((t ^ m : ℝ) : ℂ) := by push_cast; rfl
  rw [h1, Complex.log_ofReal_mul (zpow_pos ht m) hq, Real.log_zpow, ← Complex.ofReal_log ht.le]
  push_cast; ring

/-- pulling out the powers of `t` -/
theorem prod_pull (ps : List (EPoly n F)) (rs : List (ℤ × EPoly n F)) {t : ℝ} (ht : 0 < t) (x X : Fin n → ℂ)
    (h : List.Forall₂ (fun p r => pev φ X p.base = (t : ℂ) ^ r.1 * pev φ x r.2.base ∧
      pev φ X p.exponent = pev φ x r.2.exponent ∧ pev φ x r.2.base ≠ 0) ps rs) :
    (ps.map (fun p => pev φ X p.base ^ pev φ X p.exponent)).prod =
      (t : ℂ) ^ ((rs.map (fun r => (r.1 : ℂ) * pev φ x r.2.exponent)).sum) *
        ((rs.map (·.2)).map (fun p => pev φ x p.base ^ pev φ x p.exponent)).prod := by
  have ht0 : (t : ℂ) ≠ 0 := by exact_mod_cast ht.ne'
  induction h with
  | nil => simp
  | @cons p r ps rs h1 h2 ih =>
    obtain ⟨e1, e2, e3⟩ := h1
    simp only [List.map_cons, List.prod_cons, List.sum_cons]
    rw [ih, e1, e2, Complex.cpow_add _ _ ht0]
    have : ((t : ℂ) ^ r.1 * pev φ x r.2.base) ^ pev φ x r.2.exponent =
        (t : ℂ) ^ ((r.1 : ℂ) * pev φ x r.2.exponent) * pev φ x r.2.base ^ pev φ x r.2.exponent := by
      rw [Complex.cpow_def_of_ne_zero (mul_ne_zero (zpow_ne_zero _ ht0) e3), log_zpow_mul ht _ e3,
        Complex.cpow_def_of_ne_zero ht0, Complex.cpow_def_of_ne_zero e3, ← Complex.exp_add]
      congr 1; ring
    rw [this]; ring

theorem foldl_power (rs : List (ℤ × EPoly n F)) (q : Poly n F) (x : Fin n → ℂ) :
    pev φ x (rs.foldl (fun (acc : Poly n F) q => acc.add (q.2.exponent.mulScalar ((q.1 : Int) : F))) q) =
      pev φ x q + (rs.map (fun r => (r.1 : ℂ) * pev φ x r.2.exponent)).sum := by
  induction rs generalizing q with
  | nil => simp
  | cons r rs ih =>
    rw [List.foldl_cons, ih, pev_add, pev_mulScalar]
    simp; ring

theorem setup_spec {names : List (Fin n)} {i : Fin n} {v : Fin n → ℤ} {ps : List (EPoly n F)} {N : Poly n F}
    (hv : Valid names i ps N) (hr : IsRegion names i ps v) {s : Setup n F} (h : setup i names v ps N = some s) :
    ∃ rs : List (ℤ × EPoly n F), s.polys = rs.map (·.2) ∧ List.Forall₂ (fun p r => rescale i v p = some r) ps rs ∧
      Valid names i s.polys s.numerator ∧
      (s.measure = ∑ k ∈ Finset.univ.erase i, v k) ∧
      (∃ mN : ℤ, ∀ x, pev φ x s.power = (rs.map (fun r => (r.1 : ℂ) * pev φ x r.2.exponent)).sum + mN) ∧
      ∀ (x : Fin n → ℂ) (t : ℝ), 0 < t → x i = t → (∀ p ∈ s.polys, pev φ x p.base ≠ 0) →
        integrand φ names ps N (rescaled i v t x) =
          (t : ℂ) ^ pev φ x s.power * integrand φ names s.polys s.numerator x := by
  unfold setup at h
  simp only [Option.bind_eq_bind] at h
  obtain ⟨rs, hrs, h⟩ := Option.bind_eq_some_iff.1 h
  obtain ⟨r, hN, h⟩ := Option.bind_eq_some_iff.1 h
  simp only [Option.some.injEq] at h
  have hf := mapM_forall₂ hrs
  have hNs := pull_spec (φ := φ) hv.numerator_nonneg hN
  -- each polynomial
  have hps : ∀ p ∈ ps, ∀ q, rescale i v p = some q → NonNeg q.2.base ∧ q.2.exponent = p.exponent ∧
      (∀ k, k ≠ i → Indep p.base k → Indep q.2.base k) ∧
      ∀ x : Fin n → ℂ, x i ≠ 0 → pev φ (rescaled i v (x i) x) p.base = x i ^ q.1 * pev φ x q.2.base := by
    intro p hp q hq
    unfold rescale at hq
    rw [Option.map_eq_some_iff] at hq
    obtain ⟨r', hr', rfl⟩ := hq
    have := pull_spec (φ := φ) (hv.base_nonneg p hp) hr'
    exact ⟨this.2.1, rfl, this.2.2.1, this.2.2.2⟩
  have hmem : ∀ q ∈ rs, ∃ p ∈ ps, rescale i v p = some q := by
    exact forall₂_mem_right hf
  have hpolys : s.polys = rs.map (·.2) := by rw [← h]
  have hnum : s.numerator = r.2 := by rw [← h]
  have hvalid : Valid names i s.polys s.numerator := by
    rw [hpolys, hnum]
    refine ⟨hv.nodup, hv.fresh, ?_, ?_, ?_, hNs.2.1, ?_, ?_, ?_⟩
    · rw [List.length_map, ← hf.length_eq]; exact hv.length
    all_goals
      intro p hp
      obtain ⟨q, hq, rfl⟩ := List.mem_map.1 hp
      obtain ⟨p, hp, e⟩ := hmem q hq
      obtain ⟨e1, e2, e3, -⟩ := hps p hp q e
    · exact e1
    · rw [e2]; exact hv.exponent_nonneg p hp
    · intro k hk
      exact e3 k (fun hki => hv.fresh (hki ▸ hk)) (hv.base_names p hp k hk)
    · rw [e2]; exact hv.exponent_names p hp
    · rw [e2]; exact hv.exponent_param p hp
  have hpow : ∀ x, pev φ x s.power = (rs.map (fun r => (r.1 : ℂ) * pev φ x r.2.exponent)).sum + r.1 := by
    intro x
    rw [← h]
    simp only
    rw [pev_addScalar, foldl_power, pev_zero]; simp
  refine ⟨rs, hpolys, hf, hvalid, ?_, ⟨r.1, hpow⟩, ?_⟩
  · rw [← h]
    simp only
    rw [← List.ofFn_eq_map, List.sum_ofFn, ← Finset.add_sum_erase _ _ (Finset.mem_univ i), if_pos rfl, zero_add]
    exact Finset.sum_congr rfl fun k hk => if_neg (Finset.ne_of_mem_erase hk)
  · intro x t ht hxt hne
    have ht0 : (t : ℂ) ≠ 0 := by exact_mod_cast ht.ne'
    have hxi : x i ≠ 0 := hxt ▸ ht0
    rw [integrand_eq, integrand_eq]
    have hf1 : List.Forall₂ (fun p r => pev φ (rescaled i v t x) p.base = (t : ℂ) ^ r.1 * pev φ x r.2.base ∧
        pev φ (rescaled i v t x) p.exponent = pev φ x r.2.exponent ∧ pev φ x r.2.base ≠ 0) ps rs := by
      have key : List.Forall₂ (fun p r => p ∈ ps ∧ r ∈ rs ∧ rescale i v p = some r) ps rs := by
        rw [List.forall₂_iff_get] at hf ⊢
        refine ⟨hf.1, fun k h1 h2 => ⟨List.get_mem _ _, List.get_mem _ _, hf.2 k h1 h2⟩⟩
      refine key.imp ?_
      rintro p q ⟨hp, hq, e⟩
      obtain ⟨e1, e2, e3, e4⟩ := hps p hp q e
      refine ⟨by have := e4 x hxi; rwa [hxt] at this, ?_, ?_⟩
      · rw [e2]
        refine pev_congr fun k hk => ?_
        rw [rescaled, if_neg (by rintro rfl; exact hk (hv.exponent_param p hp)), hr.regulators p hp k hk]; simp
      · exact hne q.2 (by rw [hpolys]; exact List.mem_map.2 ⟨q, hq, rfl⟩)
    rw [prod_pull ps rs ht x _ hf1, ← withNames_rescaled hv.nodup hv.fresh hr.names ps rs (t : ℂ) x hxt
      (hf1.imp fun _ _ h => h.1)]
    have hnx := hNs.2.2.2 (withNames names (bvals φ (rs.map (·.2)) x) x) (by
      rw [withNames_of_notMem hv.fresh]; exact hxi)
    rw [withNames_of_notMem hv.fresh, hxt] at hnx
    rw [hnx, hpow x, Complex.cpow_add _ _ ht0, Complex.cpow_intCast, hpolys, hnum]
    ring

theorem setup_valid {names : List (Fin n)} {i : Fin n} {v : Fin n → ℤ} {ps : List (EPoly n F)} {N : Poly n F}
    (hv : Valid names i ps N) (hr : IsRegion names i ps v) {s : Setup n F} (h : setup i names v ps N = some s) :
    Valid names i s.polys s.numerator := by
  -- the validity does not depend on the values of the coefficients
  unfold setup at h
  simp only [Option.bind_eq_bind] at h
  obtain ⟨rs, hrs, h⟩ := Option.bind_eq_some_iff.1 h
  obtain ⟨r, hN, h⟩ := Option.bind_eq_some_iff.1 h
  simp only [Option.some.injEq] at h
  have hf := mapM_forall₂ hrs
  have hps : ∀ q ∈ rs, ∃ p ∈ ps, NonNeg q.2.base ∧ q.2.exponent = p.exponent ∧
      (∀ k, k ≠ i → Indep p.base k → Indep q.2.base k) := by
    intro q hq
    obtain ⟨p, hp, e⟩ := forall₂_mem_right hf q hq
    unfold rescale at e
    rw [Option.map_eq_some_iff] at e
    obtain ⟨r', hr', rfl⟩ := e
    have := pull_rows (hv.base_nonneg p hp) hr'
    exact ⟨p, hp, this.1, rfl, this.2⟩
  rw [← h]
  refine ⟨hv.nodup, hv.fresh, ?_, ?_, ?_, (pull_rows hv.numerator_nonneg hN).1, ?_, ?_, ?_⟩
  · simp only
    rw [List.length_map, ← hf.length_eq]; exact hv.length
  all_goals
    intro p hp
    obtain ⟨q, hq, rfl⟩ := List.mem_map.1 hp
    obtain ⟨p, hp, e1, e2, e3⟩ := hps q hq
  · exact e1
  · rw [e2]; exact hv.exponent_nonneg p hp
  · intro k hk
    exact e3 k (fun hki => hv.fresh (hki ▸ hk)) (hv.base_names p hp k hk)
  · rw [e2]; exact hv.exponent_names p hp
  · rw [e2]; exact hv.exponent_param p hp

theorem indep_add {p q : Poly n F} {k : Fin n} (hp : Indep p k) (hq : Indep q k) : Indep (p.add q) k := by
  refine indep_simplify ?_
  intro t ht
  simp only [List.mem_append, List.mem_map] at ht
  rcases ht with ht | ⟨s, hs, rfl⟩
  · exact hp t ht
  · exact hq s hs

theorem indep_mulScalar {p : Poly n F} {k : Fin n} (hp : Indep p k) (c : F) : Indep (p.mulScalar c) k := by
  unfold Poly.mulScalar
  split
  · exact hp
  · split
    · intro t ht; simp [zeroPoly] at ht; simp [ht]
    · intro t ht
      simp only [List.mem_map] at ht
      obtain ⟨s, hs, rfl⟩ := ht
      exact hp s hs

theorem indep_addScalar {p : Poly n F} {k : Fin n} (h : Indep p k) (c : F) : Indep (p.addScalar c) k := by
  refine indep_simplify ?_
  intro t ht
  rcases List.mem_cons.1 ht with rfl | hm
  · simp
  · exact h t hm

theorem nonneg_addScalar {p : Poly n F} (hp : NonNeg p) (c : F) : NonNeg (p.addScalar c) := by
  refine nonneg_simplify ?_
  intro t ht i
  rcases List.mem_cons.1 ht with rfl | h
  · simp
  · exact hp t h i

theorem power_rows {names : List (Fin n)} {i : Fin n} {v : Fin n → ℤ} {ps : List (EPoly n F)} {N : Poly n F}
    (hv : Valid names i ps N) {s : Setup n F} (h : setup i names v ps N = some s) {x : Fin n → ℂ}
    (hreg : ∀ p ∈ ps, ∀ k, ¬ Indep p.exponent k → x k = 0) :
    ∀ t ∈ s.power.terms, ∀ k, t.1 k ≠ 0 → x k = 0 ∧ 0 < t.1 k := by
  unfold setup at h
  simp only [Option.bind_eq_bind] at h
  obtain ⟨rs, hrs, h⟩ := Option.bind_eq_some_iff.1 h
  obtain ⟨r, hN, h⟩ := Option.bind_eq_some_iff.1 h
  simp only [Option.some.injEq] at h
  have hf := mapM_forall₂ hrs
  have hps : ∀ q ∈ rs, ∃ p ∈ ps, q.2.exponent = p.exponent := by
    intro q hq
    obtain ⟨p, hp, e⟩ := forall₂_mem_right hf q hq
    unfold rescale at e
    rw [Option.map_eq_some_iff] at e
    obtain ⟨r', hr', rfl⟩ := e
    exact ⟨p, hp, rfl⟩
  have hfold : ∀ (l : List (ℤ × EPoly n F)) (q : Poly n F), (∀ a ∈ l, ∃ p ∈ ps, a.2.exponent = p.exponent) → NonNeg q →
      (∀ k, x k ≠ 0 → Indep q k) →
      NonNeg (l.foldl (fun (acc : Poly n F) q => acc.add (q.2.exponent.mulScalar ((q.1 : Int) : F))) q) ∧
      ∀ k, x k ≠ 0 → Indep (l.foldl (fun (acc : Poly n F) q => acc.add (q.2.exponent.mulScalar ((q.1 : Int) : F))) q) k := by
    intro l
    induction l with
    | nil => intro q _ h1 h2; exact ⟨h1, h2⟩
    | cons a l ih =>
      intro q h1 h2 h3
      obtain ⟨p, hp, e⟩ := h1 a (by simp)
      refine ih _ (fun b hb => h1 b (by simp [hb])) (nonneg_add' h2 (nonneg_mulScalar (by rw [e]; exact hv.exponent_nonneg p hp) _)) ?_
      intro k hk
      refine indep_add (h3 k hk) (indep_mulScalar ?_ _)
      rw [e]
      by_contra hi
      exact hk (hreg p hp k hi)
  have hz : NonNeg (zeroPoly : Poly n F) := nonneg_zero
  obtain ⟨g1, g2⟩ := hfold rs zeroPoly hps hz (fun k _ t ht => by simp [zeroPoly] at ht; simp [ht])
  intro t ht k hk
  rw [← h] at ht
  have h1 := nonneg_addScalar g1 ((r.1 : Int) : F) t ht k
  refine ⟨?_, by omega⟩
  by_contra hx
  exact hk (indep_addScalar (g2 k hx) _ t ht)

theorem zipIdx_map_range {α : Type} (g : ℕ → α) (m : ℕ) :
    ((List.range m).map g).zipIdx = (List.range m).map (fun k => (g k, k)) := by
  refine List.ext_getElem (by simp) fun k h1 h2 => ?_
  simp

theorem sum_map_range (g : ℕ → ℂ) (m : ℕ) : ((List.range m).map g).sum = ∑ k ∈ Finset.range m, g k := by
  induction m with
  | zero => simp
  | succ m ih => rw [List.range_succ, List.map_append, List.sum_append, ih, Finset.sum_range_succ]; simp

end Regions
end SecDec
