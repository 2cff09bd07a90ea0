import Verif.Model.Decomp
import Verif.Proof.DecompIntegral
import Verif.Proof.Misc
import Verif.Proof.PolyRefactorize
import Verif.Proof.PolyArith
set_option linter.unusedSectionVars false
namespace SecDec.Decomp
open SecDec SecDec.Squash MeasureTheory

variable {n : Nat} {R E : Type}

/-! ### exponents -/

theorem foldl_remap (a : Fin n) (rest : List (Fin n)) (ha : a ∉ rest) (e : Expo n) :
    rest.foldl (fun e b => Function.update e a (e a + e b)) e =
      Function.update e a (e a + (rest.map e).sum) := by
  induction rest generalizing e with
  | nil => simp
  | cons b rest ih =>
    have hab : b ≠ a := fun h => ha (by simp [h])
    have har : a ∉ rest := fun h => ha (by simp [h])
    rw [List.foldl_cons, ih har]
    have : rest.map (Function.update e a (e a + e b)) = rest.map e := by
      apply List.map_congr_left
      intro c hc
      have : c ≠ a := fun h => har (h ▸ hc)
      simp [this]
    rw [this]
    simp [add_assoc]

theorem remapExpo_cons (a : Fin n) (rest : List (Fin n)) (ha : a ∉ rest) (e : Expo n) :
    remapExpo (a :: rest) e = Function.update e a (e a + (rest.map e).sum) := foldl_remap a rest ha e

theorem mono_update {K : Type} [Field K] (y : Fin n → K) (a : Fin n) (hy : y a ≠ 0) (e : Expo n)
    (k : Int) : Poly.mono y (Function.update e a (e a + k)) = y a ^ k * Poly.mono y e := by
  classical
  unfold Poly.mono
  rw [← Finset.mul_prod_erase _ _ (Finset.mem_univ a),
    ← Finset.mul_prod_erase Finset.univ (fun i => y i ^ e i) (Finset.mem_univ a)]
  have : ∏ x ∈ Finset.univ.erase a, y x ^ Function.update e a (e a + k) x =
      ∏ x ∈ Finset.univ.erase a, y x ^ e x := by
    apply Finset.prod_congr rfl
    intro i hi
    rw [Function.update_of_ne (Finset.ne_of_mem_erase hi)]
  rw [this, Function.update_self, zpow_add₀ hy]
  ring

theorem zpow_list_sum {K : Type} [Field K] (x : K) (hx : x ≠ 0) (l : List Int) :
    x ^ l.sum = (l.map (fun k => x ^ k)).prod := by
  induction l with
  | nil => simp
  | cons a l ih => simp [zpow_add₀ hx, ih]

theorem mono_phi (a : Fin n) (rest : List (Fin n)) (hnd : rest.Nodup)
    (y : Fin n → ℝ) (hy : ∀ i, y i ≠ 0) (e : Expo n) :
    Poly.mono (phi a rest y) e = y a ^ (rest.map e).sum * Poly.mono y e := by
  classical
  have h1 : ∀ i, phi a rest y i ^ e i = (if i ∈ rest.toFinset then y a ^ e i else 1) * y i ^ e i := by
    intro i
    by_cases h : i ∈ rest <;> simp [phi, h, mul_zpow]
  unfold Poly.mono
  simp only [h1, Finset.prod_mul_distrib]
  congr 1
  rw [Finset.prod_ite_mem, Finset.univ_inter, zpow_list_sum _ (hy a), List.map_map,
    List.prod_toFinset _ hnd]
  rfl

theorem mono_remap (a : Fin n) (rest : List (Fin n)) (ha : a ∉ rest) (hnd : rest.Nodup)
    (y : Fin n → ℝ) (hy : ∀ i, y i ≠ 0) (e : Expo n) :
    Poly.mono y (remapExpo (a :: rest) e) = Poly.mono (phi a rest y) e := by
  rw [remapExpo_cons a rest ha, mono_update y a (hy a), mono_phi a rest hnd y hy]

theorem eval_remap (a : Fin n) (rest : List (Fin n)) (ha : a ∉ rest) (hnd : rest.Nodup)
    (y : Fin n → ℝ) (hy : ∀ i, y i ≠ 0) (ex ex' : Option E) (terms : List (Expo n × ℝ)) :
    (⟨remapTerms (a :: rest) terms, ex⟩ : SPoly n ℝ E).eval y =
      (⟨terms, ex'⟩ : SPoly n ℝ E).eval (phi a rest y) := by
  unfold SPoly.eval Poly.eval remapTerms
  simp only [List.map_map]
  congr 1
  apply List.map_congr_left
  intro t _
  simp only [Function.comp]
  rw [mono_remap a rest ha hnd y hy]

/-! ### refactorize -/

theorem refactorizeAt_value {K : Type} [Field K] {i : Fin n} {p q : SProd n K E}
    (h : refactorizeAt i p = some q) (y : Fin n → K) (hy : ∀ i, y i ≠ 0) :
    q.mono.2 * Poly.mono y q.mono.1 * q.poly.eval y = p.mono.2 * Poly.mono y p.mono.1 * p.poly.eval y
    ∧ q.poly.exponent = p.poly.exponent := by
  unfold refactorizeAt at h
  rw [Option.map_eq_some_iff] at h
  obtain ⟨k, _, rfl⟩ := h
  refine ⟨?_, rfl⟩
  have hp : (⟨p.poly.terms.map (fun t => (Function.update t.1 i (t.1 i - k), t.2)),
      p.poly.exponent⟩ : SPoly n K E).eval y = y i ^ (-k) * p.poly.eval y := by
    unfold SPoly.eval Poly.eval
    simp only [List.map_map]
    rw [← List.sum_map_mul_left]
    congr 1
    apply List.map_congr_left
    intro t _
    simp only [Function.comp]
    rw [sub_eq_add_neg, mono_update y i (hy i)]
    ring
  simp only
  rw [mono_update y i (hy i), hp]
  have : y i ^ k * y i ^ (-k) = 1 := by
    rw [← zpow_add₀ (hy i)]; simp
  linear_combination (p.mono.2 * Poly.mono y p.mono.1 * p.poly.eval y) * this

theorem mapM_option_forall₂ {α β : Type} {f : α → Option β} {l : List α} {r : List β}
    (h : l.mapM f = some r) : List.Forall₂ (fun a b => f a = some b) l r := by
  induction l generalizing r with
  | nil => simp at h; subst h; exact .nil
  | cons a l ih =>
    rw [List.mapM_cons] at h
    simp only [Option.bind_eq_bind, Option.pure_def, Option.bind_eq_some_iff] at h
    obtain ⟨b, hb, r', hr', h⟩ := h
    cases h
    exact .cons hb (ih hr')

theorem mapM_except_forall₂ {ε α β : Type} {f : α → Except ε β} {l : List α} {r : List β}
    (h : l.mapM f = .ok r) : List.Forall₂ (fun a b => f a = .ok b) l r := by
  induction l generalizing r with
  | nil => simp [pure, Except.pure] at h; subst h; exact .nil
  | cons a l ih =>
    rw [List.mapM_cons] at h
    cases hf : f a with
    | error e => simp [hf, bind, Except.bind] at h
    | ok b =>
      cases hl : l.mapM f with
      | error e => simp [hf, hl, bind, Except.bind] at h
      | ok r' =>
        simp [hf, hl, bind, Except.bind, pure, Except.pure] at h
        subst h
        exact .cons hf (ih hl)

theorem mapM_except_error {ε α β : Type} {f : α → Except ε β} {l : List α} {e : ε}
    (h : l.mapM f = .error e) : ∃ a ∈ l, f a = .error e := by
  induction l with
  | nil => simp [pure, Except.pure] at h
  | cons a l ih =>
    rw [List.mapM_cons] at h
    cases hf : f a with
    | error e' =>
      simp [hf, bind, Except.bind] at h
      exact ⟨a, by simp, by rw [hf, h]⟩
    | ok b =>
      cases hl : l.mapM f with
      | error e' =>
        simp [hf, hl, bind, Except.bind] at h
        subst h
        obtain ⟨a', ha', h'⟩ := ih hl
        exact ⟨a', by simp [ha'], h'⟩
      | ok r' => simp [hf, hl, bind, Except.bind, pure, Except.pure] at h

/-! ### one subsector -/

theorem subsector_integrand {V : Type} [NormedAddCommGroup V] [NormedSpace ℝ V]
    {s t : Sector n ℝ E} {a : Fin n} {rest : List (Fin n)} (ha : a ∉ rest)
    (hnd : rest.Nodup) (h : subsector s (a :: rest) = .ok t)
    (F : List (ℝ × Option E) → List (ℝ × Option E) → V)
    (y : Fin n → ℝ) (hy : ∀ i, y i ≠ 0) :
    integrand F t y = y a ^ rest.length • integrand F s (phi a rest y) := by
  unfold subsector at h
  simp only at h
  split at h
  · cases h
  · rename_i cast hc
    cases h
    have hc := mapM_option_forall₂ hc
    rw [List.forall₂_map_left_iff] at hc
    have hcast : cast.map (fun p => (p.mono.2 * Poly.mono y p.mono.1 * p.poly.eval y,
        p.poly.exponent)) = s.cast.map (fun p => (p.mono.2 * Poly.mono (phi a rest y) p.mono.1 *
          p.poly.eval (phi a rest y), p.poly.exponent)) := by
      clear * - hc hy ha hnd
      generalize s.cast = l at hc
      induction hc with
      | nil => rfl
      | cons hpq _ ih =>
        rw [List.map_cons, List.map_cons, ih]
        obtain ⟨h1, h2⟩ := refactorizeAt_value hpq y hy
        rw [h1, h2]
        simp only [mono_remap a rest ha hnd y hy]
        congr 3
        exact eval_remap a rest ha hnd y hy _ _ _
    have hother : (s.other.map (fun p => ({ p with terms := remapTerms (a :: rest) p.terms }
        : SPoly n ℝ E))).map (fun p => (p.eval y, p.exponent)) =
        s.other.map (fun p => (p.eval (phi a rest y), p.exponent)) := by
      rw [List.map_map]
      apply List.map_congr_left
      intro p _
      simp only [Function.comp]
      congr 1
      exact eval_remap a rest ha hnd y hy _ _ _
    unfold integrand Sector.value
    simp only
    rw [hcast, hother, smul_smul]
    congr 1
    simp only [jacShift]
    rw [mono_update y a (hy a), mono_remap a rest ha hnd y hy]
    rw [zpow_natCast]
    ring

/-! ### the swapped copies of the singular set -/

theorem swappedSets_spec (S : List (Fin n)) (hnd : S.Nodup) :
    List.Forall₂ (fun a S' => ∃ rest, S' = a :: rest ∧ rest.Perm (S.erase a)) S (swappedSets S) := by
  rw [List.forall₂_iff_get]
  refine ⟨by simp [swappedSets], ?_⟩
  intro i hi hi'
  cases S with
  | nil => simp at hi
  | cons x0 tl =>
    simp only [swappedSets, List.get_eq_getElem, List.getElem_map, List.getElem_range]
    cases i with
    | zero =>
      refine ⟨tl, ?_, ?_⟩
      · simp
      · simp
    | succ j =>
      have hj : j < tl.length := by simpa using hi
      refine ⟨tl.set j x0, ?_, ?_⟩
      · simp [List.getElem?_eq_getElem hj]
      · simp only [List.getElem_cons_succ]
        have hne : tl[j] ≠ x0 := by
          intro h
          exact (List.nodup_cons.1 hnd).1 (h ▸ List.getElem_mem hj)
        rw [List.erase_cons_tail (by simpa using hne.symm)]
        refine (List.set_perm_cons_eraseIdx hj x0).trans ?_
        rw [(List.nodup_cons.1 hnd).2.erase_getElem]

/-! ### the singular set -/

theorem possibleSets_subset (p : SPoly n R E) (l acc : List (List (Fin n))) :
    ∀ S ∈ possibleSets p l acc, S ∈ acc ∨ (S ∈ l ∧ (⟨p.terms⟩ : Poly n R).becomesZeroFor S = true) := by
  fun_induction possibleSets p l acc with
  | case1 acc => intro S h; exact Or.inl h
  | case2 acc S rest h => intro S h; exact Or.inl h
  | case3 acc S rest h hz ih =>
    intro T hT
    rcases ih T hT with h | h
    · rw [List.mem_append, List.mem_singleton] at h
      rcases h with h | rfl
      · exact Or.inl h
      · exact Or.inr ⟨by simp, hz⟩
    · exact Or.inr ⟨by simp [h.1], h.2⟩
  | case4 acc S rest h hz ih =>
    intro T hT
    rcases ih T hT with h | h
    · exact Or.inl h
    · exact Or.inr ⟨by simp [h.1], h.2⟩

theorem possibleSets_acc (p : SPoly n R E) (l acc : List (List (Fin n))) :
    ∀ S ∈ acc, S ∈ possibleSets p l acc := by
  fun_induction possibleSets p l acc with
  | case1 acc => intro S h; exact h
  | case2 acc S rest h => intro S h; exact h
  | case3 acc S rest h hz ih => intro T hT; exact ih T (by simp [hT])
  | case4 acc S rest h hz ih => exact ih

theorem possibleSets_ne_nil (p : SPoly n R E) (l acc : List (List (Fin n)))
    (h : ∃ S ∈ l, (⟨p.terms⟩ : Poly n R).becomesZeroFor S = true) : possibleSets p l acc ≠ [] := by
  obtain ⟨S, hS, hz⟩ := h
  fun_induction possibleSets p l acc with
  | case1 acc => simp at hS
  | case2 T rest acc h =>
    cases acc with
    | nil => simp at h
    | cons => simp
  | case3 T rest acc h hzT ih =>
    have := possibleSets_acc p rest (acc ++ [T]) T (by simp)
    intro hn; rw [hn] at this; simp at this
  | case4 T rest acc h hzT ih =>
    rcases List.mem_cons.1 hS with rfl | hS
    · exact absurd hz hzT
    · exact ih hS

theorem bestStep_inner (indices : List (Fin n)) (cast : List (SProd n R E)) (acc : Nat × Best n) :
    ∀ S ∈ (cast.foldl (fun (acc : Nat × Best n) p =>
      let howmany := if hasConst indices p.poly then acc.1 else acc.1 + 1
      if acc.2.howmanyMax < howmany then (howmany, { howmanyMax := howmany, bestSets := [] })
      else (howmany, acc.2)) acc).2.bestSets, S ∈ acc.2.bestSets := by
  induction cast generalizing acc with
  | nil => intro S h; exact h
  | cons p cast ih =>
    intro S h
    rw [List.foldl_cons] at h
    have := ih _ S h
    revert this
    simp only
    split_ifs <;> simp

theorem best_subset (indices : List (Fin n)) (cast : List (SProd n R E)) (l : List (List (Fin n)))
    (st : Best n) : ∀ S ∈ (l.foldl (bestStep indices cast) st).bestSets, S ∈ st.bestSets ∨ S ∈ l := by
  induction l generalizing st with
  | nil => intro S h; exact Or.inl h
  | cons T l ih =>
    intro S h
    rw [List.foldl_cons] at h
    rcases ih _ S h with h | h
    · unfold bestStep at h
      simp only at h
      rw [List.mem_append, List.mem_singleton] at h
      rcases h with h | rfl
      · exact Or.inl (bestStep_inner indices cast (0, st) S h)
      · exact Or.inr (by simp)
    · exact Or.inr (by simp [h])

theorem best_ne_nil (indices : List (Fin n)) (cast : List (SProd n R E)) (l : List (List (Fin n)))
    (st : Best n) (h : l ≠ []) : (l.foldl (bestStep indices cast) st).bestSets ≠ [] := by
  obtain ⟨l', T, rfl⟩ := List.eq_nil_or_concat l |>.resolve_left h
  rw [List.concat_eq_append, List.foldl_append, List.foldl_cons, List.foldl_nil]
  unfold bestStep
  simp

theorem pickBest_spec (p : SPoly n R E) (sets : List (List (Fin n)))
    (acc r : Option (Int × List (Fin n)))
    (h : sets.foldlM (pickStep p) acc = some r) :
    (r = none → acc = none ∧ sets = []) ∧
    (∀ m S, r = some (m, S) → S ∈ sets ∨ acc = some (m, S)) := by
  induction sets generalizing acc with
  | nil =>
    simp at h; subst h
    exact ⟨fun h => ⟨h, rfl⟩, fun m S h => Or.inr h⟩
  | cons T sets ih =>
    rw [List.foldlM_cons] at h
    cases he : exposum p T with
    | none => simp [pickStep, he] at h
    | some e =>
      simp only [pickStep, he, Option.map_some, Option.bind_eq_bind, Option.bind_some] at h
      obtain ⟨h1, h2⟩ := ih _ h
      constructor
      · intro hr
        have := (h1 hr).1
        revert this
        split
        · simp
        · split_ifs <;> simp
      · intro m S hr
        rcases h2 m S hr with h | h
        · exact Or.inl (by simp [h])
        · revert h
          split
          · intro h
            simp at h
            exact Or.inl (by simp [h.2])
          · split_ifs
            · intro h
              simp at h
              exact Or.inl (by simp [h.2])
            · intro h
              exact Or.inr h

theorem exposum_isSome (p : SPoly n R E) (S : List (Fin n)) (h : p.terms ≠ []) :
    ∃ e, exposum p S = some e := by
  unfold exposum
  have : ∃ l, (S.mapM (fun i => (p.terms.map (fun t => t.1 i)).max?)) = some l := by
    induction S with
    | nil => exact ⟨[], rfl⟩
    | cons i S ih =>
      obtain ⟨l, hl⟩ := ih
      rw [List.mapM_cons, hl]
      have : (p.terms.map (fun t => t.1 i)) ≠ [] := by simpa using h
      obtain ⟨m, hm⟩ := Option.isSome_iff_exists.1 (List.isSome_max?_of_ne_nil this)
      exact ⟨m :: l, by simp [hm]⟩
  obtain ⟨l, hl⟩ := this
  exact ⟨l.sum, by rw [hl]; rfl⟩

theorem pickBest_isSome (p : SPoly n R E) (sets : List (List (Fin n))) (h : p.terms ≠ [])
    (acc : Option (Int × List (Fin n))) :
    ∃ r, sets.foldlM (pickStep p) acc = some r := by
  induction sets generalizing acc with
  | nil => exact ⟨acc, rfl⟩
  | cons T sets ih =>
    rw [List.foldlM_cons]
    obtain ⟨e, he⟩ := exposum_isSome p T h
    simp only [pickStep, he, Option.map_some, Option.bind_eq_bind, Option.bind_some]
    exact ih _

theorem mem_powerset2 (indices : List (Fin n)) (S : List (Fin n)) :
    S ∈ (Misc.powerset indices 2 1).getD [] ↔ S.Sublist indices ∧ 2 ≤ S.length := by
  have := Misc.powerset_perm indices 2 1 (by omega)
  obtain ⟨out, ho, hp⟩ := this
  rw [ho, Option.getD_some, hp.mem_iff]
  simp

/-- what is returned by `find_singular_set` -/
theorem findSingularSet_ok {s : Sector n R E} {indices S : List (Fin n)}
    (h : findSingularSet s indices = .ok S) :
    S.Sublist indices ∧ 2 ≤ S.length ∧ ∃ p ∈ s.cast, hasConst indices p.poly = false ∧
      (⟨p.poly.terms⟩ : Poly n R).becomesZeroFor S = true := by
  unfold findSingularSet at h
  split at h
  · cases h
  · rename_i prod hp
    simp only at h
    split_ifs at h with he
    split at h
    · cases h
    · cases h
    · rename_i m T hpick
      cases h
      have h1 := (pickBest_spec _ _ _ _ hpick).2 m S rfl
      simp only [reduceCtorEq, or_false] at h1
      have h2 := best_subset _ _ _ _ S h1
      simp only [List.not_mem_nil, false_or] at h2
      have h3 := possibleSets_subset _ _ _ S h2
      simp only [List.not_mem_nil, false_or] at h3
      obtain ⟨h3, hz⟩ := h3
      rw [mem_powerset2] at h3
      refine ⟨h3.1, h3.2, prod, List.mem_of_find?_eq_some hp, ?_, hz⟩
      have := List.find?_some hp
      simpa using this

theorem findSingularSet_error {s : Sector n R E} {indices : List (Fin n)} {e : Err}
    (href : Refactorized s) (h : findSingularSet s indices = .error e) :
    e = .endOfDecomposition ∧ StandardForm indices s := by
  unfold findSingularSet at h
  split at h
  · rename_i hn
    cases h
    refine ⟨rfl, fun p hp => ?_⟩
    rw [List.find?_eq_none] at hn
    have := hn p hp
    simp only [Bool.not_eq_true, Bool.not_eq_false', hasConst, Poly.hasConstantTerm, List.any_eq_true,
      List.all_eq_true, beq_iff_eq] at this
    exact this
  · exfalso
    rename_i prod hp
    have hmem := List.mem_of_find?_eq_some hp
    have hnc := List.find?_some hp
    obtain ⟨hne, hmin⟩ := href prod hmem
    simp only [Bool.not_eq_eq_eq_not, Bool.not_true, hasConst, Poly.hasConstantTerm,
      List.any_eq_false, Bool.not_eq_true, List.all_eq_false, beq_eq_false_iff_ne] at hnc
    -- the set of all indices nullifies
    have hz : (⟨prod.poly.terms⟩ : Poly n R).becomesZeroFor indices = true := by
      simp only [Poly.becomesZeroFor, List.all_eq_true, List.any_eq_true, decide_eq_true_eq]
      intro t ht
      obtain ⟨i, hi, h0⟩ := hnc t ht
      refine ⟨i, hi, ?_⟩
      have := (hmin i).1 t ht
      simp at h0
      omega
    have hlen : 2 ≤ indices.length := by
      match indices, hz with
      | [], hz =>
        obtain ⟨t, ts, hts⟩ := List.exists_cons_of_ne_nil hne
        simp [Poly.becomesZeroFor, hts] at hz
      | [i], hz =>
        obtain ⟨t, ht, h0⟩ := (hmin i).2
        simp only [Poly.becomesZeroFor, List.all_eq_true, List.any_eq_true, decide_eq_true_eq] at hz
        obtain ⟨j, hj, hpos⟩ := hz t ht
        simp at hj
        subst hj
        omega
      | _ :: _ :: _, _ => simp
    simp only at h
    have hposs := possibleSets_ne_nil prod.poly ((Misc.powerset indices 2 1).getD []) []
      ⟨indices, (mem_powerset2 _ _).2 ⟨List.Sublist.refl _, hlen⟩, hz⟩
    split_ifs at h with he
    · rw [List.isEmpty_iff] at he; exact hposs he
    · obtain ⟨r, hr⟩ := pickBest_isSome prod.poly
        (List.foldl (bestStep indices s.cast) ⟨1, []⟩
          (possibleSets prod.poly ((Misc.powerset indices 2 1).getD []) [])).bestSets hne none
      have hr' : pickBest prod.poly (List.foldl (bestStep indices s.cast) ⟨1, []⟩
          (possibleSets prod.poly ((Misc.powerset indices 2 1).getD []) [])).bestSets = some r := hr
      rw [hr'] at h
      cases r with
      | none =>
        have := ((pickBest_spec _ _ _ _ hr).1 rfl).2
        exact best_ne_nil _ _ _ _ hposs this
      | some r => simp at h

/-! ### refactorized sectors stay refactorized -/

theorem sum_nonneg_of {l : List (Fin n)} {e : Expo n} (h : ∀ i, 0 ≤ e i) : 0 ≤ (l.map e).sum := by
  apply List.sum_nonneg
  intro x hx
  obtain ⟨i, _, rfl⟩ := List.mem_map.1 hx
  exact h i

theorem subsector_refactorized {s t : Sector n R E} {a : Fin n} {rest : List (Fin n)} (ha : a ∉ rest)
    (href : Refactorized s) (h : subsector s (a :: rest) = .ok t) : Refactorized t := by
  unfold subsector at h
  simp only at h
  split at h
  · cases h
  · rename_i cast hc
    cases h
    have hc := mapM_option_forall₂ hc
    rw [List.forall₂_map_left_iff] at hc
    intro q hq
    have : ∃ p ∈ s.cast, refactorizeAt a (⟨(remapExpo (a :: rest) p.mono.1, p.mono.2),
        ⟨remapTerms (a :: rest) p.poly.terms, p.poly.exponent⟩⟩ : SProd n R E) = some q := by
      have hq' : q ∈ cast := hq
      obtain ⟨k, hk, rfl⟩ := List.mem_iff_getElem.1 hq'
      have hl := hc.length_eq
      have := List.forall₂_iff_get.1 hc |>.2 k (by omega) hk
      exact ⟨_, List.getElem_mem _, this⟩
    obtain ⟨p, hp, hpq⟩ := this
    obtain ⟨hne, hmin⟩ := href p hp
    unfold refactorizeAt at hpq
    rw [Option.map_eq_some_iff] at hpq
    obtain ⟨k, hk, rfl⟩ := hpq
    simp only [remapTerms, List.map_map] at hk ⊢
    refine ⟨by simpa using hne, fun i => ?_⟩
    rw [List.min?_eq_some_iff] at hk
    obtain ⟨hk1, hk2⟩ := hk
    by_cases hi : i = a
    · subst hi
      constructor
      · intro t' ht'
        obtain ⟨u, hu, rfl⟩ := List.mem_map.1 ht'
        have := hk2 _ (List.mem_map.2 ⟨u, hu, rfl⟩)
        simp only [Function.comp, Function.update_self] at this ⊢
        omega
      · obtain ⟨u, hu, huk⟩ := List.mem_map.1 hk1
        refine ⟨_, List.mem_map.2 ⟨u, hu, rfl⟩, ?_⟩
        simp only [Function.comp, Function.update_self] at huk ⊢
        omega
    · constructor
      · intro t' ht'
        obtain ⟨u, hu, rfl⟩ := List.mem_map.1 ht'
        simp only [Function.comp, Function.update_of_ne hi, remapExpo_cons a rest ha]
        exact (hmin i).1 u hu
      · obtain ⟨u, hu, h0⟩ := (hmin i).2
        refine ⟨_, List.mem_map.2 ⟨u, hu, rfl⟩, ?_⟩
        simp only [Function.comp, Function.update_of_ne hi, remapExpo_cons a rest ha]
        exact h0

theorem subsector_ok {s : Sector n R E} {a : Fin n} {rest : List (Fin n)}
    (href : ∀ p ∈ s.cast, p.poly.terms ≠ []) : ∃ t, subsector s (a :: rest) = .ok t := by
  unfold subsector
  simp only
  have : ∃ c, (s.cast.map (fun p => (⟨(remapExpo (a :: rest) p.mono.1, p.mono.2),
        ⟨remapTerms (a :: rest) p.poly.terms, p.poly.exponent⟩⟩ : SProd n R E))).mapM
        (refactorizeAt a) = some c := by
    generalize s.cast = l at href
    induction l with
    | nil => exact ⟨[], rfl⟩
    | cons p l ih =>
      obtain ⟨c, hc⟩ := ih (fun p hp => href p (by simp [hp]))
      have hne : ((remapTerms (a :: rest) p.poly.terms).map (fun t => t.1 a)) ≠ [] := by
        simpa [remapTerms] using href p (by simp)
      obtain ⟨m, hm⟩ := Option.isSome_iff_exists.1 (List.isSome_min?_of_ne_nil hne)
      rw [List.map_cons, List.mapM_cons, hc]
      simp [refactorizeAt, hm]
  obtain ⟨c, hc⟩ := this
  rw [hc]
  exact ⟨_, rfl⟩

end SecDec.Decomp
