import Mathlib.Topology.Constructions
import Verif.Proof.PolyCalc
import Verif.Proof.ExprSimplify
set_option linter.unusedSectionVars false
namespace SecDec
namespace Expr
variable {n : Nat} {F : Type} [CommRing F] [DecidableEq F]
variable {M : Mode n F} {φ : F →+* ℂ} {U : Set (Fin n → ℂ)} {i : Fin n} [M.Laws]

/-- `e'` is admissible and its value is the partial derivative of the function `f`. -/
def IsD (M : Mode n F) (φ : F →+* ℂ) (U : Set (Fin n → ℂ)) (i : Fin n) (f : (Fin n → ℂ) → ℂ) (e' : Expr n F) : Prop :=
  Adm M φ U e' ∧ ∀ x ∈ U, HasDerivAt (fun s => f (Function.update x i s)) (eval φ x e') (x i)

theorem deriv_terms_list (i : Fin n) (x : Fin n → ℂ) (ts : Terms n F) (dv : List ℂ)
    (hdef : ∀ t ∈ ts, DefinedAt x t.1)
    (hd : List.Forall₂ (fun (t : Expo n × Expr n F) d =>
      HasDerivAt (fun s => eval φ (Function.update x i s) t.2) d (x i)) ts dv) :
    HasDerivAt (fun s => tsum φ (Function.update x i s) ts)
      ((ts.map (fun t => if t.1 i ≠ 0 then
        eval φ x t.2 * ((t.1 i : Int) : ℂ) * Poly.mono x (Function.update t.1 i (t.1 i - 1)) else 0)).sum
       + ((ts.zip dv).map (fun p => p.2 * Poly.mono x p.1.1)).sum) (x i) := by
  induction hd with
  | nil => simpa [tsum] using hasDerivAt_const (x i) (0:ℂ)
  | cons h1 _ ih =>
    rename_i t d ts dv _
    have ih' := ih (fun t ht => hdef t (by simp [ht]))
    simp only [tsum_cons, List.map_cons, List.sum_cons, List.zip_cons_cons]
    have hm : HasDerivAt (fun s => Poly.mono (Function.update x i s) t.1)
        (if t.1 i ≠ 0 then ((t.1 i : Int) : ℂ) * Poly.mono x (Function.update t.1 i (t.1 i - 1)) else 0) (x i) := by
      have := Poly.hasDerivAt_term (t.1, (1:ℂ)) i x (by
        by_cases hx : x i = 0
        · exact Or.inr (hdef t (by simp) i hx)
        · exact Or.inl hx)
      simpa using this
    have hmul := h1.fun_mul hm
    have hupd : Function.update x i (x i) = x := Function.update_eq_self i x
    rw [hupd] at hmul
    refine (hmul.fun_add ih').congr_deriv ?_
    split <;> ring

theorem tsum_s1 (fuel : Nat) (i : Fin n) (x : Fin n → ℂ) (hx : x ∈ U) (ts : Terms n F)
    (hA : ∀ t ∈ ts, Adm M φ U t.2) :
    tsum φ x ((ts.filter (fun t => decide (t.1 i ≠ 0))).map
      (fun t => (Function.update t.1 i (t.1 i - 1), cmul fuel t.2 ((t.1 i : Int) : F))))
    = (ts.map (fun t => if t.1 i ≠ 0 then
        eval φ x t.2 * ((t.1 i : Int) : ℂ) * Poly.mono x (Function.update t.1 i (t.1 i - 1)) else 0)).sum := by
  induction ts with
  | nil => rfl
  | cons t ts ih =>
    have ih' := ih (fun t ht => hA t (by simp [ht]))
    by_cases h0 : t.1 i = 0
    · rw [List.filter_cons_of_neg (by simp [h0]), ih']
      simp [h0]
    · rw [List.filter_cons_of_pos (by simp [h0]), List.map_cons, tsum_cons, ih']
      have := (cmul_ok (M := M) (φ := φ) (U := U) fuel t.2 ((t.1 i : Int) : F) (hA t (by simp))).2 x hx
      simp [h0, this]

theorem deriveTerms_ok (fuel : Nat) (ts : Terms n F) (dc : List (Option (Expr n F)))
    (hA : AdmT M φ U ts) (hdc : List.Forall₂ (fun (t : Expo n × Expr n F) d =>
      (t.2.isNum = true ∧ d = none) ∨ ∃ d', d = some d' ∧ IsD M φ U i (fun y => eval φ y t.2) d' ∧ M.coef d') ts dc) :
    IsD M φ U i (fun y => tsum φ y ts) (.poly (deriveTerms fuel ts dc i)) := by
  -- the derivative's value
  set s1 : Terms n F := (ts.filter (fun t => decide (t.1 i ≠ 0))).map
    (fun t => (Function.update t.1 i (t.1 i - 1), cmul fuel t.2 ((t.1 i : Int) : F))) with hs1
  set s2 : Terms n F := (ts.zip dc).map (fun p => (p.1.1, p.2.getD (.num 0))) with hs2
  have key : ∀ x ∈ U, HasDerivAt (fun s => tsum φ (Function.update x i s) ts) (tsum φ x s1 + tsum φ x s2) (x i) := by
    intro x hx
    have hdv : List.Forall₂ (fun (t : Expo n × Expr n F) d =>
        HasDerivAt (fun s => eval φ (Function.update x i s) t.2) d (x i)) ts
        (dc.map (fun d => eval φ x (d.getD (.num 0)))) := by
      rw [List.forall₂_map_right_iff]
      refine hdc.imp ?_
      rintro t d (⟨h1, rfl⟩ | ⟨d', rfl, h2⟩)
      · obtain ⟨a, b⟩ := t
        cases b <;> simp [isNum] at h1
        simpa [eval_num] using hasDerivAt_const (x i) _
      · simpa using h2.1.2 x hx
    have := deriv_terms_list i x ts _ (fun t ht => hA.1 t ht x hx) hdv
    refine this.congr_deriv ?_
    rw [tsum_s1 fuel i x hx ts (fun t ht => (hA.2 t ht).1), hs2]
    congr 1
    unfold tsum
    rw [List.map_map, List.zip_map_right, List.map_map]
    rfl
  have a1 : AdmT M φ U s1 := by
    constructor
    · intro t ht x hx k hk
      obtain ⟨u, hu, rfl⟩ := List.mem_map.1 ht
      obtain ⟨hu1, hu2⟩ := List.mem_filter.1 hu
      have h0 : u.1 i ≠ 0 := by simpa using hu2
      have := hA.1 u hu1 x hx k hk
      by_cases hki : k = i
      · subst hki; simp; omega
      · simp [Function.update_of_ne hki, this]
    · intro t ht
      obtain ⟨u, hu, rfl⟩ := List.mem_map.1 ht
      exact ⟨(cmul_ok fuel _ _ (hA.2 u (List.mem_filter.1 hu).1).1).1, Mode.Laws.cmulc fuel _ _ (hA.2 u (List.mem_filter.1 hu).1).2⟩
  have a2 : AdmT M φ U s2 := by
    constructor
    · intro t ht x hx
      obtain ⟨p, hp, rfl⟩ := List.mem_map.1 ht
      exact hA.1 p.1 (List.of_mem_zip (a := p.1) (b := p.2) hp).1 x hx
    · intro t ht
      obtain ⟨p, hp, rfl⟩ := List.mem_map.1 ht
      obtain ⟨u, _, hu⟩ := forall₂_mem_right hdc (List.of_mem_zip (a := p.1) (b := p.2) hp).2
      rcases hu with ⟨_, h⟩ | ⟨d', h, h'⟩
      · simp [h, Adm.num, Mode.Laws.numc (M := M)]
      · simp [h, h'.1.1, h'.2]
  have s2zero : dc.any Option.isSome = false → ∀ x, tsum φ x s2 = 0 := by
    intro h x
    unfold tsum
    apply List.sum_eq_zero
    intro y hy
    obtain ⟨t, ht, rfl⟩ := List.mem_map.1 hy
    obtain ⟨p, hp, rfl⟩ := List.mem_map.1 ht
    have hn : p.2 = none := by
      have := (List.of_mem_zip (a := p.1) (b := p.2) hp).2
      rw [List.any_eq_false] at h
      have := h p.2 this
      cases hp2 : p.2 with
      | none => rfl
      | some v => simp [hp2] at this
    simp [hn, eval_num]
  have s1zero : s1.length = 0 → ∀ x, tsum φ x s1 = 0 := by
    intro h x
    rw [List.length_eq_zero_iff.1 h]; rfl
  have fin : ∀ us : Terms n F, AdmT M φ U us → (∀ x ∈ U, tsum φ x us = tsum φ x s1 + tsum φ x s2) →
      IsD M φ U i (fun y => tsum φ y ts) (.poly us) := by
    intro us h1 h2
    refine ⟨(adm_poly_iff _).2 h1, fun x hx => ?_⟩
    rw [eval_poly', h2 x hx]; exact key x hx
  unfold deriveTerms
  simp only [← hs1, ← hs2]
  split
  · split
    · rename_i h; exact fin s2 a2 (fun x _ => by rw [s1zero h]; simp)
    · obtain ⟨m1, m2, _⟩ := merge_sort_spec (cadd_ok fuel) _ (a1.append a2)
      exact fin _ m1 (fun x hx => by rw [m2 x hx, tsum_append])
  · rename_i hany
    have hany' : dc.any Option.isSome = false := by simpa using hany
    split
    · rename_i h
      refine fin _ (admT_const 0) (fun x _ => ?_)
      rw [s1zero h, s2zero hany']; simp [tsum, eval_num]
    · exact fin s1 a1 (fun x _ => by rw [s2zero hany']; simp)

theorem derive_poly_form {fuel : Nat} {ts : Terms n F} {e' : Expr n F}
    (h : derive fuel (.poly ts) i = some e') : ∃ us, e' = .poly us := by
  cases fuel with
  | zero => simp [derive] at h
  | succ fuel =>
    simp only [derive] at h
    obtain ⟨dc, _, h⟩ := Option.bind_eq_some_iff.1 h
    simp at h; exact ⟨_, h.symm⟩

/-- The Leibniz rule for lists. -/
theorem hasDerivAt_list_prod (fs : List (ℂ → ℂ)) (ds : List ℂ) (x : ℂ)
    (h : List.Forall₂ (fun f d => HasDerivAt f d x) fs ds) :
    HasDerivAt (fun s => (fs.map (fun f => f s)).prod)
      (∑ j ∈ Finset.range fs.length, ((fs.map (fun f => f x)).set j (ds.getD j 0)).prod) x := by
  induction h with
  | nil => simpa using hasDerivAt_const x (1:ℂ)
  | cons h1 _ ih =>
    rename_i f d fs ds _
    simp only [List.map_cons, List.prod_cons, List.length_cons]
    refine (h1.fun_mul ih).congr_deriv ?_
    rw [Finset.sum_range_succ']
    simp only [List.set_cons_zero, List.set_cons_succ, List.prod_cons, List.getD_cons_zero,
      List.getD_cons_succ]
    rw [Finset.mul_sum]; ring

theorem sum_flatMap_range {α : Type} (m : Nat) (l : List α) (g : Nat → α → ℂ) :
    (((List.range m).flatMap (fun j => l.map (g j))).sum) = (l.map (fun a => ∑ j ∈ Finset.range m, g j a)).sum := by
  induction m with
  | zero => simp
  | succ m ih =>
    rw [List.range_succ, List.flatMap_append, List.sum_append, ih]
    simp only [List.flatMap_cons, List.flatMap_nil, List.append_nil, Finset.sum_range_succ]
    rw [List.sum_map_add]

theorem update_mem (hU : IsOpen U) {x : Fin n → ℂ} (hx : x ∈ U) (i : Fin n) :
    ∀ᶠ s in nhds (x i), Function.update x i s ∈ U := by
  have hc : Continuous (fun s => Function.update x i s) := continuous_const.update i continuous_id
  have := hc.continuousAt (x := x i)
  apply this
  beta_reduce
  rw [Function.update_eq_self]
  exact hU.mem_nhds hx

theorem IsD.congr (hU : IsOpen U) {f g : (Fin n → ℂ) → ℂ} {e' : Expr n F} (h : IsD M φ U i f e')
    (hfg : ∀ x ∈ U, g x = f x) : IsD M φ U i g e' := by
  refine ⟨h.1, fun x hx => ?_⟩
  refine (h.2 x hx).congr_of_eventuallyEq ?_
  filter_upwards [update_mem hU hx i] with s hs
  exact hfg _ hs

theorem isD_of_val {f : (Fin n → ℂ) → ℂ} {v : (Fin n → ℂ) → ℂ} {e' : Expr n F} (hv : Val M φ U e' v)
    (h : ∀ x ∈ U, HasDerivAt (fun s => f (Function.update x i s)) (v x) (x i)) : IsD M φ U i f e' :=
  ⟨hv.1, fun x hx => by rw [hv.2 x hx]; exact h x hx⟩

theorem list_set_map (l : List (Expr n F)) (j : Nat) (e : Expr n F) (x : Fin n → ℂ) :
    (l.set j e).map (eval φ x) = (l.map (eval φ x)).set j (eval φ x e) := by
  rw [List.map_set]

theorem mem_set_adm {l : List (Expr n F)} {j : Nat} {e : Expr n F} (hl : ∀ a ∈ l, Adm M φ U a)
    (he : Adm M φ U e) : ∀ a ∈ l.set j e, Adm M φ U a := by
  intro a ha
  rcases List.mem_or_eq_of_mem_set ha with h | h
  · exact hl a h
  · subst h; exact he

theorem forall₂_getD {α β : Type} {R : α → β → Prop} {l : List α} {l' : List β} (h : List.Forall₂ R l l')
    (j : Nat) (hj : j < l.length) (a : α) (b : β) : R (l.getD j a) (l'.getD j b) := by
  have hl := h.length_eq
  rw [List.getD_eq_getElem _ _ hj, List.getD_eq_getElem _ _ (by omega)]
  exact (List.forall₂_iff_get.1 h).2 j hj (by omega)

theorem prule_derive_ok (terms : List (Int × List (Expr n F))) (dterms : List (List (Expr n F)))
    (hA : ∀ t ∈ terms, ∀ e ∈ t.2, Adm M φ U e)
    (hlen : ∀ t ∈ terms, ∀ t' ∈ terms, t.2.length = t'.2.length)
    (hd : List.Forall₂ (fun (t : Int × List (Expr n F)) ds =>
      List.Forall₂ (fun f d => IsD M φ U i (fun y => eval φ y f) d) t.2 ds) terms dterms) :
    IsD M φ U i (fun y => eval φ y (.prule terms))
      (.prule ((List.range (terms.headD (0, [])).2.length).flatMap (fun j => (terms.zip dterms).map (fun p =>
        let factors := p.1.2.set j (p.2.getD j (.num 0))
        (if factors.any isZeroPoly then 0 else p.1.1, factors))))) := by
  set m := (terms.headD (0, [])).2.length with hm
  have hlm : ∀ t ∈ terms, t.2.length = m := by
    intro t ht
    cases terms with
    | nil => simp at ht
    | cons u us => rw [hm]; exact hlen t ht u (by simp)
  have hz : ∀ p ∈ terms.zip dterms, List.Forall₂ (fun f d => IsD M φ U i (fun y => eval φ y f) d) p.1.2 p.2 := by
    intro p hp
    have : ∀ (l : List (Int × List (Expr n F))) (l' : List (List (Expr n F))),
        List.Forall₂ (fun (t : Int × List (Expr n F)) ds =>
          List.Forall₂ (fun f d => IsD M φ U i (fun y => eval φ y f) d) t.2 ds) l l' →
        ∀ p ∈ l.zip l', List.Forall₂ (fun f d => IsD M φ U i (fun y => eval φ y f) d) p.1.2 p.2 := by
      intro l l' h
      induction h with
      | nil => simp
      | cons h1 _ ih =>
        intro p hp
        simp only [List.zip_cons_cons, List.mem_cons] at hp
        rcases hp with h | h
        · subst h; exact h1
        · exact ih p h
    exact this _ _ hd p hp
  have hz1 : ∀ p ∈ terms.zip dterms, p.1 ∈ terms := fun p hp => (List.of_mem_zip (a := p.1) (b := p.2) hp).1
  constructor
  · apply Adm.prule
    · intro t ht
      obtain ⟨j, hj, ht⟩ := List.mem_flatMap.1 ht
      obtain ⟨p, hp, rfl⟩ := List.mem_map.1 ht
      have hj' : j < p.1.2.length := by rw [hlm _ (hz1 p hp)]; simpa using hj
      apply mem_set_adm (hA _ (hz1 p hp))
      exact (forall₂_getD (hz p hp) j hj' (.num 0) (.num 0)).1
    · intro t ht t' ht'
      obtain ⟨j, hj, ht⟩ := List.mem_flatMap.1 ht
      obtain ⟨p, hp, rfl⟩ := List.mem_map.1 ht
      obtain ⟨j', hj', ht'⟩ := List.mem_flatMap.1 ht'
      obtain ⟨p', hp', rfl⟩ := List.mem_map.1 ht'
      simp only [List.length_set]
      rw [hlm _ (hz1 p hp), hlm _ (hz1 p' hp')]
  · intro x hx
    have hupd : Function.update x i (x i) = x := Function.update_eq_self i x
    -- value of the result
    have hval : eval φ x (.prule ((List.range m).flatMap (fun j => (terms.zip dterms).map (fun p =>
        let factors := p.1.2.set j (p.2.getD j (.num 0))
        (if factors.any isZeroPoly then 0 else p.1.1, factors)))))
      = ((terms.zip dterms).map (fun p => ∑ j ∈ Finset.range m,
          (p.1.1 : ℂ) * ((p.1.2.map (eval φ x)).set j ((p.2.map (eval φ x)).getD j 0)).prod)).sum := by
      rw [eval_prule, ← sum_flatMap_range, List.map_flatMap]
      congr 1
      apply List.flatMap_congr
      intro j hj
      rw [List.map_map]
      apply List.map_congr_left
      intro p hp
      have hj' : j < p.2.length := by
        have := (hz p hp).length_eq
        rw [← this, hlm _ (hz1 p hp)]; simpa using hj
      have e1 : (p.2.map (eval φ x)).getD j 0 = eval φ x (p.2.getD j (.num 0)) := by
        rw [List.getD_eq_getElem _ _ (by simpa using hj'), List.getD_eq_getElem _ _ hj']; simp
      simp only [Function.comp]
      rw [e1, ← list_set_map]
      by_cases h : (p.1.2.set j (p.2.getD j (.num 0))).any isZeroPoly = true
      · rw [prod_any_zero h]; simp
      · rw [if_neg h]
    rw [hval]
    -- derivative of the sum
    have hfun : (fun s => eval φ (Function.update x i s) (.prule terms))
        = fun s => ((terms.zip dterms).map (fun p => (p.1.1 : ℂ) * (p.1.2.map (eval φ (Function.update x i s))).prod)).sum := by
      funext s
      rw [eval_prule]
      have : terms = (terms.zip dterms).map (·.1) := by
        rw [List.map_fst_zip (by rw [hd.length_eq])]
      conv_lhs => rw [this]
      rw [List.map_map]; rfl
    rw [hfun]
    have hgen : ∀ L : List ((Int × List (Expr n F)) × List (Expr n F)), (∀ p ∈ L, p ∈ terms.zip dterms) →
        HasDerivAt (fun s => (L.map (fun p => (p.1.1 : ℂ) * (p.1.2.map (eval φ (Function.update x i s))).prod)).sum)
          ((L.map (fun p => ∑ j ∈ Finset.range m,
          (p.1.1 : ℂ) * ((p.1.2.map (eval φ x)).set j ((p.2.map (eval φ x)).getD j 0)).prod)).sum) (x i) := by
      intro L hL
      induction L with
      | nil => simpa using hasDerivAt_const (x i) (0:ℂ)
      | cons p L ih =>
        simp only [List.map_cons, List.sum_cons]
        refine HasDerivAt.fun_add ?_ (ih (fun q hq => hL q (by simp [hq])))
        have hp := hL p (by simp)
        have := hasDerivAt_list_prod (p.1.2.map (fun f s => eval φ (Function.update x i s) f))
          (p.2.map (eval φ x)) (x i) (by
            rw [List.forall₂_map_left_iff, List.forall₂_map_right_iff]
            refine (hz p hp).imp ?_
            intro f d hfd
            exact hfd.2 x hx)
        simp only [List.map_map, List.length_map] at this
        rw [hlm _ (hz1 p hp)] at this
        have := this.const_mul (p.1.1 : ℂ)
        rw [Finset.mul_sum] at this
        refine this.congr_deriv ?_
        apply Finset.sum_congr rfl
        intro j _
        have e2 : ((fun f : ℂ → ℂ => f (x i)) ∘ fun f s => eval φ (Function.update x i s) f)
            = (eval φ x : Expr n F → ℂ) := by
          funext f; simp
        rw [e2]
    exact hgen _ (fun p hp => hp)

theorem derive_ok (hU : IsOpen U) (fuel : Nat) : ∀ e e' : Expr n F, Adm M φ U e → derive fuel e i = some e' →
    IsD M φ U i (fun y => eval φ y e) e' := by
  induction fuel with
  | zero => intro e e' _ h; simp [derive] at h
  | succ fuel ih =>
    have hupd : ∀ x : Fin n → ℂ, Function.update x i (x i) = x := fun x => Function.update_eq_self i x
    intro e e' he h
    cases e with
    | num c =>
      simp only [derive, Option.some.injEq] at h; subst h
      refine ⟨adm_const 0, fun x _ => ?_⟩
      simp only [eval_num, eval_const, map_zero]
      exact hasDerivAt_const _ _
    | poly ts =>
      simp only [derive] at h
      obtain ⟨dc, hdc, h⟩ := Option.bind_eq_some_iff.1 h
      simp only [Option.some.injEq] at h; subst h
      have hA := (adm_poly_iff _).1 he
      have hf : List.Forall₂ (fun (t : Expo n × Expr n F) d =>
          (t.2.isNum = true ∧ d = none) ∨ ∃ d', d = some d' ∧ IsD M φ U i (fun y => eval φ y t.2) d' ∧ M.coef d') ts dc := by
        have h2 := mapM_some hdc
        have hA2 := hA.2
        clear hdc he hA h
        induction h2 with
        | nil => exact List.Forall₂.nil
        | cons h1 _ ih2 =>
          rename_i t d ts dc _
          refine List.Forall₂.cons ?_ (ih2 (fun t ht => hA2 t (by simp [ht])))
          split at h1
          · rename_i hn; simp at h1; exact Or.inl ⟨hn, h1.symm⟩
          · rename_i hnum
            obtain ⟨d', hd', h1⟩ := Option.map_eq_some_iff.1 h1
            exact Or.inr ⟨d', h1.symm, ih _ _ (hA2 t (by simp)).1 hd',
              Mode.Laws.derivec fuel _ d' i (hA2 t (by simp)).2 (by simpa using hnum) hd'⟩
      have := deriveTerms_ok fuel ts dc hA hf
      exact this.congr hU (fun x _ => eval_poly' x ts)
    | epoly ts e =>
      cases he with
      | epoly _ _ hp hadm hexpo hgood hslit =>
      simp only [derive] at h
      obtain ⟨s0, hs0, h⟩ := Option.bind_eq_some_iff.1 h
      obtain ⟨dp, hdp, h⟩ := Option.bind_eq_some_iff.1 h
      obtain ⟨us, rfl⟩ := derive_poly_form hdp
      have hD := ih _ _ hp hdp
      have hself : Adm M φ U (.epoly ts e) := Adm.epoly ts e hp hadm hexpo hgood hslit
      -- summand 0
      have h0 : ∃ de : (Fin n → ℂ) → ℂ, (∀ x ∈ U, HasDerivAt (fun s => eval φ (Function.update x i s) e) (de x) (x i)) ∧
          ((s0 = none ∧ ∀ x ∈ U, de x = 0) ∨ ∃ s, s0 = some s ∧
            Val M φ U s (fun x => eval φ x (.poly ts) ^ eval φ x e * Complex.log (eval φ x (.poly ts)) * de x)) := by
        split at hs0
        · rename_i hn
          simp at hs0
          refine ⟨fun _ => 0, ?_, Or.inl ⟨hs0.symm, fun _ _ => rfl⟩⟩
          intro x _
          cases e <;> simp [isNum] at hn
          simp only [eval_num]; exact hasDerivAt_const _ _
        · obtain ⟨de, hde, hs0⟩ := Option.map_eq_some_iff.1 hs0
          have hde' := ih _ _ hadm hde
          refine ⟨fun x => eval φ x de, hde'.2, Or.inr ⟨_, hs0.symm, ?_, ?_⟩⟩
          · apply Adm.prod
            intro a ha
            simp at ha
            rcases ha with rfl | rfl | rfl
            · exact hself
            · exact hde'.1
            · refine Adm.lpoly ts hp (Mode.Laws.logBase _ _ hexpo hgood) ?_
              rcases hslit with hslit | ⟨c, k, rfl, _, _⟩
              · exact hslit
              · exact absurd rfl (by assumption)
          · intro x _
            rw [eval_prod]; simp only [List.map_cons, List.map_nil, List.prod_cons, List.prod_nil]
            rw [eval_epoly, eval_lpoly]; ring
      obtain ⟨de, hde, hs0'⟩ := h0
      -- summand 1
      have h1 : ∀ s1, s1 = (if allCoeffsZero us then none
          else
            if (subOne fuel e).isNumZero then some (mulExpr fuel e (.poly us))
            else some (.prod [.epoly ts (subOne fuel e), mulExpr fuel e (.poly us)])) →
          ((s1 = none ∧ ∀ x ∈ U, eval φ x (.poly us) = 0) ∨ ∃ s, s1 = some s ∧
            Val M φ U s (fun x => eval φ x e * eval φ x (.poly ts) ^ (eval φ x e - 1) * eval φ x (.poly us))) := by
        intro s1 hs1
        have hm := mulExpr_ok fuel e (.poly us) hadm hD.1
        have hsub := subOne_ok fuel e hadm
        split at hs1
        · rename_i hz
          exact Or.inl ⟨hs1, fun x _ => by rw [eval_poly', tsum_allCoeffsZero hz]⟩
        · split at hs1
          · rename_i hz
            rw [isNumZero_iff] at hz
            refine Or.inr ⟨_, hs1, hm.1, fun x hx => ?_⟩
            have := hsub.2 x hx
            rw [hz, eval_num] at this
            rw [hm.2 x hx]
            simp only [map_zero] at this
            simp only [← this]; simp
          · refine Or.inr ⟨_, hs1, ?_, fun x hx => ?_⟩
            · apply Adm.prod
              intro a ha
              simp at ha
              rcases ha with rfl | rfl
              · refine Adm.epoly ts _ hp hsub.1 (Mode.Laws.sub fuel e hexpo) (Mode.Laws.subBase _ _ _ hexpo hgood) ?_
                rcases hslit with hslit | ⟨c, k, rfl, hk, hslit⟩
                · exact Or.inl hslit
                · exact Or.inr ⟨c - 1, k - 1, rfl, by simp [hk], hslit⟩
              · exact hm.1
            · rw [eval_prod]; simp only [List.map_cons, List.map_nil, List.prod_cons, List.prod_nil]
              rw [eval_epoly, hsub.2 x hx, hm.2 x hx]; ring
      have hs1' := h1 _ rfl
      have hder : ∀ x ∈ U, HasDerivAt (fun s => eval φ (Function.update x i s) (.epoly ts e))
          (eval φ x e * eval φ x (.poly ts) ^ (eval φ x e - 1) * eval φ x (.poly us)
            + eval φ x (.poly ts) ^ eval φ x e * Complex.log (eval φ x (.poly ts)) * de x) (x i) := by
        intro x hx
        simp only [eval_epoly]
        rcases hslit with hslit | ⟨c, k, rfl, hk, hslit⟩
        · have := (hD.2 x hx).cpow (hde x hx) (by rw [hupd]; exact hslit x hx)
          simpa only [hupd] using this
        · have hdz : de x = 0 := by
            have h2 := hde x hx
            simp only [eval_num] at h2
            exact h2.unique (hasDerivAt_const _ _)
          have hne := hslit x hx
          rw [← Function.update_eq_self i x] at hne
          have := (hasDerivAt_zpow k _ (Or.inl hne)).comp (x i) (hD.2 x hx)
          simp only [eval_num, hk, Complex.cpow_intCast]
          refine HasDerivAt.congr_deriv (this.congr_of_eventuallyEq (Filter.Eventually.of_forall fun s => rfl)) ?_
          rw [hdz, hupd]
          have e1 : ((k : ℂ) - 1) = ((k - 1 : ℤ) : ℂ) := by push_cast; ring
          rw [e1, Complex.cpow_intCast]; ring
      simp only at h
      generalize (if allCoeffsZero us then none
          else
            if (subOne fuel e).isNumZero then some (mulExpr fuel e (.poly us))
            else some (.prod [.epoly ts (subOne fuel e), mulExpr fuel e (.poly us)])) = s1 at h hs1'
      rcases hs0' with ⟨rfl, h0z⟩ | ⟨s, rfl, hs⟩
      · rcases hs1' with ⟨rfl, h1z⟩ | ⟨s', rfl, hs'⟩
        · simp at h; subst h
          refine isD_of_val (v := fun _ => 0) ⟨adm_const 0, fun x _ => by simp [eval_const]⟩ ?_
          intro x hx
          refine (hder x hx).congr_deriv ?_
          rw [h0z x hx, h1z x hx]; simp
        · simp at h; subst h
          refine isD_of_val hs' ?_
          intro x hx
          refine (hder x hx).congr_deriv ?_
          rw [h0z x hx]; simp
      · rcases hs1' with ⟨rfl, h1z⟩ | ⟨s', rfl, hs'⟩
        · simp at h; subst h
          refine isD_of_val hs ?_
          intro x hx
          refine (hder x hx).congr_deriv ?_
          rw [h1z x hx]; simp
        · simp at h; subst h
          refine isD_of_val (v := fun x => eval φ x s + eval φ x s') ⟨?_, fun x _ => by simp [eval_sum]⟩ ?_
          · apply Adm.sum
            intro a ha
            simp at ha
            rcases ha with rfl | rfl
            · exact hs.1
            · exact hs'.1
          · intro x hx
            refine (hder x hx).congr_deriv ?_
            rw [hs.2 x hx, hs'.2 x hx]; ring
    | lpoly ts =>
      cases he with
      | lpoly _ hp hgood hslit =>
      simp only [derive] at h
      obtain ⟨dp, hdp, h⟩ := Option.bind_eq_some_iff.1 h
      obtain ⟨us, rfl⟩ := derive_poly_form hdp
      have hD := ih _ _ hp hdp
      have hder : ∀ x ∈ U, HasDerivAt (fun s => eval φ (Function.update x i s) (.lpoly ts))
          (eval φ x (.poly us) / eval φ x (.poly ts)) (x i) := by
        intro x hx
        simp only [eval_lpoly]
        have := (hD.2 x hx).clog (by rw [hupd]; exact hslit x hx)
        simpa only [hupd] using this
      simp only at h
      split at h
      · rename_i hz
        simp at h; subst h
        refine isD_of_val (v := fun _ => 0) ⟨adm_const 0, fun x _ => by simp [eval_const]⟩ ?_
        intro x hx
        refine (hder x hx).congr_deriv ?_
        rw [eval_poly' x us, tsum_allCoeffsZero hz]; simp
      · simp at h; subst h
        refine isD_of_val (v := fun x => eval φ x (.poly us) / eval φ x (.poly ts)) ⟨?_, fun x hx => ?_⟩ hder
        · apply Adm.prod
          intro a ha
          simp at ha
          rcases ha with rfl | rfl
          · exact Adm.epoly ts _ hp (Adm.num _) Mode.Laws.num hgood (Or.inl hslit)
          · exact hD.1
        · rw [eval_prod]; simp only [List.map_cons, List.map_nil, List.prod_cons, List.prod_nil]
          rw [eval_epoly, eval_num]; simp [Complex.cpow_neg_one]; ring
    | sum l =>
      cases he with
      | sum _ hl =>
      simp only [derive] at h
      obtain ⟨l', hl', h⟩ := Option.bind_eq_some_iff.1 h
      simp only [Option.some.injEq] at h; subst h
      have h2 := mapM_some hl'
      have : (∀ a ∈ l', Adm M φ U a) ∧ ∀ x ∈ U, HasDerivAt (fun s => (l.map (eval φ (Function.update x i s))).sum)
          ((l'.map (eval φ x)).sum) (x i) := by
        clear hl' h
        induction h2 with
        | nil => exact ⟨by simp, fun x _ => by simpa using hasDerivAt_const _ (0:ℂ)⟩
        | cons h1 _ ih2 =>
          rename_i a b l l' _
          obtain ⟨i1, i2⟩ := ih2 (fun e he => hl e (by simp [he]))
          have hD := ih _ _ (hl a (by simp)) h1
          constructor
          · intro c hc
            rcases List.mem_cons.1 hc with h | h
            · subst h; exact hD.1
            · exact i1 c h
          · intro x hx
            simp only [List.map_cons, List.sum_cons]
            exact (hD.2 x hx).fun_add (i2 x hx)
      refine ⟨Adm.sum _ this.1, fun x hx => ?_⟩
      simp only [eval_sum]; exact this.2 x hx
    | prod l =>
      cases he with
      | prod _ hl =>
      simp only [derive] at h
      obtain ⟨l', hl', h⟩ := Option.bind_eq_some_iff.1 h
      obtain ⟨m1, m2⟩ := map_simplify (simplify_ok fuel) hl hl'
      have := ih (.prule [(1, l')]) e' (Adm.prule _ (by
        intro t ht e he; simp at ht; subst ht; exact (m1 e he).1) (by
        intro t ht t' ht'; simp at ht ht'; subst ht; subst ht'; rfl)) h
      refine this.congr hU (fun x hx => ?_)
      rw [eval_prod, eval_prule]; simp [m2 x hx]
    | prule terms =>
      cases he with
      | prule _ hA hlen =>
      simp only [derive] at h
      obtain ⟨dterms, hdt, h⟩ := Option.bind_eq_some_iff.1 h
      simp only [Option.some.injEq] at h
      subst h
      apply prule_derive_ok terms dterms hA hlen
      have h2 := mapM_some hdt
      clear hdt hlen h
      induction h2 with
      | nil => exact List.Forall₂.nil
      | cons h1 _ ih2 =>
        rename_i t ds terms dterms _
        refine List.Forall₂.cons ?_ (ih2 (fun t ht => hA t (by simp [ht])))
        have h3 := mapM_some h1
        have hAt := hA t (by simp)
        clear h1
        generalize t.2 = tl at h3 hAt ⊢
        induction h3 with
        | nil => exact List.Forall₂.nil
        | cons h4 _ ih3 =>
          rename_i f d fs ds _
          refine List.Forall₂.cons ?_ (ih3 (fun e he => hAt e (by simp [he])))
          obtain ⟨d0, hd0, hd⟩ := Option.bind_eq_some_iff.1 h4
          have hD := ih _ _ (hAt f (by simp)) hd0
          have hS := (simplify_ok (M := M) (φ := φ) (U := U) fuel).simp d0 d hD.1 hd
          exact ⟨hS.1.1, fun x hx => by rw [hS.1.2 x hx]; exact hD.2 x hx⟩
    | pow b e =>
      cases he with
      | pow _ _ hb hadm hexpo hslit =>
      simp only [derive] at h
      obtain ⟨de, hde, h⟩ := Option.bind_eq_some_iff.1 h
      obtain ⟨db, hdb, h⟩ := Option.bind_eq_some_iff.1 h
      simp only [Option.some.injEq] at h
      subst h
      have hDe := ih _ _ hadm hde
      have hDb := ih _ _ hb hdb
      have hm := mulExpr_ok fuel e db hadm hDb.1
      have hsub := subOne_ok fuel e hadm
      refine isD_of_val (v := fun x => eval φ x e * eval φ x b ^ (eval φ x e - 1) * eval φ x db
            + eval φ x b ^ eval φ x e * Complex.log (eval φ x b) * eval φ x de) ⟨?_, fun x hx => ?_⟩ ?_
      · apply Adm.sum
        intro a ha
        simp at ha
        rcases ha with rfl | rfl
        · apply Adm.prod
          intro a ha
          simp at ha
          rcases ha with rfl | rfl | rfl
          · exact Adm.pow _ _ hb hadm hexpo hslit
          · exact hDe.1
          · exact Adm.log _ hb hslit
        · apply Adm.prod
          intro a ha
          simp at ha
          rcases ha with rfl | rfl
          · exact Adm.pow _ _ hb hsub.1 (Mode.Laws.sub fuel e hexpo) hslit
          · exact hm.1
      · rw [eval_sum]
        simp only [List.map_cons, List.map_nil, List.sum_cons, List.sum_nil, eval_prod, List.prod_cons, List.prod_nil]
        rw [eval_pow, eval_pow, eval_log, hsub.2 x hx, hm.2 x hx]; ring
      · intro x hx
        simp only [eval_pow]
        have := (hDb.2 x hx).cpow (hDe.2 x hx) (by rw [hupd]; exact hslit x hx)
        simpa only [hupd] using this
    | log a =>
      cases he with
      | log _ ha hslit =>
      simp only [derive] at h
      obtain ⟨da, hda, h⟩ := Option.bind_eq_some_iff.1 h
      simp only [Option.some.injEq] at h
      subst h
      have hD := ih _ _ ha hda
      refine isD_of_val (v := fun x => eval φ x da / eval φ x a) ⟨?_, fun x hx => ?_⟩ ?_
      · apply Adm.prod
        intro c hc
        simp at hc
        rcases hc with rfl | rfl
        · exact Adm.pow _ _ ha (adm_const _) Mode.Laws.const hslit
        · exact hD.1
      · rw [eval_prod]; simp only [List.map_cons, List.map_nil, List.prod_cons, List.prod_nil]
        rw [eval_pow, eval_const]; simp [Complex.cpow_neg_one]; ring
      · intro x hx
        simp only [eval_log]
        have := (hD.2 x hx).clog (by rw [hupd]; exact hslit x hx)
        simpa only [hupd] using this
    | exp a =>
      cases he with
      | exp _ ha =>
      simp only [derive] at h
      obtain ⟨da, hda, h⟩ := Option.bind_eq_some_iff.1 h
      simp only [Option.some.injEq] at h
      subst h
      have hD := ih _ _ ha hda
      refine isD_of_val (v := fun x => Complex.exp (eval φ x a) * eval φ x da) ⟨?_, fun x hx => ?_⟩ ?_
      · apply Adm.prod
        intro c hc
        simp at hc
        rcases hc with rfl | rfl
        · exact Adm.exp _ ha
        · exact hD.1
      · rw [eval_prod]; simp only [List.map_cons, List.map_nil, List.prod_cons, List.prod_nil]
        rw [eval_exp]; ring
      · intro x hx
        simp only [eval_exp]
        have := (hD.2 x hx).cexp
        simpa only [hupd] using this

end Expr
end SecDec
