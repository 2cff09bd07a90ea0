import Verif.Model.SplitDecomp
import Verif.Spec.SplitDecomp
import Verif.Props.Splitting
import Verif.Props.Decomp
import Verif.Props.Polynomial
import Mathlib.Algebra.MvPolynomial.Funext
/-
Decomposition and splitting.
-/
namespace SecDec.SplitDecomp
open SecDec SecDec.Squash SecDec.Splitting SecDec.Decomp MeasureTheory
variable {n : Nat} {E : Type}

/-! ### a polynomial with distinct terms is not zero -/

noncomputable def expoNat (e : Expo n) : Fin n →₀ ℕ := Finsupp.equivFunOnFinite.symm fun i => (e i).toNat

noncomputable def toMv (l : List (Expo n × ℝ)) : MvPolynomial (Fin n) ℝ := (l.map fun t => MvPolynomial.monomial (expoNat t.1) t.2).sum

theorem eval_toMv (l : List (Expo n × ℝ)) (h : ∀ t ∈ l, ∀ i, 0 ≤ t.1 i) (x : Fin n → ℝ) : MvPolynomial.eval x (toMv l) = (⟨l⟩ : Poly n ℝ).eval x := by
  unfold toMv Poly.eval
  simp only
  induction l with
  | nil => simp
  | cons t l ih =>
    simp only [List.map_cons, List.sum_cons, map_add]
    rw [ih fun t ht => h t (by simp [ht]), MvPolynomial.eval_monomial, Finsupp.prod_fintype _ _ (by simp)]
    congr 2
    unfold Poly.mono
    refine Finset.prod_congr rfl fun i _ => ?_
    have h1 : ((expoNat t.1 i : ℕ) : ℤ) = t.1 i := by
      show (((t.1 i).toNat : ℕ) : ℤ) = t.1 i
      exact Int.toNat_of_nonneg (h t (by simp) i)
    rw [← zpow_natCast, h1]

theorem expoNat_inj {e f : Expo n} (he : ∀ i, 0 ≤ e i) (hf : ∀ i, 0 ≤ f i) (h : expoNat e = expoNat f) : e = f := by
  funext i
  have := DFunLike.congr_fun h i
  have h1 : (e i).toNat = (f i).toNat := this
  have := he i
  have := hf i
  omega

theorem coeff_toMv (l : List (Expo n × ℝ)) (h : ∀ t ∈ l, ∀ i, 0 ≤ t.1 i) (hd : (l.map (·.1)).Nodup) {t : Expo n × ℝ} (ht : t ∈ l) :
    (toMv l).coeff (expoNat t.1) = t.2 := by
  have zero : ∀ l : List (Expo n × ℝ), (∀ t ∈ l, ∀ i, 0 ≤ t.1 i) → ∀ e : Expo n, (∀ i, 0 ≤ e i) → e ∉ l.map (·.1) → (toMv l).coeff (expoNat e) = 0 := by
    intro l
    induction l with
    | nil => intros; simp [toMv]
    | cons u l ih =>
      intro h e he hm
      unfold toMv
      rw [List.map_cons, List.sum_cons, MvPolynomial.coeff_add, MvPolynomial.coeff_monomial, if_neg, zero_add]
      · exact ih (fun t ht => h t (by simp [ht])) e he fun hm' => hm (by simp only [List.map_cons]; exact List.mem_cons_of_mem _ hm')
      · intro hc
        exact hm (by rw [← expoNat_inj (h u (by simp)) he hc]; simp)
  induction l with
  | nil => simp at ht
  | cons u l ih =>
    rw [List.map_cons, List.nodup_cons] at hd
    have e : toMv (u :: l) = MvPolynomial.monomial (expoNat u.1) u.2 + toMv l := by simp [toMv]
    rw [e, MvPolynomial.coeff_add, MvPolynomial.coeff_monomial]
    rcases List.mem_cons.1 ht with rfl | ht'
    · rw [if_pos rfl, zero l (fun t ht => h t (by simp [ht])) _ (h t (by simp)) hd.1, add_zero]
    · rw [if_neg, zero_add]
      · exact ih (fun t ht => h t (by simp [ht])) hd.2 ht'
      · intro hc
        have := expoNat_inj (h u (by simp)) (h t ht) hc
        exact hd.1 (by rw [this]; exact List.mem_map_of_mem ht')

/-- Such a polynomial is not zero everywhere. -/
theorem exists_eval_ne {l : List (Expo n × ℝ)} (hne : l ≠ []) (hd : (l.map (·.1)).Nodup) (hc : ∀ t ∈ l, t.2 ≠ 0) (h : ∀ t ∈ l, ∀ i, 0 ≤ t.1 i) :
    ∃ x : Fin n → ℝ, (⟨l⟩ : Poly n ℝ).eval x ≠ 0 := by
  by_contra hno
  have h0 : toMv l = 0 := by
    refine MvPolynomial.funext fun x => ?_
    rw [eval_toMv l h, map_zero]
    by_contra hx
    exact hno ⟨x, hx⟩
  obtain ⟨t, ht⟩ := List.exists_mem_of_ne_nil l hne
  have := coeff_toMv l h hd ht
  rw [h0, MvPolynomial.coeff_zero] at this
  exact hc t ht this.symm

/-- It is not zero if a variable which is absent from some term is set to zero. -/
theorem exists_eval_ne_at {l : List (Expo n × ℝ)} (hd : (l.map (·.1)).Nodup) (hc : ∀ t ∈ l, t.2 ≠ 0) (h : ∀ t ∈ l, ∀ i, 0 ≤ t.1 i) {j : Fin n}
    (hj : ∃ t ∈ l, t.1 j = 0) : ∃ x : Fin n → ℝ, x j = 0 ∧ (⟨l⟩ : Poly n ℝ).eval x ≠ 0 := by
  obtain ⟨t, ht, ht0⟩ := hj
  set l0 := l.filter (fun t => decide (t.1 j = 0)) with hl0
  have hsub : ∀ u ∈ l0, u ∈ l ∧ u.1 j = 0 := by
    intro u hu
    simpa [hl0] using hu
  obtain ⟨x, hx⟩ := exists_eval_ne (l := l0) (List.ne_nil_of_mem (by simp [hl0]; exact ⟨ht, ht0⟩))
    (hd.sublist (List.filter_sublist.map _)) (fun u hu => hc u (hsub u hu).1) (fun u hu => h u (hsub u hu).1)
  refine ⟨Function.update x j 0, by simp, ?_⟩
  have e : (⟨l⟩ : Poly n ℝ).eval (Function.update x j 0) = (⟨l0⟩ : Poly n ℝ).eval x := by
    unfold Poly.eval
    simp only [hl0]
    clear hd hc hsub hx ht hl0 l0
    induction l with
    | nil => simp
    | cons u l ih =>
      have ih := ih fun t ht => h t (by simp [ht])
      by_cases hu : u.1 j = 0
      · rw [List.filter_cons_of_pos (by simpa using hu), List.map_cons, List.map_cons, List.sum_cons, List.sum_cons, ih]
        congr 2
        unfold Poly.mono
        refine Finset.prod_congr rfl fun k _ => ?_
        by_cases hk : k = j
        · subst hk; rw [hu, zpow_zero, zpow_zero]
        · rw [Function.update_of_ne hk]
      · rw [List.filter_cons_of_neg (by simpa using hu), List.map_cons, List.sum_cons, ih]
        have : Poly.mono (Function.update x j 0) u.1 = 0 := by
          unfold Poly.mono
          refine Finset.prod_eq_zero (Finset.mem_univ j) ?_
          rw [Function.update_self, zero_zpow _ hu]
        rw [this, mul_zero, zero_add]
  rw [e]
  exact hx

/-! ### splitting keeps the polynomials simplified -/

theorem lexLt_ne {a b : Expo n} (h : Poly.LexLt a b) : a ≠ b := by
  rintro rfl
  obtain ⟨i, -, h⟩ := h
  exact lt_irrefl _ h

theorem remap_simple {l : List (Expo n × ℝ)} (hne : l ≠ []) (hd : (l.map (·.1)).Nodup) (hc : ∀ t ∈ l, t.2 ≠ 0) (h : ∀ t ∈ l, ∀ i, 0 ≤ t.1 i)
    {i : Fin n} {q : Poly n ℝ} (hq : remapOneToZero (⟨l⟩ : Poly n ℝ) [i] = some q) :
    q.terms ≠ [] ∧ (q.terms.map (·.1)).Nodup ∧ (∀ t ∈ q.terms, t.2 ≠ 0) ∧ (∀ t ∈ q.terms, ∀ i, 0 ≤ t.1 i) ∧
      ∀ j, j ≠ i → (∃ t ∈ l, t.1 j = 0) → ∃ t ∈ q.terms, t.1 j = 0 := by
  obtain ⟨q', hq', k1, k2⟩ := remap_nonneg (⟨l⟩ : Poly n ℝ) i h
  rw [hq, Option.some.injEq] at hq'
  subst hq'
  have hev : ∀ x : Fin n → ℝ, q.eval (fun k => if k ∈ [i] then 1 - x k else x k) = (⟨l⟩ : Poly n ℝ).eval x := by
    intro x
    rw [(C18_remap_one_to_zero (⟨l⟩ : Poly n ℝ) [i] (by simp)).2 q hq _ fun t ht k _ _ => h t ht k]
    congr 1
    funext k
    split_ifs <;> simp
  obtain ⟨r, hr⟩ : ∃ r : Poly n ℝ, q = r.simplify := by
    unfold remapOneToZero at hq
    rw [Option.map_eq_some_iff] at hq
    obtain ⟨l', -, hl'⟩ := hq
    exact ⟨_, hl'.symm⟩
  obtain ⟨-, s1, s2, -⟩ := Poly.C02_simplify_normal_form r
  rw [← hr] at s1 s2
  have hcoef : ∀ t ∈ q.terms, t.2 ≠ 0 := by
    rcases s2 with s2 | ⟨s2, -⟩
    · exact s2
    · exfalso
      obtain ⟨x, hx⟩ := exists_eval_ne hne hd hc h
      rw [← hev] at hx
      apply hx
      unfold Poly.eval
      rw [s2]
      simp
  refine ⟨k2, ?_, hcoef, k1, fun j hj hex => ?_⟩
  · rw [List.Nodup, List.pairwise_map]
    exact s1.imp fun h => lexLt_ne h
  · obtain ⟨x, hx0, hx⟩ := exists_eval_ne_at hd hc h hex
    by_contra hno
    rw [← hev] at hx
    apply hx
    unfold Poly.eval
    refine List.sum_eq_zero fun y hy => ?_
    obtain ⟨t, ht, rfl⟩ := List.mem_map.1 hy
    have : Poly.mono (fun k => if k ∈ [i] then 1 - x k else x k) t.1 = 0 := by
      unfold Poly.mono
      refine Finset.prod_eq_zero (Finset.mem_univ j) ?_
      show (if j ∈ [i] then 1 - x j else x j) ^ t.1 j = 0
      rw [if_neg (by simpa using hj), hx0, zero_zpow]
      exact fun h => hno ⟨t, ht, h⟩
    rw [this, mul_zero]

theorem update_inj (i : Fin n) (k : ℤ) : Function.Injective fun e : Expo n => Function.update e i (e i + k) := by
  intro a b h
  funext j
  have := congrFun h j
  by_cases hj : j = i
  · subst hj; simpa using this
  · simpa [hj] using this

theorem refactorizeAt_simple {i : Fin n} {p q : SProd n ℝ E} (h : refactorizeAt i p = some q) (hne : p.poly.terms ≠ [])
    (hd : (p.poly.terms.map (·.1)).Nodup) (hc : ∀ t ∈ p.poly.terms, t.2 ≠ 0) (hn : ∀ t ∈ p.poly.terms, ∀ i, 0 ≤ t.1 i)
    (hf : ∀ j, j ≠ i → ∃ t ∈ p.poly.terms, t.1 j = 0) : Simple q.poly.terms := by
  unfold refactorizeAt at h
  rw [Option.map_eq_some_iff] at h
  obtain ⟨k, hk, rfl⟩ := h
  rw [List.min?_eq_some_iff] at hk
  obtain ⟨hk1, hk2⟩ := hk
  obtain ⟨t0, ht0, hk0⟩ := List.mem_map.1 hk1
  constructor
  · simpa using hne
  · simp only [List.map_map]
    have : ((fun t : Expo n × ℝ => t.1) ∘ fun t : Expo n × ℝ => (Function.update t.1 i (t.1 i - k), t.2)) =
        (fun e : Expo n => Function.update e i (e i + -k)) ∘ fun t : Expo n × ℝ => t.1 := by
      funext t; simp [sub_eq_add_neg]
    rw [this, ← List.map_map]
    exact hd.map (update_inj i (-k))
  · intro t ht
    obtain ⟨u, hu, rfl⟩ := List.mem_map.1 ht
    exact hc u hu
  · intro t ht j
    obtain ⟨u, hu, rfl⟩ := List.mem_map.1 ht
    by_cases hj : j = i
    · subst hj
      have := hk2 _ (List.mem_map.2 ⟨u, hu, rfl⟩)
      simp only [Function.update_self]; omega
    · simpa [hj] using hn u hu j
  · intro j
    by_cases hj : j = i
    · subst hj
      exact ⟨_, List.mem_map.2 ⟨t0, ht0, rfl⟩, by simp [hk0]⟩
    · obtain ⟨u, hu, h0⟩ := hf j hj
      exact ⟨_, List.mem_map.2 ⟨u, hu, rfl⟩, by simp [hj, h0]⟩

theorem remapCast_simple {i : Fin n} {p q : SProd n ℝ E} (hp : Simple p.poly.terms) (h : remapCast i p = some q) : Simple q.poly.terms := by
  unfold remapCast at h
  rw [Option.bind_eq_some_iff] at h
  obtain ⟨r, h1, h2⟩ := h
  have hinj := update_inj i (p.mono.1 i)
  have hd : ((p.poly.terms.map fun t => (Function.update t.1 i (t.1 i + p.mono.1 i), t.2)).map (·.1)).Nodup := by
    rw [List.map_map]
    show (p.poly.terms.map ((fun e : Expo n => Function.update e i (e i + p.mono.1 i)) ∘ fun t : Expo n × ℝ => t.1)).Nodup
    rw [← List.map_map]
    exact hp.nodup.map hinj
  have hn : ∀ t ∈ p.poly.terms.map (fun t => (Function.update t.1 i (t.1 i + p.mono.1 i), t.2)), ∀ j, 0 ≤ t.1 j := by
    intro t ht j
    by_cases hj : j = i
    · subst hj
      by_contra hneg
      have := (C18_remap_one_to_zero (⟨p.poly.terms.map fun t => (Function.update t.1 j (t.1 j + p.mono.1 j), t.2)⟩ : Poly n ℝ) [j] (by simp)).1.2
        ⟨t, ht, j, by simp, by omega⟩
      rw [h1] at this
      cases this
    · obtain ⟨u, hu, rfl⟩ := List.mem_map.1 ht
      simpa [hj] using hp.nonneg u hu j
  obtain ⟨a1, a2, a3, a4, a5⟩ := remap_simple (by simpa using hp.ne) hd (by
    intro t ht
    obtain ⟨u, hu, rfl⟩ := List.mem_map.1 ht
    exact hp.coeff u hu) hn h1
  refine refactorizeAt_simple h2 a1 a2 a3 a4 fun j hj => a5 j hj ?_
  obtain ⟨u, hu, h0⟩ := hp.free j
  exact ⟨_, List.mem_map.2 ⟨u, hu, rfl⟩, by simp [hj, h0]⟩

theorem replaceCoeff_ne {c : ℝ} (hc : c ≠ 0) {t : Expo n × ℝ} (ht : t.2 ≠ 0) (i : Fin n) : Poly.replaceCoeff c t i ≠ 0 := by
  unfold Poly.replaceCoeff
  rw [if_neg hc]
  split_ifs
  · exact ht
  · exact mul_ne_zero (zpow_ne_zero _ hc) ht

theorem rescale_tidy {i : Fin n} {c : ℝ} (hc : c ≠ 0) {g : GSector n ℝ E} (h : Tidy g.cast) : Tidy (rescale i c g).cast := by
  refine ⟨by simpa [rescale] using h.1, ?_⟩
  intro q hq
  obtain ⟨p, hp, rfl⟩ := List.mem_map.1 hq
  have hs := h.2 p hp
  refine ⟨by simpa [multiplyBy] using hs.ne, ?_, ?_, ?_, ?_⟩
  · simp only [multiplyBy, List.map_map]
    exact hs.nodup
  · intro t ht
    obtain ⟨u, hu, rfl⟩ := List.mem_map.1 ht
    exact replaceCoeff_ne hc (hs.coeff u hu) i
  · intro t ht
    obtain ⟨u, hu, rfl⟩ := List.mem_map.1 ht
    exact hs.nonneg u hu
  · intro j
    obtain ⟨u, hu, h0⟩ := hs.free j
    exact ⟨_, List.mem_map.2 ⟨u, hu, rfl⟩, h0⟩

theorem remapSector_tidy {i : Fin n} {g g' : GSector n ℝ E} (h : Tidy g.cast) (hr : remapSector i g = some g') : Tidy g'.cast := by
  unfold remapSector at hr
  rw [Option.bind_eq_some_iff] at hr
  obtain ⟨cast, h1, hr⟩ := hr
  rw [Option.bind_eq_some_iff] at hr
  obtain ⟨other, -, hr⟩ := hr
  rw [Option.map_eq_some_iff] at hr
  obtain ⟨jac, -, rfl⟩ := hr
  have hf := mapM_option_forall₂ h1
  refine ⟨?_, fun q hq => ?_⟩
  · intro h0
    have := hf.length_eq
    rw [show cast = [] from h0] at this
    exact h.1 (List.length_eq_zero_iff.1 (by simpa using this))
  · obtain ⟨k, hk, rfl⟩ := List.mem_iff_getElem.1 hq
    have hl := hf.length_eq
    have := (List.forall₂_iff_get.1 hf).2 k (by rw [hl]; exact hk) hk
    exact remapCast_simple (h.2 _ (List.getElem_mem (by rw [hl]; exact hk))) this

theorem splitRec_tidy (pts : List (Fin n × ℝ)) (hpts : ∀ p ∈ pts, 0 < p.2 ∧ p.2 < 1) {g : GSector n ℝ E} {out : List (GSector n ℝ E)}
    (h : Tidy g.cast) (hs : splitRec pts g = some out) : ∀ t ∈ out, Tidy t.cast := by
  induction pts generalizing g out with
  | nil =>
    simp only [splitRec, Option.some.injEq] at hs
    subst hs
    simpa using h
  | cons p rest ih =>
    obtain ⟨i, c⟩ := p
    rw [splitRec, Option.bind_eq_some_iff] at hs
    obtain ⟨g1, hg1, hs⟩ := hs
    rw [Option.bind_eq_some_iff] at hs
    obtain ⟨l0, hl0, hs⟩ := hs
    rw [Option.map_eq_some_iff] at hs
    obtain ⟨l1, hl1, rfl⟩ := hs
    have hc := hpts (i, c) (by simp)
    intro t ht
    rcases List.mem_append.1 ht with ht | ht
    · exact ih (fun p hp => hpts p (by simp [hp])) (rescale_tidy hc.1.ne' h) hl0 t ht
    · exact ih (fun p hp => hpts p (by simp [hp])) (rescale_tidy (sub_pos.2 hc.2).ne' (remapSector_tidy h hg1)) hl1 t ht

theorem split_points {rng : Nat → Nat} (hrng : ∀ k, 1 ≤ rng k ∧ rng k ≤ 19) (l : List (Fin n)) :
    ∀ p ∈ l.zipIdx.map (fun p => (p.1, ((rng p.2 : Nat) : ℝ) / 20)), 0 < p.2 ∧ p.2 < 1 := by
  intro p hp
  obtain ⟨u, -, rfl⟩ := List.mem_map.1 hp
  have h1 : (1 : ℝ) ≤ rng u.2 := by exact_mod_cast (hrng u.2).1
  have h2 : (rng u.2 : ℝ) ≤ 19 := by exact_mod_cast (hrng u.2).2
  constructor
  · positivity
  · rw [div_lt_one (by norm_num)]; linarith

theorem splitSingular_tidy {rng : Nat → Nat} (hrng : ∀ k, 1 ≤ rng k ∧ rng k ≤ 19) {indices : List (Fin n)} {g : GSector n ℝ E}
    {out : List (GSector n ℝ E)} (h : Tidy g.cast) (hs : splitSingular rng g indices = some out) : ∀ t ∈ out, Tidy t.cast :=
  splitRec_tidy _ (split_points hrng _) h hs

/-! ### corners -/

theorem splitSingular_length {rng : Nat → Nat} (hrng : ∀ k, 1 ≤ rng k ∧ rng k ≤ 19) {indices : List (Fin n)} {g : GSector n ℝ E}
    {out : List (GSector n ℝ E)} (hs : splitSingular rng g indices = some out) : out.length = 2 ^ (singularParameters g indices).length := by
  have := (C18_split_preserves_integral _ (split_points hrng (singularParameters g indices)) g out hs (fun _ _ => (0 : ℝ)) (by
    have : gIntegrand (fun _ _ => (0 : ℝ)) g = fun _ => 0 := by funext x; simp [gIntegrand]
    rw [this]
    exact integrableOn_zero)).1
  simpa using this

theorem eval_zero_ne {l : List (Expo n × ℝ)} (hd : (l.map (·.1)).Nodup) (hc : ∀ t ∈ l, t.2 ≠ 0) {t : Expo n × ℝ} (ht : t ∈ l) (h0 : ∀ i, t.1 i = 0) :
    (⟨l⟩ : Poly n ℝ).eval (fun _ => 0) ≠ 0 := by
  have hz : ∀ e : Expo n, (∃ i, e i ≠ 0) → Poly.mono (fun _ : Fin n => (0 : ℝ)) e = 0 := by
    rintro e ⟨i, hi⟩
    exact Finset.prod_eq_zero (Finset.mem_univ i) (zero_zpow _ hi)
  have h1 : Poly.mono (fun _ : Fin n => (0 : ℝ)) t.1 = 1 := Finset.prod_eq_one fun i _ => by rw [h0 i, zpow_zero]
  have key : (⟨l⟩ : Poly n ℝ).eval (fun _ => 0) = t.2 := by
    unfold Poly.eval
    simp only
    induction l with
    | nil => simp at ht
    | cons u l ih =>
      rw [List.map_cons, List.nodup_cons] at hd
      rw [List.map_cons, List.sum_cons]
      rcases List.mem_cons.1 ht with rfl | ht'
      · rw [h1, mul_one, List.sum_eq_zero, add_zero]
        intro y hy
        obtain ⟨v, hv, rfl⟩ := List.mem_map.1 hy
        rw [hz, mul_zero]
        by_contra hno
        push Not at hno
        refine hd.1 ?_
        have : t.1 = v.1 := funext fun i => by rw [h0 i, hno i]
        rw [this]
        exact List.mem_map_of_mem hv
      · rw [hz, mul_zero, zero_add]
        · exact ih hd.2 (fun t ht => hc t (by simp [ht])) ht'
        · by_contra hno
          push Not at hno
          refine hd.1 ?_
          have : u.1 = t.1 := funext fun i => by rw [h0 i, hno i]
          rw [this]
          exact List.mem_map_of_mem ht'
  rw [key]
  exact hc t ht

theorem corners {g : GSector n ℝ E} (h : Tidy g.cast) (hst : ∀ p ∈ g.cast, ∃ t ∈ p.poly.terms, ∀ i, t.1 i = 0)
    (hsing : singularParameters g (List.finRange n) = []) : NoCornerZero g.cast := by
  intro p hp c hcor hzero
  have hs := h.2 p hp
  classical
  set S := (List.finRange n).filter (fun i => decide (c i = 1 ∧ ∃ t ∈ p.poly.terms, t.1 i ≠ 0)) with hS
  have hmem : ∀ i, i ∈ S ↔ c i = 1 ∧ ∃ t ∈ p.poly.terms, t.1 i ≠ 0 := by
    intro i; simp [hS]
  have hev : (⟨p.poly.terms⟩ : Poly n ℝ).eval (fun i => if i ∈ S then 1 else 0) = 0 := by
    refine Eq.trans ?_ hzero
    unfold SPoly.eval Poly.eval
    simp only
    congr 1
    refine List.map_congr_left fun t ht => ?_
    congr 1
    unfold Poly.mono
    refine Finset.prod_congr rfl fun i _ => ?_
    by_cases ht0 : t.1 i = 0
    · rw [ht0, zpow_zero, zpow_zero]
    · congr 1
      show (if i ∈ S then (1:ℝ) else 0) = c i
      rcases hcor i with h0 | h1
      · rw [if_neg, h0]
        rw [hmem]; rintro ⟨h1, -⟩; rw [h0] at h1; exact zero_ne_one h1
      · rw [if_pos ((hmem i).2 ⟨h1, t, ht, ht0⟩), h1]
  have hin : S ∈ findSingularSetsAtOne (⟨p.poly.terms⟩ : Poly n ℝ) := by
    rw [C18_find_singular_sets_at_one]
    exact ⟨(List.pairwise_lt_finRange n).sublist List.filter_sublist, fun i hi => ((hmem i).1 hi).2, hev⟩
  have hempty : S = [] := by
    by_contra hne
    obtain ⟨i, hi⟩ := List.exists_mem_of_ne_nil S hne
    have := ((C18_split_singular_variables g (List.finRange n)).2 i).2 ⟨Or.inr (List.mem_finRange i), p, hp, S, hin, hi⟩
    rw [hsing] at this
    cases this
  rw [hempty] at hev
  obtain ⟨t, ht, h0⟩ := hst p hp
  exact eval_zero_ne hs.nodup hs.coeff ht h0 (by simpa using hev)

/-! ### the recursion -/

variable {V : Type} [NormedAddCommGroup V] [NormedSpace ℝ V]

/-- The integrand for `toSector`. -/
noncomputable def withJac (F : List (ℝ × Option E) → List (ℝ × Option E) → V) (cs os : List (ℝ × Option E)) : V :=
  match os with
  | [] => 0
  | j :: os => j.1 • F cs os

theorem integrand_toSector (F : List (ℝ × Option E) → List (ℝ × Option E) → V) (g : GSector n ℝ E) :
    integrand (withJac F) (toSector g) = gIntegrand F g := by
  funext x
  simp [integrand, gIntegrand, toSector, Squash.Sector.value, withJac, Poly.mono, SPoly.eval]

theorem integrand_fromSector (F : List (ℝ × Option E) → List (ℝ × Option E) → V) {s : Squash.Sector n ℝ E} {g : GSector n ℝ E} (h : fromSector s = some g) :
    ∀ x ∈ oc n, gIntegrand F g x = integrand (withJac F) s x := by
  intro x hx
  have hx0 : ∀ i, x i ≠ 0 := fun i => (mem_oc.1 hx i).1.ne'
  unfold fromSector at h
  split at h
  · cases h
  · rename_i j other ho
    simp only [Option.some.injEq] at h
    subst h
    unfold gIntegrand integrand
    simp only [Squash.Sector.value, ho, List.map_cons, withJac, smul_smul]
    congr 1
    unfold Poly.eval SPoly.eval Poly.eval
    simp only [List.map_map]
    rw [← List.sum_map_mul_left]
    congr 1
    refine List.map_congr_left fun t _ => ?_
    simp only [Function.comp]
    have : Poly.mono x (t.1 + s.jac.1) = Poly.mono x t.1 * Poly.mono x s.jac.1 := by
      unfold Poly.mono
      rw [← Finset.prod_mul_distrib]
      exact Finset.prod_congr rfl fun i _ => zpow_add₀ (hx0 i) _ _
    rw [this]
    ring

theorem mapM_flatten {α β : Type} {f : α → Option (List β)} {l : List α} {out : List β} (h : (l.mapM f).map List.flatten = some out)
    {B : β → Prop} (hB : ∀ a ∈ l, ∀ r, f a = some r → ∀ b ∈ r, B b) : ∀ b ∈ out, B b := by
  rw [Option.map_eq_some_iff] at h
  obtain ⟨rs, h1, rfl⟩ := h
  have h1 := mapM_option_forall₂ h1
  intro b hb
  obtain ⟨r, hr, hb⟩ := List.mem_flatten.1 hb
  obtain ⟨k, hk, rfl⟩ := List.mem_iff_getElem.1 hr
  have hl := h1.length_eq
  exact hB _ (List.getElem_mem (l := l) (n := k) (by omega)) _ ((List.forall₂_iff_get.1 h1).2 k (by omega) hk) b hb

theorem mapM_flatten_sum {α β : Type} {f : α → Option (List β)} {l : List α} {out : List β} (h : (l.mapM f).map List.flatten = some out)
    {I : β → V} {J : α → V} (hI : ∀ a ∈ l, ∀ r, f a = some r → (r.map I).sum = J a) : (out.map I).sum = (l.map J).sum := by
  rw [Option.map_eq_some_iff] at h
  obtain ⟨rs, h1, rfl⟩ := h
  have h2 := mapM_option_forall₂ h1
  clear h1
  induction h2 with
  | nil => simp
  | cons h _ ih =>
    rw [List.flatten_cons, List.map_append, List.sum_append, List.map_cons, List.sum_cons, hI _ (by simp) _ h, ih fun a ha => hI a (by simp [ha])]

theorem fromSector_cast {s : Squash.Sector n ℝ E} {g : GSector n ℝ E} (h : fromSector s = some g) : g.cast = s.cast := by
  unfold fromSector at h
  split at h
  · cases h
  · simp only [Option.some.injEq] at h
    rw [← h]

theorem decompose_spec {sec : Squash.Sector n ℝ E → Option (List (Squash.Sector n ℝ E))} (hsec : Decomposer sec) {g : GSector n ℝ E}
    (hg : Tidy g.cast) {ds : List (GSector n ℝ E)} (h : decompose sec g = some ds) :
    (∀ d ∈ ds, Tidy d.cast ∧ ∀ p ∈ d.cast, ∃ t ∈ p.poly.terms, ∀ i, t.1 i = 0) ∧
    ∀ F : List (ℝ × Option E) → List (ℝ × Option E) → V, CubeIntegrable (gIntegrand F g) →
      (∀ d ∈ ds, CubeIntegrable (gIntegrand F d)) ∧ (ds.map fun d => cubeIntegral (gIntegrand F d)).sum = cubeIntegral (gIntegrand F g) := by
  unfold decompose at h
  rw [Option.bind_eq_some_iff] at h
  obtain ⟨ts, h1, h2⟩ := h
  obtain ⟨a1, a2⟩ := hsec (toSector g) ts hg h1
  have hf := mapM_option_forall₂ h2
  have hmem : ∀ d ∈ ds, ∃ t ∈ ts, fromSector t = some d := by
    intro d hd
    obtain ⟨k, hk, rfl⟩ := List.mem_iff_getElem.1 hd
    have hl := hf.length_eq
    exact ⟨_, List.getElem_mem (l := ts) (n := k) (by omega), (List.forall₂_iff_get.1 hf).2 k (by omega) hk⟩
  refine ⟨fun d hd => ?_, fun F hF => ?_⟩
  · obtain ⟨t, ht, htd⟩ := hmem d hd
    obtain ⟨b1, b2⟩ := a1 t ht
    rw [fromSector_cast htd]
    refine ⟨b1, fun p hp => ?_⟩
    obtain ⟨u, hu, h0⟩ := b2 p hp
    exact ⟨u, hu, fun i => h0 i (List.mem_finRange i)⟩
  · rw [← integrand_toSector] at hF ⊢
    obtain ⟨c1, c2⟩ := a2 (withJac F) hF
    refine ⟨fun d hd => ?_, ?_⟩
    · obtain ⟨t, ht, htd⟩ := hmem d hd
      rw [cubeIntegrable_iff, integrableOn_congr_fun (integrand_fromSector F htd) measurableSet_oc, ← cubeIntegrable_iff]
      exact c1 t ht
    · rw [← c2]
      clear * - hf
      induction hf with
      | nil => rfl
      | cons h _ ih =>
        rw [List.map_cons, List.map_cons, List.sum_cons, List.sum_cons, ih, cubeIntegral_eq, cubeIntegral_eq,
          setIntegral_congr_fun measurableSet_oc (integrand_fromSector F h)]

/-- What holds for the sectors returned. -/
structure Done (d : GSector n ℝ E) : Prop where
  tidy : Tidy d.cast
  const : ∀ p ∈ d.cast, ∃ t ∈ p.poly.terms, ∀ i, t.1 i = 0
  corners : NoCornerZero d.cast

theorem splitAgain_done {sec : Squash.Sector n ℝ E → Option (List (Squash.Sector n ℝ E))} (hsec : Decomposer sec) {rng : Nat → Nat}
    (hrng : ∀ k, 1 ≤ rng k ∧ rng k ≤ 19) (fuel : Nat) {L out : List (GSector n ℝ E)} (hL : ∀ g ∈ L, Tidy g.cast)
    (h : splitAgain sec rng (List.finRange n) fuel L = some out) : ∀ d ∈ out, Done d := by
  induction fuel generalizing L out with
  | zero => cases h
  | succ fuel ih =>
    rw [splitAgain] at h
    refine mapM_flatten h fun g hg r hr => ?_
    rw [Option.bind_eq_some_iff] at hr
    obtain ⟨ds, h1, h2⟩ := hr
    obtain ⟨a1, -⟩ := decompose_spec (V := ℝ) hsec (hL g hg) h1
    refine mapM_flatten h2 fun d hd r hr => ?_
    rw [Option.bind_eq_some_iff] at hr
    obtain ⟨parts, h3, h4⟩ := hr
    obtain ⟨b1, b2⟩ := a1 d hd
    split_ifs at h4 with hlen
    · simp only [Option.some.injEq] at h4
      subst h4
      intro b hb
      rw [List.mem_singleton] at hb
      subst hb
      refine ⟨b1, b2, corners b1 b2 ?_⟩
      rw [splitSingular_length hrng h3] at hlen
      have : (singularParameters b (List.finRange n)).length = 0 := by
        by_contra hne
        have := Nat.one_lt_two_pow hne
        omega
      exact List.length_eq_zero_iff.1 this
    · exact ih (splitSingular_tidy hrng b1 h3) h4

theorem splitAgain_integral {sec : Squash.Sector n ℝ E → Option (List (Squash.Sector n ℝ E))} (hsec : Decomposer sec) {rng : Nat → Nat}
    (hrng : ∀ k, 1 ≤ rng k ∧ rng k ≤ 19) (F : List (ℝ × Option E) → List (ℝ × Option E) → V) (fuel : Nat) {L out : List (GSector n ℝ E)}
    (hL : ∀ g ∈ L, Tidy g.cast) (h : splitAgain sec rng (List.finRange n) fuel L = some out) (hF : ∀ g ∈ L, CubeIntegrable (gIntegrand F g)) :
    (∀ d ∈ out, CubeIntegrable (gIntegrand F d)) ∧
      (out.map fun d => cubeIntegral (gIntegrand F d)).sum = (L.map fun g => cubeIntegral (gIntegrand F g)).sum := by
  induction fuel generalizing L out with
  | zero => cases h
  | succ fuel ih =>
    rw [splitAgain] at h
    have key : ∀ g ∈ L, ∀ r, ((decompose sec g).bind fun decomposed => (decomposed.mapM fun d => (splitSingular rng d (List.finRange n)).bind fun parts =>
        if parts.length = 1 then some [d] else splitAgain sec rng (List.finRange n) fuel parts).map List.flatten) = some r →
        (∀ b ∈ r, CubeIntegrable (gIntegrand F b)) ∧ (r.map fun d => cubeIntegral (gIntegrand F d)).sum = cubeIntegral (gIntegrand F g) := by
      intro g hg r hr
      rw [Option.bind_eq_some_iff] at hr
      obtain ⟨ds, h1, h2⟩ := hr
      obtain ⟨a1, a2⟩ := decompose_spec (V := V) hsec (hL g hg) h1
      obtain ⟨a2, a3⟩ := a2 F (hF g hg)
      have key' : ∀ d ∈ ds, ∀ r, ((splitSingular rng d (List.finRange n)).bind fun parts =>
          if parts.length = 1 then some [d] else splitAgain sec rng (List.finRange n) fuel parts) = some r →
          (∀ b ∈ r, CubeIntegrable (gIntegrand F b)) ∧ (r.map fun d => cubeIntegral (gIntegrand F d)).sum = cubeIntegral (gIntegrand F d) := by
        intro d hd r hr
        rw [Option.bind_eq_some_iff] at hr
        obtain ⟨parts, h3, h4⟩ := hr
        split_ifs at h4 with hlen
        · simp only [Option.some.injEq] at h4
          subst h4
          simpa using a2 d hd
        · obtain ⟨c1, c2⟩ := C18_split_singular_preserves_integral rng hrng d (List.finRange n) parts h3 F (a2 d hd)
          obtain ⟨e1, e2⟩ := ih (splitSingular_tidy hrng (a1 d hd).1 h3) h4 c1
          exact ⟨e1, by rw [e2, c2]⟩
      exact ⟨mapM_flatten h2 fun d hd r hr => (key' d hd r hr).1, by
        rw [mapM_flatten_sum h2 (J := fun d => cubeIntegral (gIntegrand F d)) fun d hd r hr => (key' d hd r hr).2, a3]⟩
    exact ⟨mapM_flatten h fun g hg r hr => (key g hg r hr).1, mapM_flatten_sum h fun g hg r hr => (key g hg r hr).2⟩

end SecDec.SplitDecomp
