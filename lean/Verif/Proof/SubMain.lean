import Verif.Proof.SubPole
set_option linter.unusedSectionVars false
namespace SecDec.Subtraction
open Expr Set Decomp MeasureTheory

variable {N R : Nat} {F : Type} [Field F] [DecidableEq F] {φ : F →+* ℂ} {ε : Fin R → ℂ}

theorem oc_pos {t : Fin N → ℝ} (ht : t ∈ oc N) (i : Fin N) : 0 < t i := (mem_oc.1 ht i).1

theorem oc_sub : oc N ⊆ Icc (0 : Fin N → ℝ) 1 := by
  intro t ht
  rw [mem_oc] at ht
  exact ⟨fun i => (ht i).1.le, fun i => (ht i).2.le⟩

theorem integrableOn_of_van {P : PolyProd (N + R) F} (hW : WellFormed φ P) {U : Set (Fin (N + R) → ℂ)}
    (hU : On φ ε P U) (m : Fin N → ℕ) (hv : ∀ k, Van ε (fI φ P) k (m k))
    (hA : ∀ i, -1 < (pw φ ε P.monos i).re + m i) : IntegrableOn (value φ ε P) (oc N) := by
  obtain ⟨C, _, hC⟩ := bound hU.isOpen hU.covers m Finset.univ (fI φ P) hU.analytic (fun k _ => hv k)
  have h := (integrableOn_powers (fun i => pw φ ε P.monos i) m hA (fun t => fI φ P (point ε t))
    (An.continuousOn_cube hU.covers hU.analytic.continuousOn) C hC).const_mul (cst φ ε P)
  refine IntegrableOn.congr_fun h (fun t ht => ?_) measurableSet_oc
  rw [value_eq hW (oc_pos ht)]; ring

theorem van_zero (f : (Fin (N + R) → ℂ) → ℂ) (k : Fin N) : Van ε f k 0 := fun q hq => absurd hq (by omega)

theorem integrableOn_of_re {P : PolyProd (N + R) F} (hW : WellFormed φ P) {U : Set (Fin (N + R) → ℂ)}
    (hU : On φ ε P U) (hA : ∀ i, -1 < (pw φ ε P.monos i).re) : IntegrableOn (value φ ε P) (oc N) :=
  integrableOn_of_van hW hU (fun _ => 0) (fun k => van_zero _ k) (by simpa using hA)

theorem prod_split (t : Fin N → ℝ) (A : Fin N → ℂ) (j : Fin N) :
    ∏ i, (t i : ℂ) ^ (A i) = (t j : ℂ) ^ (A j) * ∏ i, (t i : ℂ) ^ (if i = j then 0 else A i) := by
  rw [← Finset.mul_prod_erase Finset.univ _ (Finset.mem_univ j),
    ← Finset.mul_prod_erase Finset.univ (fun i => (t i : ℂ) ^ (if i = j then 0 else A i)) (Finset.mem_univ j)]
  simp only [if_true, Complex.cpow_zero, one_mul]
  congr 1
  refine Finset.prod_congr rfl fun i hi => ?_
  rw [if_neg (Finset.ne_of_mem_erase hi)]

theorem sum_map_range (m : ℕ) (J : ℕ → ℂ) : ((List.range m).map J).sum = ∑ p ∈ Finset.range m, J p := by
  induction m with
  | zero => simp
  | succ m ih => rw [List.range_succ, Finset.sum_range_succ, List.map_append, List.sum_append, ih]; simp

/-- One pole term of the integral. -/
theorem pole_integral {P Q : PolyProd (N + R) F} (hW : WellFormed φ P)
    {j : Fin N} {p : ℕ} (hA : -1 < (pw φ ε P.monos j).re) (hQ : IsPole φ ε P j p Q) :
    ∫ t in oc N, value φ ε Q t = ∫ t in oc N, cst φ ε P * (∏ i, (t i : ℂ) ^ (pw φ ε P.monos i)) *
      ((t j : ℂ) ^ p / (p.factorial : ℂ) * zs (Fin.castAdd R j) ((pd (Fin.castAdd R j))^[p] (fI φ P)) (point ε t)) := by
  obtain ⟨V, h, hV, h1, h2, h3, h4⟩ := hQ.fn
  set A := pw φ ε P.monos
  set Z := zs (Fin.castAdd R j) ((pd (Fin.castAdd R j))^[p] (fI φ P))
  let H : (Fin N → ℝ) → ℂ := fun t => cst φ ε P * ((p.factorial : ℂ))⁻¹ *
    (∏ i, (t i : ℂ) ^ (if i = j then 0 else A i)) * Z (point ε t)
  have hb : -1 < (A j + p).re := by
    simp only [Complex.add_re, Complex.natCast_re]
    have : (0:ℝ) ≤ p := Nat.cast_nonneg p
    linarith
  have hR : ∫ t in oc N, cst φ ε P * (∏ i, (t i : ℂ) ^ (A i)) * ((t j : ℂ) ^ p / (p.factorial : ℂ) * Z (point ε t))
      = ∫ t in oc N, (t j : ℂ) ^ (A j + p) * H t := by
    refine setIntegral_congr_fun measurableSet_oc fun t ht => ?_
    have hne : (t j : ℂ) ≠ 0 := by exact_mod_cast (oc_pos ht j).ne'
    simp only [H]
    rw [prod_split t A j, Complex.cpow_add _ _ hne, Complex.cpow_natCast]
    ring
  have hL : ∫ t in oc N, value φ ε Q t = ∫ t in oc N, (1 / (A j + p + 1)) * H t := by
    refine setIntegral_congr_fun measurableSet_oc fun t ht => ?_
    beta_reduce
    rw [value_eq hQ.wf (oc_pos ht), hQ.monos, h1 _ (hV.covers t (oc_sub ht))]
    simp only [pw_setOne hW.wm, H]
    have := h4 t
    calc _ = (cst φ ε Q * h (point ε t)) * (∏ i, (t i : ℂ) ^ (if i = j then 0 else A i)) * Z (point ε t) := by ring
      _ = _ := by rw [this, mul_inv]; simp only [one_div]; ring
  rw [hL, hR, integral_power_out j hb H, integral_const_mul]
  intro t ht s hs
  simp only [H]
  have e1 : ∏ i, ((Function.update t j s i : ℝ) : ℂ) ^ (if i = j then 0 else A i)
      = ∏ i, (t i : ℂ) ^ (if i = j then 0 else A i) := by
    refine Finset.prod_congr rfl fun i _ => ?_
    by_cases hij : i = j
    · simp [hij]
    · rw [Function.update_of_ne hij]
  have e2 : Z (point ε (Function.update t j s)) = Z (point ε t) := by
    simp only [Z, zs, point_update, Function.update_idem]
  rw [e1, e2]

/-- One index: the integral is preserved. -/
theorem single_integral {P Q : PolyProd (N + R) F} (hW : WellFormed φ P) {U : Set (Fin (N + R) → ℂ)}
    (hU : On φ ε P U) (hA : ∀ i, -1 < (pw φ ε P.monos i).re) {j : Fin N} {m : ℕ} {poles : List (PolyProd (N + R) F)}
    (hp : List.Forall₂ (IsPole φ ε P j) (List.range m) poles) (hQ : IsRem φ ε P j m Q) :
    ((poles ++ [Q]).map (fun Q => ∫ t in oc N, value φ ε Q t)).sum = ∫ t in oc N, value φ ε P t := by
  set A := pw φ ε P.monos
  let T : ℕ → (Fin N → ℝ) → ℂ := fun p t => cst φ ε P * (∏ i, (t i : ℂ) ^ (A i)) *
      ((t j : ℂ) ^ p / (p.factorial : ℂ) * zs (Fin.castAdd R j) ((pd (Fin.castAdd R j))^[p] (fI φ P)) (point ε t))
  have hT : ∀ p, IntegrableOn (T p) (oc N) := by
    intro p
    have han : AnalyticOnNhd ℂ (fun x => x (Fin.castAdd R j) ^ p / (p.factorial : ℂ) *
        zs (Fin.castAdd R j) ((pd (Fin.castAdd R j))^[p] (fI φ P)) x) (dom0 (Fin.castAdd R j) U) :=
      taylor_term_analytic hU.analytic _ p
    have hc := An.continuousOn_cube (hU.covers.dom0 j) han.continuousOn
    obtain ⟨C, hC⟩ := (isCompact_Icc (a := (0 : Fin N → ℝ)) (b := 1)).exists_bound_of_continuousOn hc
    have h := (integrableOn_powers A (fun _ => 0) (by simpa using hA) _ hc C (by simpa using hC)).const_mul (cst φ ε P)
    refine IntegrableOn.congr_fun h (fun t ht => ?_) measurableSet_oc
    simp only [T, point_castAdd]; ring
  obtain ⟨V, hV, hfn⟩ := hQ.fn
  have hQint : IntegrableOn (value φ ε Q) (oc N) :=
    integrableOn_of_re hQ.wf hV (by rw [hQ.monos]; exact hA)
  have hpoint : ∀ t ∈ oc N, value φ ε P t = value φ ε Q t + ∑ p ∈ Finset.range m, T p t := by
    intro t ht
    rw [value_eq hW (oc_pos ht), value_eq hQ.wf (oc_pos ht), hQ.monos, hQ.cst, hfn _ (hV.covers t (oc_sub ht))]
    simp only [T, rem, taylor, point_castAdd]
    rw [← Finset.mul_sum]; ring
  rw [setIntegral_congr_fun measurableSet_oc hpoint, integral_add hQint (integrable_finsetSum _ fun p _ => hT p),
    integral_finsetSum _ (fun p _ => hT p)]
  have hpoles : poles.map (fun Q => ∫ t in oc N, value φ ε Q t) = (List.range m).map (fun p => ∫ t in oc N, T p t) := by
    refine forall₂_map_eq (f := fun p => ∫ t in oc N, T p t) (hp.imp fun p Q h => ?_)
    exact (pole_integral hW (hA j) h)
  rw [List.map_append, List.sum_append, hpoles, sum_map_range]
  simp [add_comm]

/-! ### All indices: the integral -/

/-- The conditions for the convergence of the original integral. -/
structure Conv (φ : F →+* ℂ) (ε : Fin R → ℂ) (P : PolyProd (N + R) F) : Prop where
  wf : WellFormed φ P
  sm : ∃ U, On φ ε P U
  re : ∀ i, -1 < (pw φ ε P.monos i).re

theorem Conv.hden {P : PolyProd (N + R) F} (h : Conv φ ε P) (j : Fin N) (p : ℕ) : pw φ ε P.monos j + p + 1 ≠ 0 := by
  intro h0
  have := congrArg Complex.re h0
  simp only [Complex.add_re, Complex.natCast_re, Complex.one_re, Complex.zero_re] at this
  have h1 := h.re j
  have h2 : (0:ℝ) ≤ p := Nat.cast_nonneg p
  linarith

theorem IsPole.conv {P Q : PolyProd (N + R) F} {j : Fin N} {p : ℕ} (h : Conv φ ε P) (hQ : IsPole φ ε P j p Q) :
    Conv φ ε Q := by
  obtain ⟨V, _, hV, _⟩ := hQ.fn
  refine ⟨hQ.wf, ⟨V, hV⟩, fun i => ?_⟩
  rw [hQ.monos, pw_setOne h.wf.wm]
  split
  · simp
  · exact h.re i

theorem IsRem.conv {P Q : PolyProd (N + R) F} {j : Fin N} {m : ℕ} (h : Conv φ ε P) (hQ : IsRem φ ε P j m Q) :
    Conv φ ε Q := by
  obtain ⟨V, hV, _⟩ := hQ.fn
  exact ⟨hQ.wf, ⟨V, hV⟩, fun i => by rw [hQ.monos]; exact h.re i⟩

theorem forall₂_right {α β : Type} {r : α → β → Prop} {l : List α} {l' : List β} (h : List.Forall₂ r l l') :
    ∀ b ∈ l', ∃ a ∈ l, r a b := by
  induction h with
  | nil => simp
  | cons h1 _ ih =>
    intro b hb
    rcases List.mem_cons.1 hb with rfl | hb
    · exact ⟨_, by simp, h1⟩
    · obtain ⟨a, ha, hab⟩ := ih b hb
      exact ⟨a, by simp [ha], hab⟩

theorem poleSingle_conv {P : PolyProd (N + R) F} (h : Conv φ ε P) {j : Fin N} {fuel : ℕ} {val : F → Option ℚ}
    {outs : List (PolyProd (N + R) F)} (ho : poleSingle fuel val P (Fin.castAdd R j) = .ok outs) :
    (∀ Q ∈ outs, Conv φ ε Q) ∧
      (outs.map (fun Q => ∫ t in oc N, value φ ε Q t)).sum = ∫ t in oc N, value φ ε P t := by
  obtain ⟨U, hU⟩ := h.sm
  obtain ⟨q, _, ⟨_, rfl⟩ | ⟨_, poles, Q, rfl, h1, h2⟩⟩ := poleSingle_spec h.wf hU (fun p _ => h.hden j p) ho
  · simp [h]
  · refine ⟨?_, single_integral h.wf hU h.re h1 h2⟩
    intro Q' hQ'
    rcases List.mem_append.1 hQ' with h' | h'
    · obtain ⟨p, _, hp⟩ := forall₂_right h1 Q' h'
      exact hp.conv h
    · simp at h'; subst h'; exact h2.conv h

theorem extendAll_conv {f : PolyProd (N + R) F → Except Err (List (PolyProd (N + R) F))}
    (hf : ∀ P outs, Conv φ ε P → f P = .ok outs → (∀ Q ∈ outs, Conv φ ε Q) ∧
      (outs.map (fun Q => ∫ t in oc N, value φ ε Q t)).sum = ∫ t in oc N, value φ ε P t) :
    ∀ (l outs : List (PolyProd (N + R) F)), (∀ P ∈ l, Conv φ ε P) → extendAll f l = .ok outs →
      (∀ Q ∈ outs, Conv φ ε Q) ∧ (outs.map (fun Q => ∫ t in oc N, value φ ε Q t)).sum
        = (l.map (fun Q => ∫ t in oc N, value φ ε Q t)).sum := by
  intro l
  induction l with
  | nil => intro outs _ h; simp [extendAll] at h; subst h; simp
  | cons P l ih =>
    intro outs hl h
    simp only [extendAll] at h
    obtain ⟨a, ha, h⟩ := bind_ok h
    obtain ⟨b, hb, h⟩ := bind_ok h
    simp at h; subst h
    obtain ⟨a1, a2⟩ := hf P a (hl P (by simp)) ha
    obtain ⟨b1, b2⟩ := ih b (fun P hP => hl P (by simp [hP])) hb
    refine ⟨?_, by simp [a2, b2]⟩
    intro Q hQ
    rcases List.mem_append.1 hQ with h' | h'
    · exact a1 Q h'
    · exact b1 Q h'

theorem poleLoopIdx_conv {fuel : ℕ} {val : F → Option ℚ} (js : List (Fin N)) :
    ∀ (l outs : List (PolyProd (N + R) F)), (∀ P ∈ l, Conv φ ε P) →
      poleLoopIdx fuel val (js.map (Fin.castAdd R)) l = .ok outs →
      (∀ Q ∈ outs, Conv φ ε Q) ∧ (outs.map (fun Q => ∫ t in oc N, value φ ε Q t)).sum
        = (l.map (fun Q => ∫ t in oc N, value φ ε Q t)).sum := by
  induction js with
  | nil => intro l outs hl h; simp [poleLoopIdx] at h; subst h; exact ⟨hl, rfl⟩
  | cons j js ih =>
    intro l outs hl h
    simp only [List.map_cons, poleLoopIdx] at h
    obtain ⟨l', hl', h⟩ := bind_ok h
    obtain ⟨a1, a2⟩ := extendAll_conv (fun P outs hP ho => poleSingle_conv hP ho) l l' hl hl'
    obtain ⟨b1, b2⟩ := ih l' outs a1 h
    exact ⟨b1, b2.trans a2⟩

/-! ### All indices: the order of the zeros -/

theorem ect_eq_sum (j : Fin (N + R)) (ms : List (Monomial (N + R) F)) :
    ect j ms = (ms.map (fun m => zeroRowSum m.exponent * ((m.expo j : Int) : F))).sum := by
  have hz : ∀ p : Poly (N + R) F, p.hasConstantTerm none = false → zeroRowSum p = 0 := by
    intro p hp
    unfold zeroRowSum
    rw [List.filter_eq_nil_iff.2]
    · simp
    · intro t ht
      simp only [Poly.hasConstantTerm, List.any_eq_false] at hp
      have := hp t ht
      simp only [decide_eq_true_eq]
      intro h0
      apply this
      simp [h0]
  have key : ∀ (l : List (Monomial (N + R) F)) (acc : F), l.foldl (ectStep j) acc
      = acc + (l.map (fun m => zeroRowSum m.exponent * ((m.expo j : Int) : F))).sum := by
    intro l
    induction l with
    | nil => intro acc; simp
    | cons m l ih =>
      intro acc
      simp only [List.foldl_cons, List.map_cons, List.sum_cons]
      rw [ih]
      unfold ectStep
      split
      · ring
      · rename_i hc
        rw [hz _ (by simpa using hc)]; ring
  rw [ect, key]; simp

theorem ect_setOne {ms : List (Monomial (N + R) F)} (h : ∀ m ∈ ms, WM φ m) {i j : Fin N} (hij : i ≠ j) :
    ect (Fin.castAdd R i) (ms.map (Monomial.setOne (Fin.castAdd R j))) = ect (Fin.castAdd R i) ms := by
  rw [ect_eq_sum, ect_eq_sum, List.map_map]
  congr 1
  refine List.map_congr_left fun m hm => ?_
  simp [setOne_eq (h m hm), Function.update_of_ne (castAdd_ne (R := R) hij)]

theorem ect_zero {ms : List (Monomial (N + R) F)} {i : Fin (N + R)} (h : ∀ m ∈ ms, m.expo i = 0) : ect i ms = 0 := by
  rw [ect_eq_sum]
  apply List.sum_eq_zero
  intro z hz
  obtain ⟨m, hm, rfl⟩ := List.mem_map.1 hz
  simp [h m hm]

theorem pw_zero {ms : List (Monomial (N + R) F)} {i : Fin N} (h : ∀ m ∈ ms, m.expo (Fin.castAdd R i) = 0) :
    pw φ ε ms i = 0 := by
  apply List.sum_eq_zero
  intro z hz
  obtain ⟨m, hm, rfl⟩ := List.mem_map.1 hz
  simp [h m hm]

/-- Vanishing derivatives of a product with a function which does not depend on the variable. -/
theorem Van.mul_indep {f g h : (Fin (N + R) → ℂ) → ℂ} {V : Set (Fin (N + R) → ℂ)} (hV : IsOpen V) (hc : Covers ε V)
    (hf : AnalyticOnNhd ℂ f V) (hh : ∀ x ∈ V, AnalyticAt ℂ h x) {k : Fin N}
    (hind : ∀ x s, h (Function.update x (Fin.castAdd R k) s) = h x)
    (hg : ∀ x ∈ V, g x = f x * h x) {m : ℕ} (hv : Van ε f k m) : Van ε g k m := by
  have key : ∀ q, EqOn ((Subtraction.pd (Fin.castAdd R k))^[q] g)
      (fun x => (Subtraction.pd (Fin.castAdd R k))^[q] f x * h x) V := by
    intro q
    induction q with
    | zero => exact hg
    | succ q ih =>
      rw [Function.iterate_succ_apply', Function.iterate_succ_apply']
      intro x hx
      rw [pd_congr hV ih _ hx]
      have ha := pdn_analytic hf (Fin.castAdd R k) q x hx
      refine pd_eq_of_hasDerivAt (ha.mul (hh x hx)) ?_
      have h1 := (hasDerivAt_pd' ha (Fin.castAdd R k)).mul_const (h x)
      refine h1.congr_of_eventuallyEq (Filter.Eventually.of_forall fun s => ?_)
      simp only [Pi.mul_apply, hind]
  intro q hq t ht htk
  rw [key q (hc t ht)]
  beta_reduce
  rw [hv q hq t ht htk, zero_mul]

/-- Relation of a term to the original product after the indices `S` have been treated. -/
structure Inv (φ : F →+* ℂ) (ε : Fin R → ℂ) (val : F → Option ℚ) (P : PolyProd (N + R) F) (S : List (Fin N))
    (Q : PolyProd (N + R) F) : Prop where
  wf : WellFormed φ Q
  sm : ∃ U, On φ ε Q U
  col : ∀ i : Fin N, (∀ m ∈ Q.monos, m.expo (Fin.castAdd R i) = 0) ∨
    (ect (Fin.castAdd R i) Q.monos = ect (Fin.castAdd R i) P.monos ∧ pw φ ε Q.monos i = pw φ ε P.monos i ∧
      (i ∈ S → ∀ q, val (ect (Fin.castAdd R i) P.monos) = some q → q < 0 → Van ε (fI φ Q) i ⌊-q⌋.toNat))

theorem poleSingle_inv {val : F → Option ℚ} (hval : ∀ c q, val c = some q → φ c = (q : ℂ))
    {P Q : PolyProd (N + R) F} {S : List (Fin N)} (h : Inv φ ε val P S Q) {j : Fin N}
    (hden : ∀ p : ℕ, ect (Fin.castAdd R j) P.monos + (p : F) + 1 ≠ 0 → pw φ ε P.monos j + p + 1 ≠ 0)
    {fuel : ℕ} {outs : List (PolyProd (N + R) F)} (ho : poleSingle fuel val Q (Fin.castAdd R j) = .ok outs) :
    ∀ T ∈ outs, Inv φ ε val P (j :: S) T := by
  obtain ⟨U, hU⟩ := h.sm
  have hden' : ∀ p : ℕ, ect (Fin.castAdd R j) Q.monos + (p : F) + 1 ≠ 0 → pw φ ε Q.monos j + p + 1 ≠ 0 := by
    intro p hp
    rcases h.col j with h0 | ⟨h1, h2, _⟩
    · rw [pw_zero h0, zero_add]; exact_mod_cast Nat.succ_ne_zero p
    · rw [h2]; exact hden p (by rw [← h1]; exact hp)
  obtain ⟨q, hq, ⟨hq0, rfl⟩ | ⟨hq0, poles, T0, rfl, h1, h2⟩⟩ := poleSingle_spec h.wf hU hden' ho
  · intro T hT
    simp at hT; subst hT
    refine ⟨h.wf, h.sm, fun i => ?_⟩
    rcases h.col i with h0 | ⟨h1, h2, h3⟩
    · exact Or.inl h0
    · refine Or.inr ⟨h1, h2, fun hi q' hq' hneg => ?_⟩
      rcases List.mem_cons.1 hi with rfl | hi
      · rw [← h1, hq] at hq'
        simp at hq'; subst hq'
        exact absurd hneg (not_lt.2 hq0)
      · exact h3 hi q' hq' hneg
  · -- the column `j` is not zero
    have hcol : ect (Fin.castAdd R j) Q.monos = ect (Fin.castAdd R j) P.monos := by
      rcases h.col j with h0 | ⟨h1, _⟩
      · exfalso
        rw [ect_zero h0] at hq
        have := hval _ _ hq
        rw [map_zero] at this
        have h3 : q = 0 := by exact_mod_cast this.symm
        linarith
      · exact h1
    intro T hT
    rcases List.mem_append.1 hT with h' | h'
    · obtain ⟨p, _, hp⟩ := forall₂_right h1 T h'
      obtain ⟨V, g, hV, g1, g2, g3, _⟩ := hp.fn
      refine ⟨hp.wf, ⟨V, hV⟩, fun i => ?_⟩
      rw [hp.monos]
      by_cases hij : i = j
      · left
        subst hij
        intro m hm
        obtain ⟨m', hm', rfl⟩ := List.mem_map.1 hm
        simp [setOne_eq (h.wf.wm m' hm')]
      · rcases h.col i with h0 | ⟨e1, e2, e3⟩
        · left
          intro m hm
          obtain ⟨m', hm', rfl⟩ := List.mem_map.1 hm
          simp only [setOne_eq (h.wf.wm m' hm'), Function.update_of_ne (castAdd_ne (R := R) hij)]
          exact h0 m' hm'
        · refine Or.inr ⟨by rw [ect_setOne h.wf.wm hij, e1], by rw [pw_setOne h.wf.wm, if_neg hij, e2], ?_⟩
          intro hi q' hq' hneg
          have hiS : i ∈ S := by
            rcases List.mem_cons.1 hi with h' | h'
            · exact absurd h' hij
            · exact h'
          have v1 := e3 hiS q' hq' hneg
          have v2 := v1.pdn hU.isOpen hU.covers hU.analytic (Ne.symm hij) p
          have v3 := v2.zs hU.isOpen hU.covers (pdn_analytic hU.analytic _ p) (Ne.symm hij)
          refine v3.mul_indep (V := V ∩ dom0 (Fin.castAdd R j) U) (hV.isOpen.inter (isOpen_dom0 hU.isOpen _))
            (hV.covers.inter (hU.covers.dom0 j)) ?_ (fun x hx => g2 x hx.1) (g3 i) (fun x hx => g1 x hx.1)
          exact (zs_analytic (pdn_analytic hU.analytic _ p) _).mono inter_subset_right
    · simp at h'; subst h'
      obtain ⟨V, hV, hfn⟩ := h2.fn
      refine ⟨h2.wf, ⟨V, hV⟩, fun i => ?_⟩
      rw [h2.monos]
      rcases h.col i with h0 | ⟨e1, e2, e3⟩
      · exact Or.inl h0
      · refine Or.inr ⟨e1, e2, fun hi q' hq' hneg => ?_⟩
        have hVU := hV.isOpen.inter (hU.isOpen.inter (isOpen_dom0 hU.isOpen (Fin.castAdd R j)))
        have hVc := hV.covers.inter (hU.covers.inter (hU.covers.dom0 j))
        have heq : EqOn (rem (Fin.castAdd R j) ⌊-q⌋.toNat (fI φ Q)) (fI φ T)
            (V ∩ (U ∩ dom0 (Fin.castAdd R j) U)) := fun x hx => (hfn x hx.1).symm
        by_cases hij : i = j
        · subst hij
          rw [← e1, hq] at hq'
          simp at hq'; subst hq'
          exact (Van.rem_same hU.isOpen hU.covers hU.analytic i _).congr hVU hVc heq
        · have hiS : i ∈ S := by
            rcases List.mem_cons.1 hi with h' | h'
            · exact absurd h' hij
            · exact h'
          exact ((e3 hiS q' hq' hneg).rem_other hU.isOpen hU.covers hU.analytic (Ne.symm hij) _).congr hVU hVc heq

theorem extendAll_all {f : PolyProd (N + R) F → Except Err (List (PolyProd (N + R) F))} {p r : PolyProd (N + R) F → Prop}
    (hf : ∀ P outs, p P → f P = .ok outs → ∀ Q ∈ outs, r Q) :
    ∀ (l outs : List (PolyProd (N + R) F)), (∀ P ∈ l, p P) → extendAll f l = .ok outs → ∀ Q ∈ outs, r Q := by
  intro l
  induction l with
  | nil => intro outs _ h; simp [extendAll] at h; subst h; simp
  | cons P l ih =>
    intro outs hl h
    simp only [extendAll] at h
    obtain ⟨a, ha, h⟩ := bind_ok h
    obtain ⟨b, hb, h⟩ := bind_ok h
    simp at h; subst h
    intro Q hQ
    rcases List.mem_append.1 hQ with h' | h'
    · exact hf P a (hl P (by simp)) ha Q h'
    · exact ih b (fun P hP => hl P (by simp [hP])) hb Q h'

theorem poleLoopIdx_inv {val : F → Option ℚ} (hval : ∀ c q, val c = some q → φ c = (q : ℂ)) {fuel : ℕ}
    {P : PolyProd (N + R) F} (js : List (Fin N)) :
    ∀ (S : List (Fin N)) (l outs : List (PolyProd (N + R) F)), (∀ Q ∈ l, Inv φ ε val P S Q) →
      (∀ j ∈ js, ∀ p : ℕ, ect (Fin.castAdd R j) P.monos + (p : F) + 1 ≠ 0 → pw φ ε P.monos j + p + 1 ≠ 0) →
      poleLoopIdx fuel val (js.map (Fin.castAdd R)) l = .ok outs →
      ∀ Q ∈ outs, ∃ S', (∀ i, i ∈ S ∨ i ∈ js → i ∈ S') ∧ Inv φ ε val P S' Q := by
  induction js with
  | nil =>
    intro S l outs hl _ h
    simp [poleLoopIdx] at h; subst h
    intro Q hQ
    exact ⟨S, by simp, hl Q hQ⟩
  | cons j js ih =>
    intro S l outs hl hd h
    simp only [List.map_cons, poleLoopIdx] at h
    obtain ⟨l', hl', h⟩ := bind_ok h
    have h1 := extendAll_all (fun Q outs hQ ho => poleSingle_inv hval hQ (hd j (by simp)) ho) l l' hl hl'
    intro Q hQ
    obtain ⟨S', hS, hI⟩ := ih (j :: S) l' outs h1 (fun i hi => hd i (by simp [hi])) h Q hQ
    refine ⟨S', fun i hi => hS i ?_, hI⟩
    rcases hi with hi | hi
    · exact Or.inl (by simp [hi])
    · rcases List.mem_cons.1 hi with rfl | hi
      · exact Or.inl (by simp)
      · exact Or.inr hi

/-! ### Zero regulators -/

theorem mono_zero_point {e : Expo (N + R)} (he : RE e) :
    Poly.mono (rpt N (fun _ : Fin R => (0:ℂ))) e = if e = (fun _ => 0) then 1 else 0 := by
  split
  · rename_i h; rw [h]; exact mono_zero' _
  · rename_i h
    obtain ⟨i, hi⟩ : ∃ i, e i ≠ 0 := by
      by_contra hc
      push Not at hc
      exact h (funext hc)
    unfold Poly.mono
    refine Finset.prod_eq_zero (Finset.mem_univ i) ?_
    have : rpt N (fun _ : Fin R => (0:ℂ)) i = 0 := by
      refine Fin.addCases (fun i => ?_) (fun i => ?_) i <;> simp [rpt]
    rw [this, zero_zpow _ hi]

theorem pev_zero_point {p : Poly (N + R) F} (hp : RegulatorPoly p) :
    pev φ (rpt N (fun _ : Fin R => (0:ℂ))) p = φ (zeroRowSum p) := by
  unfold pev zeroRowSum
  unfold RegulatorPoly at hp
  generalize p.terms = l at hp
  induction l with
  | nil => simp
  | cons t l ih =>
    rw [List.map_cons, List.sum_cons, ih (fun t ht => hp t (by simp [ht])), mono_zero_point (hp t (by simp)),
      List.filter_cons]
    by_cases h : t.1 = fun _ => 0
    · simp [h]
    · simp [h]

theorem pw_zero_point {ms : List (Monomial (N + R) F)} (h : ∀ m ∈ ms, WM φ m) (j : Fin N) :
    pw φ (fun _ : Fin R => (0:ℂ)) ms j = φ (ect (Fin.castAdd R j) ms) := by
  rw [ect_eq_sum, map_list_sum, List.map_map, pw]
  congr 1
  refine List.map_congr_left fun m hm => ?_
  rw [pev_zero_point (h m hm).exponent]
  simp

end SecDec.Subtraction
