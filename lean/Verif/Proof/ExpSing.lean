import Verif.Proof.ExpStep
/-
The loop of `_expand_singular_step` computes the Laurent coefficients.
-/
set_option linter.unusedSectionVars false
namespace SecDec
namespace Expansion
open Filter Topology Asymptotics Poly
open Subtraction (pev NonNeg pev_simplify pev_zero pev_mul)
variable {n : Nat} {F : Type} [Field F] [DecidableEq F] {φ : F →+* ℂ} {i : Fin n} {y : Fin n → ℂ}

/-- The rational function of the variable `i`, at fixed values of the others. -/
noncomputable def ratFun (φ : F →+* ℂ) (num den : Poly n F) (i : Fin n) (y : Fin n → ℂ) (s : ℂ) : ℂ :=
  pev φ (Function.update y i s) num / pev φ (Function.update y i s) den

theorem ratFun_analytic {num den : Poly n F} (hn : NonNeg num) (hd : NonNeg den)
    (h : pev φ (Function.update y i 0) den ≠ 0) : AnalyticAt ℂ (ratFun φ num den i y) 0 :=
  (pev_analytic y hn i 0).div (pev_analytic y hd i 0) h

theorem eventually_den {den : Poly n F} (hd : NonNeg den) (h : pev φ (Function.update y i 0) den ≠ 0) :
    ∀ᶠ s in 𝓝 (0:ℂ), pev φ (Function.update y i s) den ≠ 0 :=
  (pev_analytic (φ := φ) y hd i 0).continuousAt.eventually_ne h

/-- Invariant of the loop after `k` iterations. -/
structure LInv (φ : F →+* ℂ) (num0 den0 : Poly n F) (i : Fin n) (first : RatProd n F) (k : ℕ) (s : State n F) : Prop where
  nn : NonNeg s.num
  dd : NonNeg s.den
  den_pow : ∀ x, pev φ x s.den = pev φ x den0 ^ (2 ^ k)
  fact : φ s.fact = (k.factorial : ℂ)
  len : (s.coeffs ++ s.zeros).length = k + 1
  head : ∃ rest, s.coeffs = first :: rest
  zval : ∀ c ∈ s.zeros, ∀ x, c.value φ x = 0
  valid : (∃ y0, pev φ (Function.update y0 i 0) den0 ≠ 0) → ∀ c ∈ s.coeffs ++ s.zeros, c.Valid
  indep : ∀ c ∈ s.coeffs ++ s.zeros, ∀ y t, c.value φ (Function.update y i t) = c.value φ y
  deriv : ∀ y, pev φ (Function.update y i 0) den0 ≠ 0 →
    (∀ᶠ t in 𝓝 (0:ℂ), iteratedDeriv k (ratFun φ num0 den0 i y) t = ratFun φ s.num s.den i y t) ∧
    (s.coeffs ++ s.zeros).map (fun c => c.value φ y) =
      (List.range (k + 1)).map (fun j => iteratedDeriv j (ratFun φ num0 den0 i y) 0 / (j.factorial : ℂ))

theorem value_pair (p q : Poly n F) (x : Fin n → ℂ) :
    RatProd.value φ ⟨[(false, p), (true, q)]⟩ x = pev φ x p / pev φ x q := by
  simp [RatProd.value, polyValue_eq, div_eq_mul_inv]

theorem value_single (p : Poly n F) (x : Fin n → ℂ) : RatProd.value φ ⟨[(false, p)]⟩ x = pev φ x p := by
  simp [RatProd.value, polyValue_eq]

theorem pev_rs {p : Poly n F} (hp : NonNeg p) (x : Fin n → ℂ) :
    pev φ x (p.replace i 0).simplify = pev φ (Function.update x i 0) p := by
  rw [pev_simplify, pev_replace0 x hp]

theorem valid_pair {p q : Poly n F} (hp : NonNeg p) (hq : NonNeg q) (c : F) (hc : φ c ≠ 0) {y0 : Fin n → ℂ}
    (h : pev φ (Function.update y0 i 0) q ≠ 0) :
    RatProd.Valid ⟨[(false, (p.replace i 0).simplify), (true, scaleCoeffs (q.replace i 0).simplify c)]⟩ := by
  have h1 := nonneg_simplify (nonneg_replace hp i 0)
  have h2 := nonneg_scale (nonneg_simplify (nonneg_replace hq i 0)) c
  refine ⟨?_, ?_⟩
  · intro f hf
    simp at hf
    rcases hf with rfl | rfl
    · exact h1
    · exact h2
  · intro f hf hft
    simp at hf
    rcases hf with rfl | rfl
    · simp at hft
    · refine exists_coeff (φ := φ) (x := y0) ?_
      simp only
      rw [pev_scale, pev_rs hq]
      exact mul_ne_zero h hc

theorem loop_inv {num0 den0 : Poly n F} (hn : NonNeg num0) (hd : NonNeg den0) (k : ℕ) :
    LInv φ num0 den0 i ⟨[(false, (num0.replace i 0).simplify), (true, (den0.replace i 0).simplify)]⟩ k
      ((List.range k).foldl (loopBody i)
        { num := num0, den := den0, fact := 1,
          coeffs := [⟨[(false, (num0.replace i 0).simplify), (true, (den0.replace i 0).simplify)]⟩],
          zeros := [] }) := by
  induction k with
  | zero =>
    refine ⟨hn, hd, fun x => by simp, by simp, by simp, ⟨[], rfl⟩, by simp, ?_, ?_, ?_⟩
    · rintro ⟨y0, hy0⟩ c hc
      simp at hc
      subst hc
      have := valid_pair (φ := φ) hn hd 1 (by simp) hy0
      have e : ∀ q : Poly n F, scaleCoeffs q 1 = q := by intro q; simp [scaleCoeffs]
      rwa [e] at this
    · intro c hc y t
      simp at hc
      subst hc
      rw [value_pair, value_pair, pev_rs hn, pev_rs hd, pev_rs hn, pev_rs hd, Function.update_idem]
    · intro y hy
      refine ⟨Eventually.of_forall fun t => by simp, ?_⟩
      simp [value_pair, pev_rs hn, pev_rs hd, ratFun]
  | succ k ih =>
    rw [List.range_succ, List.foldl_append, List.foldl_cons, List.foldl_nil]
    generalize hs : List.foldl (loopBody (F := F) i) _ (List.range k) = s at ih ⊢
    set nd := derivePolyrational s.num s.den i with hnd
    have hN : NonNeg nd.1 :=
      nonneg_sub (nonneg_mul (nonneg_derive ih.nn i) ih.dd) (nonneg_mul (nonneg_derive ih.dd i) ih.nn)
    have hD : NonNeg nd.2 := nonneg_mul ih.dd ih.dd
    have hDp : ∀ x, pev φ x nd.2 = pev φ x den0 ^ (2 ^ (k + 1)) := by
      intro x
      rw [show nd.2 = s.den.mul s.den from rfl, pev_mul x ih.dd ih.dd, ih.den_pow, pow_succ 2 k, pow_mul]; ring
    have hfact : φ (s.fact * ((k : F) + 1)) = ((k + 1).factorial : ℂ) := by
      rw [map_mul, ih.fact, Nat.factorial_succ]; simp; ring
    have hfne : φ (s.fact * ((k : F) + 1)) ≠ 0 := by rw [hfact]; exact_mod_cast Nat.factorial_ne_zero _
    have hder : ∀ y, pev φ (Function.update y i 0) den0 ≠ 0 →
        ∀ᶠ t in 𝓝 (0:ℂ), iteratedDeriv (k + 1) (ratFun φ num0 den0 i y) t = ratFun φ nd.1 nd.2 i y t := by
      intro y hy
      have h1 : (iteratedDeriv k (ratFun φ num0 den0 i y)) =ᶠ[𝓝 0] ratFun φ s.num s.den i y := (ih.deriv y hy).1
      have h2 := h1.deriv
      have hdn : pev φ (Function.update y i 0) s.den ≠ 0 := by rw [ih.den_pow]; exact pow_ne_zero _ hy
      filter_upwards [h2, eventually_den ih.dd hdn] with t ht htd
      rw [iteratedDeriv_succ, ht]
      have h3 := ((pev_derive' (φ := φ) y ih.nn i t).div (pev_derive' (φ := φ) y ih.dd i t) htd).deriv
      refine (Eq.trans ?_ h3).trans ?_
      · rfl
      · unfold ratFun
        rw [show nd.1 = ((s.num.derive i).mul s.den).sub ((s.den.derive i).mul s.num) from rfl,
          show nd.2 = s.den.mul s.den from rfl, pev_sub, pev_mul _ (nonneg_derive ih.nn i) ih.dd,
          pev_mul _ (nonneg_derive ih.dd i) ih.nn, pev_mul _ ih.dd ih.dd]
        congr 1 <;> ring
    have hnext : ∀ y, pev φ (Function.update y i 0) den0 ≠ 0 →
        pev φ y (nd.1.replace i 0).simplify / (pev φ y (nd.2.replace i 0).simplify * φ (s.fact * ((k : F) + 1))) =
          iteratedDeriv (k + 1) (ratFun φ num0 den0 i y) 0 / ((k + 1).factorial : ℂ) := by
      intro y hy
      rw [(hder y hy).self_of_nhds, hfact, pev_rs hN, pev_rs hD]
      unfold ratFun
      rw [div_div]
    unfold loopBody
    simp only [← hnd]
    split
    · rename_i hz
      have hzero : ∀ x, pev φ x (nd.1.replace i 0).simplify = 0 := by
        intro x
        unfold pev
        apply List.sum_eq_zero
        intro v hv
        obtain ⟨t, ht, rfl⟩ := List.mem_map.1 hv
        have := List.all_eq_true.1 hz t ht
        simp only [decide_eq_true_eq] at this
        simp [this]
      refine ⟨hN, hD, hDp, hfact, ?_, ih.head, ?_, ?_, ?_, ?_⟩
      · have := ih.len; simp at this ⊢; omega
      · intro c hc x
        rcases List.mem_append.1 hc with h | h
        · exact ih.zval c h x
        · simp at h; subst h; rw [value_single, hzero]
      · intro hy0 c hc
        rw [← List.append_assoc] at hc
        rcases List.mem_append.1 hc with h | h
        · exact ih.valid hy0 c h
        · simp at h; subst h
          refine ⟨?_, ?_⟩
          · intro f hf; simp at hf; subst hf; exact nonneg_simplify (nonneg_replace hN i 0)
          · intro f hf hft; simp at hf; subst hf; simp at hft
      · intro c hc y t
        rw [← List.append_assoc] at hc
        rcases List.mem_append.1 hc with h | h
        · exact ih.indep c h y t
        · simp at h; subst h; rw [value_single, value_single, hzero, hzero]
      · intro y hy
        refine ⟨hder y hy, ?_⟩
        rw [← List.append_assoc, List.map_append, (ih.deriv y hy).2, List.range_succ (n := k + 1), List.map_append]
        congr 1
        simp only [List.map_cons, List.map_nil]
        rw [← hnext y hy, hzero, value_single, hzero, zero_div]
    · have hco : (if s.zeros.isEmpty = true then s.coeffs else s.coeffs ++ s.zeros) = s.coeffs ++ s.zeros := by
        split
        · rename_i h; rw [List.isEmpty_iff.1 h]; simp
        · rfl
      simp only [hco]
      refine ⟨hN, hD, hDp, hfact, ?_, ?_, by simp, ?_, ?_, ?_⟩
      · have := ih.len; simp at this ⊢; omega
      · obtain ⟨rest, hr⟩ := ih.head
        rw [hr, List.cons_append, List.cons_append]; exact ⟨_, rfl⟩
      · intro hy0 c hc
        rw [List.append_nil] at hc
        rcases List.mem_append.1 hc with h | h
        · exact ih.valid hy0 c h
        · simp only [List.mem_singleton] at h; subst h
          obtain ⟨y0, hy0⟩ := hy0
          exact valid_pair hN hD _ hfne (y0 := y0) (by rw [hDp]; exact pow_ne_zero _ hy0)
      · intro c hc y t
        rw [List.append_nil] at hc
        rcases List.mem_append.1 hc with h | h
        · exact ih.indep c h y t
        · simp only [List.mem_singleton] at h; subst h
          rw [value_pair, value_pair, pev_scale, pev_scale, pev_rs hN, pev_rs hD, pev_rs hN, pev_rs hD,
            Function.update_idem]
      · intro y hy
        refine ⟨hder y hy, ?_⟩
        rw [List.append_nil, List.map_append, (ih.deriv y hy).2, List.range_succ (n := k + 1), List.map_append]
        congr 1
        simp only [List.map_cons, List.map_nil]
        rw [← hnext y hy, value_pair, pev_scale]

theorem nonneg_of_valid {P : RatProd n F} (hP : P.Valid) : ∀ f ∈ P.factors, NonNeg f.2 := hP.1

/-- The facts about the numerator and the denominator after factoring out the lowest powers. -/
theorem setup (P : RatProd n F) (hP : P.Valid) (i : Fin n) :
    ∃ a b : ℤ, (numDen P).1.minPower i = some a ∧ (numDen P).2.minPower i = some b ∧
      NonNeg ((numDen P).1.shiftPower i (-a)) ∧ NonNeg ((numDen P).2.shiftPower i (-b)) ∧
      (∀ y s, s ≠ 0 → P.value φ (Function.update y i s) = s ^ (a - b) *
        ratFun φ ((numDen P).1.shiftPower i (-a)) ((numDen P).2.shiftPower i (-b)) i y s) ∧
      (∀ y, (∀ f ∈ P.factors, f.1 = true → RegularAt φ f.2 i y) →
        pev φ (Function.update y i 0) ((numDen P).2.shiftPower i (-b)) ≠ 0) ∧
      (∀ y, (∀ f ∈ P.factors, f.1 = false → RegularAt φ f.2 i y) →
        pev φ (Function.update y i 0) ((numDen P).1.shiftPower i (-a)) ≠ 0) := by
  obtain ⟨⟨h1, h2, h3, h4⟩, h5, h6, h7⟩ := numDen_ok (φ := φ) P hP.1
  obtain ⟨a, ha⟩ := exists_minPower h3.1 i
  obtain ⟨b, hb⟩ := exists_minPower h4.1 i
  obtain ⟨⟨ta, hta, ea⟩, hma⟩ := minPower_spec ha
  obtain ⟨⟨tb, htb, eb⟩, hmb⟩ := minPower_spec hb
  refine ⟨a, b, ha, hb, nonneg_shift h1 i hma, nonneg_shift h2 i hmb, ?_, ?_, ?_⟩
  · intro y s hs
    rw [h5, pev_shift _ i (ea ▸ h1 ta hta i) hma, pev_shift (p := (numDen P).2) _ i (eb ▸ h2 tb htb i) hmb]
    simp only [Function.update_self, ratFun]
    rw [zpow_sub₀ hs, mul_div_mul_comm]
  · intro y hy
    obtain ⟨d, c, hd⟩ := h7 i y hy
    rw [(reg_min h2 h4 hb hd).2]; exact hd.2.1
  · intro y hy
    obtain ⟨d, c, hd⟩ := h6 i y hy
    rw [(reg_min h1 h3 ha hd).2]; exact hd.2.1

theorem generic_neBot : (generic n).NeBot := by
  refine ⟨?_⟩
  intro h
  have : (∅ : Set (Fin n → ℂ)) ∈ generic n := by rw [h]; trivial
  obtain ⟨G, _, h2, h3⟩ := this
  have h4 : G = ∅ := Set.subset_empty_iff.1 h3
  rw [h4] at h2
  have := h2.nonempty
  simp at this

theorem generic_valid {P : RatProd n F} (hP : P.Valid) (i : Fin n) :
    ∀ᶠ y in generic n, ∀ f ∈ P.factors, f.1 = true → RegularAt φ f.2 i y := by
  obtain ⟨l⟩ := P
  obtain ⟨h1, h2⟩ := hP
  simp only at h1 h2 ⊢
  induction l with
  | nil => simp
  | cons f l ih =>
    have := ih (fun f hf => h1 f (by simp [hf])) (fun f hf => h2 f (by simp [hf]))
    have hf : ∀ᶠ y in generic n, f.1 = true → RegularAt φ f.2 i y := by
      by_cases hft : f.1 = true
      · obtain ⟨e, he⟩ := h2 f (by simp) hft
        filter_upwards [generic_regular (φ := φ) (h1 f (by simp)) he i] with y hy _ using hy
      · exact Eventually.of_forall fun y h => absurd h hft
    filter_upwards [this, hf] with y h3 h4 g hg hgt
    rcases List.mem_cons.1 hg with rfl | h
    · exact h4 hgt
    · exact h3 g h hgt

/-- The result of `_expand_singular_step`. -/
theorem singStep_spec (P : RatProd n F) (hP : P.Valid) (i : Fin n) (o : ℤ) :
    ∃ k : ℤ,
      (o < k → singStep P i o = .error .order ∧ ∀ y, (∀ f ∈ P.factors, f.1 = true → RegularAt φ f.2 i y) →
        IsExpansion (fun s => P.value φ (Function.update y i s)) o []) ∧
      (k ≤ o → ∃ (p : Poly n (RatProd n F)) (c0 : RatProd n F) (cs : List (RatProd n F)), singStep P i o = .ok p ∧
        p.terms = (c0 :: cs).zipIdx.map (fun c => (Function.update (fun _ => 0) i ((c.2 : ℤ) + k), c.1)) ∧
        (∀ c ∈ c0 :: cs, c.Valid ∧ ∀ y s, c.value φ (Function.update y i s) = c.value φ y) ∧
        (∀ y, (∀ f ∈ P.factors, f.1 = true → RegularAt φ f.2 i y) →
          IsExpansion (fun s => P.value φ (Function.update y i s)) o
            (consec k ((c0 :: cs).map (fun c => c.value φ y)))) ∧
        (∀ y, (∀ f ∈ P.factors, RegularAt φ f.2 i y) → c0.value φ y ≠ 0)) ∧
      (∀ y, (∀ f ∈ P.factors, RegularAt φ f.2 i y) → ∃ c ≠ 0,
        Tendsto (fun s => P.value φ (Function.update y i s) / s ^ k) (𝓝[≠] 0) (𝓝 c)) := by
  obtain ⟨a, b, ha, hb, hN, hD, hval, hden, hnum⟩ := setup (φ := φ) P hP i
  set N := (numDen P).1.shiftPower i (-a) with hNdef
  set D := (numDen P).2.shiftPower i (-b) with hDdef
  have hev : ∀ y, ∀ᶠ s in 𝓝[≠] (0:ℂ), P.value φ (Function.update y i s) = s ^ (a - b) * ratFun φ N D i y s := by
    intro y
    filter_upwards [self_mem_nhdsWithin] with s hs using hval y s hs
  refine ⟨a - b, ?_, ?_, ?_⟩
  · intro ho
    refine ⟨?_, ?_⟩
    · unfold singStep
      simp only [ha, hb]
      rw [if_pos (by omega)]
    · intro y hy
      exact isExpansion_nil (ratFun_analytic hN hD (hden y hy)) (hev y) ho
  · intro ho
    have hinv := loop_inv (φ := φ) (i := i) hN hD (o + (-a + b)).toNat
    set s := List.foldl (loopBody (F := F) i) _ (List.range (o + (-a + b)).toNat) with hs
    obtain ⟨rest, hrest⟩ := hinv.head
    have hy0 : ∃ y0, pev φ (Function.update y0 i 0) D ≠ 0 := by
      have := generic_neBot (n := n)
      obtain ⟨y, hy⟩ := (generic_valid (φ := φ) hP i).exists
      exact ⟨y, hden y hy⟩
    refine ⟨⟨s.coeffs.zipIdx.map (fun c => (Function.update (fun _ => 0) i ((c.2 : Int) - (-a + b)), c.1))⟩,
      ⟨[(false, (N.replace i 0).simplify), (true, (D.replace i 0).simplify)]⟩, rest, ?_, ?_, ?_, ?_, ?_⟩
    · unfold singStep
      simp only [ha, hb]
      rw [if_neg (by omega)]
    · rw [← hrest]
      simp only
      refine List.map_congr_left fun c _ => ?_
      rw [show (c.2 : ℤ) - (-a + b) = c.2 + (a - b) by ring]
    · intro c hc
      rw [← hrest] at hc
      exact ⟨hinv.valid hy0 c (by simp [hc]), hinv.indep c (by simp [hc])⟩
    · intro y hy
      rw [← hrest]
      have hlen := hinv.len
      have hder := (hinv.deriv y (hden y hy)).2
      refine isExpansion_consec (ratFun_analytic hN hD (hden y hy)) (hev y) ((o + (-a + b)).toNat + 1) ?_ _ ?_ ?_
      · push_cast; rw [Int.toNat_of_nonneg (by omega)]; ring
      · simp at hlen ⊢; omega
      · intro k hk
        have h1 : ((s.coeffs ++ s.zeros).map (fun c => c.value φ y)).getD k 0 =
            iteratedDeriv k (ratFun φ N D i y) 0 / (k.factorial : ℂ) := by
          rw [hder, List.getD_eq_getElem?_getD, List.getElem?_map, List.getElem?_range hk]; rfl
        rw [← h1, List.map_append]
        by_cases hkl : k < s.coeffs.length
        · rw [List.getD_append _ _ _ _ (by simpa using hkl)]
        · rw [List.getD_append_right _ _ _ _ (by simpa using hkl), List.getD_eq_getElem?_getD,
            List.getElem?_eq_none (by simpa using hkl), List.getD_eq_getElem?_getD, List.getElem?_map]
          cases hz : s.zeros[k - (s.coeffs.map (fun c => c.value φ y)).length]? with
          | none => rfl
          | some c =>
            have := hinv.zval c (List.mem_of_getElem? hz) y
            simp [this]
    · intro y hy
      rw [value_pair, pev_rs hN, pev_rs hD]
      exact div_ne_zero (hnum y (fun f hf _ => hy f hf)) (hden y (fun f hf _ => hy f hf))
  · intro y hy
    refine ⟨ratFun φ N D i y 0, div_ne_zero (hnum y (fun f hf _ => hy f hf)) (hden y (fun f hf _ => hy f hf)), ?_⟩
    have h1 := (ratFun_analytic hN hD (hden y (fun f hf _ => hy f hf))).continuousAt.tendsto.mono_left
      (nhdsWithin_le_nhds (s := {0}ᶜ))
    refine h1.congr' ?_
    filter_upwards [hev y, self_mem_nhdsWithin] with s hs hs0
    rw [hs, mul_div_assoc, mul_comm, div_mul_cancel₀ _ (zpow_ne_zero _ hs0)]

end Expansion
end SecDec
