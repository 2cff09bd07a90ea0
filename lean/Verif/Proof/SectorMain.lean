import Verif.Proof.SectorExpand
import Verif.Props.Subtraction
/-
The sum of the terms of a sector, and its analytic continuation.
-/
set_option linter.unusedSectionVars false
namespace SecDec.SectorExp
open Expr Subtraction Set Filter Topology MeasureTheory Decomp Expansion Sector

variable {N : Nat} {F : Type} [Field F] [DecidableEq F] {φ : F →+* ℂ}

/-- The exponent of the order `k`. -/
abbrev ek (N : ℕ) (k : ℤ) : Expo (N + 1) := Function.update (fun _ => 0) (ri N) k

theorem ek_add (j k : ℤ) : ek N j + ek N k = ek N (j + k) := by
  funext i
  by_cases h : i = ri N
  · subst h; simp
  · simp [Function.update_of_ne h]

theorem ek_inj {j k : ℤ} : ek N j = ek N k ↔ j = k := by
  constructor
  · intro h
    have := congrFun h (ri N)
    simpa using this
  · rintro rfl; rfl

theorem coefficient_single {S : Summand (N + 1) F} {J : Finset ℤ} (hs : ∀ a ∈ S.singular, a.1 = ek N (a.1 (ri N)) ∧ a.1 (ri N) ∈ J)
    (hr : ∀ b ∈ S.regular, b.1 = ek N (b.1 (ri N))) (k : ℤ) (x : Fin (N + 1) → ℂ) :
    coefficient φ [S] (ek N k) x = ∑ j ∈ J, (S.singular.map fun a => if a.1 (ri N) = j then a.2.value φ x else 0).sum *
      (S.regular.map fun b => if b.1 (ri N) = k - j then eval φ x b.2 else 0).sum := by
  have h := conv_list (S.singular.map fun a => (a.1 (ri N), a.2.value φ x)) (S.regular.map fun b => (b.1 (ri N), eval φ x b.2)) J
    (by intro a ha; obtain ⟨u, hu, rfl⟩ := List.mem_map.1 ha; exact (hs u hu).2) k
  simp only [List.map_map, Function.comp_def] at h
  rw [← h]
  simp only [coefficient, List.map_cons, List.map_nil, List.sum_cons, List.sum_nil, add_zero]
  congr 1
  refine List.map_congr_left fun a ha => ?_
  congr 1
  refine List.map_congr_left fun b hb => ?_
  have e1 : a.1 + b.1 = ek N k ↔ a.1 (ri N) + b.1 (ri N) = k := by
    rw [(hs a ha).1, hr b hb, ek_add, ek_inj]; simp
  by_cases hk : a.1 (ri N) + b.1 (ri N) = k
  · rw [if_pos (e1.2 hk), if_pos hk]
  · rw [if_neg (fun h => hk (e1.1 h)), if_neg hk]

theorem expandTerm_ok {Q : PolyProd (N + 1) F} {fuel : ℕ} {o : ℤ} {S : Summand (N + 1) F} {hp : List ℤ}
    (h : expandTerm fuel [(ri N, o)] Q = .ok (S, hp)) : ∃ lo, singularExpansion [(ri N, o)] Q = .ok S.singular ∧
      (S.singular.map fun a => a.1 (ri N)).min? = some lo ∧ hp = [-lo] ∧
      regularExpansion fuel [(ri N, o - lo)] Q = .ok S.regular := by
  unfold expandTerm at h
  rcases hs : singularExpansion [(ri N, o)] Q with e | sing
  · rw [hs] at h; simp [Bind.bind, Except.bind] at h
  · rw [hs] at h
    rcases hm : (sing.map fun a => a.1 (ri N)).min? with _ | lo
    · simp [Bind.bind, Except.bind, highestPole, hm, List.mapM_cons] at h
    · simp only [Bind.bind, Except.bind, highestPole, hm, List.mapM_cons, List.mapM_nil, pure, Except.pure] at h
      rcases hr : regularExpansion fuel [(ri N, o - lo)] Q with e | reg
      · simp only [List.zipWith_cons_cons, List.zipWith_nil_left] at h
        rw [← sub_eq_add_neg, hr] at h
        simp at h
      · simp only [List.zipWith_cons_cons, List.zipWith_nil_left] at h
        rw [← sub_eq_add_neg, hr] at h
        simp only [Except.ok.injEq, Prod.mk.injEq] at h
        obtain ⟨rfl, rfl⟩ := h
        exact ⟨lo, rfl, hm, rfl, hr⟩

theorem term_exp {Q : PolyProd (N + 1) F} {U : Set (Fin (N + 1) → ℂ)} {m : Fin N → ℕ} (hR : Reg φ 0 Q U m)
    (hne : ∃ e, Q.regBase.coeffOf e ≠ 0) {fuel : ℕ} {o : ℤ} {S : Summand (N + 1) F} {hp : List ℤ}
    (h : expandTerm fuel [(ri N, o)] Q = .ok (S, hp)) :
    ∃ p, hp = [p] ∧ -p ≤ o ∧
      Exp (fun s => (pev φ (rpt N (ez s)) Q.regBase)⁻¹ * ∫ t in oc N, valueWithoutPoles φ (ez s) Q t) o (-p)
        (fun k => ∫ t in oc N, coefficient φ [S] (ek N k) (point (ez 0) t)) ∧
      ∀ k, IntegrableOn (fun t => coefficient φ [S] (ek N k) (point (ez 0) t)) (oc N) := by
  obtain ⟨lo, h1, h2, h3, h4⟩ := expandTerm_ok h
  obtain ⟨s1, s2, s3⟩ := singular_exp hR.wf hne h1 h2
  obtain ⟨hq, es, r1, r2⟩ := regular_list hR.wf hR.on h4
  obtain ⟨g1, g2⟩ := reg_integral hR
  set c : (Fin N → ℝ) → ℤ → ℂ := fun t k =>
    (S.singular.map fun a => if a.1 (ri N) = k then a.2.value φ (point (ez 0) t) else 0).sum with hc
  set D : ℤ → (Fin N → ℝ) → ℂ := fun l t => if 0 ≤ l ∧ l ≤ o - lo then
    iteratedDeriv l.toNat (fun z => valueWithoutPoles φ (ez z) Q t) 0 / (l.toNat.factorial : ℂ) else 0 with hD
  have hDi : ∀ l, IntegrableOn (D l) (oc N) := by
    intro l
    simp only [hD]
    by_cases hl : 0 ≤ l ∧ l ≤ o - lo
    · simp only [if_pos hl]
      exact (g2 l.toNat).1.div_const _
    · simp only [if_neg hl]
      exact integrableOn_zero
  have hcoef : ∀ k, ∀ t ∈ oc N, coefficient φ [S] (ek N k) (point (ez 0) t) = ∑ j ∈ Finset.Icc lo o, c 0 j * D (k - j) t := by
    intro k t ht
    rw [coefficient_single (J := Finset.Icc lo o) (fun a ha => ⟨(s2 a ha).1, Finset.mem_Icc.2 (s2 a ha).2⟩) (by
      intro b hb
      rw [r1] at hb
      obtain ⟨u, _, rfl⟩ := List.mem_map.1 hb
      simp) k]
    refine Finset.sum_congr rfl fun j hj => ?_
    rw [regular_coeff hq r1 (r2 t ht) (k - j)]
    congr 1
    exact (s3 t).unique (s3 0) j (Finset.mem_Icc.1 hj).2
  have hint : ∀ k, IntegrableOn (fun t => coefficient φ [S] (ek N k) (point (ez 0) t)) (oc N) := by
    intro k
    refine IntegrableOn.congr_fun ?_ (fun t ht => (hcoef k t ht).symm) measurableSet_oc
    exact integrable_finsetSum _ fun j _ => (hDi (k - j)).const_mul (c 0 j)
  refine ⟨-lo, h3, by omega, ?_, hint⟩
  rw [neg_neg]
  have hT : Exp (fun s => ∫ t in oc N, valueWithoutPoles φ (ez s) Q t) (o - lo) 0 (fun l => ∫ t in oc N, D l t) := by
    have := exp_taylor g1 (o - lo).toNat (fun l => ∫ t in oc N, D l t) (by
      intro k hk
      simp only [hD]
      have hk' : 0 ≤ (k : ℤ) ∧ (k : ℤ) ≤ o - lo := by omega
      simp only [if_pos hk', Int.toNat_natCast]
      rw [integral_div, (g2 k).2]) (by
      intro k hk
      simp only [hD]
      have hk' : ¬ (0 ≤ k ∧ k ≤ o - lo) := by omega
      simp only [if_neg hk', integral_zero])
    rwa [Int.toNat_of_nonneg hq] at this
  have hM := (s3 0).mul hT s1
  have hval : ∀ k, ∫ t in oc N, coefficient φ [S] (ek N k) (point (ez 0) t) =
      ∑ j ∈ Finset.Icc lo o, c 0 j * ∫ t in oc N, D (k - j) t := by
    intro k
    rw [setIntegral_congr_fun measurableSet_oc (hcoef k), integral_finsetSum _ fun j _ => (hDi (k - j)).const_mul (c 0 j)]
    refine Finset.sum_congr rfl fun j _ => ?_
    rw [integral_const_mul]
  simp only [hval]
  exact hM

theorem coefficient_cons (S : Summand (N + 1) F) (l : List (Summand (N + 1) F)) (e : Expo (N + 1)) (x : Fin (N + 1) → ℂ) :
    coefficient φ (S :: l) e x = coefficient φ [S] e x + coefficient φ l e x := by
  simp [coefficient]

theorem expandAll_cons {fuel : ℕ} {o : ℤ} {Q : PolyProd (N + 1) F} {Qs : List (PolyProd (N + 1) F)} {h0 : Option (List ℤ)}
    {Ss : List (Summand (N + 1) F)} {hs : List ℤ} (h : expandAll fuel [(ri N, o)] (Q :: Qs) h0 = .ok (Ss, hs)) :
    ∃ S hp Ss', expandTerm fuel [(ri N, o)] Q = .ok (S, hp) ∧ Ss = S :: Ss' ∧
      expandAll fuel [(ri N, o)] Qs (some (match h0 with
        | none => hp
        | some h => List.zipWith max h hp)) = .ok (Ss', hs) := by
  simp only [expandAll] at h
  obtain ⟨⟨S, hp⟩, h1, h⟩ := ok_bind h
  obtain ⟨⟨Ss', hs'⟩, h2, h⟩ := ok_bind h
  simp only [Except.ok.injEq, Prod.mk.injEq] at h
  obtain ⟨rfl, rfl⟩ := h
  refine ⟨S, hp, Ss', h1, rfl, ?_⟩
  cases h0 <;> exact h2

theorem all_exp {fuel : ℕ} {o : ℤ} : ∀ (Qs : List (PolyProd (N + 1) F)) (h0 : Option ℤ) (Ss : List (Summand (N + 1) F)) (hs : List ℤ),
    (∀ Q ∈ Qs, (∃ U m, Reg φ 0 Q U m) ∧ ∃ e, Q.regBase.coeffOf e ≠ 0) →
    expandAll fuel [(ri N, o)] Qs (h0.map fun p => [p]) = .ok (Ss, hs) → (∀ p, h0 = some p → -p ≤ o) →
    ∃ p, hs = [p] ∧ (∀ q, h0 = some q → q ≤ p) ∧ -p ≤ o ∧
      Exp (fun s => (Qs.map fun Q => (pev φ (rpt N (ez s)) Q.regBase)⁻¹ * ∫ t in oc N, valueWithoutPoles φ (ez s) Q t).sum) o (-p)
        (fun k => ∫ t in oc N, coefficient φ Ss (ek N k) (point (ez 0) t)) ∧
      ∀ k, IntegrableOn (fun t => coefficient φ Ss (ek N k) (point (ez 0) t)) (oc N) := by
  intro Qs
  induction Qs with
  | nil =>
    intro h0 Ss hs _ h hp
    cases h0 with
    | none => simp [expandAll] at h
    | some p =>
      simp only [Option.map_some, expandAll, Except.ok.injEq, Prod.mk.injEq] at h
      obtain ⟨rfl, rfl⟩ := h
      refine ⟨p, rfl, fun q hq => by simp at hq; omega, hp p rfl, ?_, fun k => ?_⟩
      · simpa [coefficient] using Exp.zero o (-p)
      · simpa [coefficient] using (integrableOn_zero (s := oc N) (μ := volume) (ε' := ℂ))
  | cons Q Qs ih =>
    intro h0 Ss hs hQ h hp
    obtain ⟨S, hp1, Ss', h1, rfl, h2⟩ := expandAll_cons h
    obtain ⟨⟨U, m, hR⟩, hne⟩ := hQ Q (by simp)
    obtain ⟨p, rfl, hpo, hE, hI⟩ := term_exp hR hne h1
    have key : ∀ p' : ℤ, p ≤ p' → -p' ≤ o → (∀ q, h0 = some q → q ≤ p') →
        expandAll fuel [(ri N, o)] Qs (some [p']) = .ok (Ss', hs) →
        ∃ p, hs = [p] ∧ (∀ q, h0 = some q → q ≤ p) ∧ -p ≤ o ∧
        Exp (fun s => ((Q :: Qs).map fun Q => (pev φ (rpt N (ez s)) Q.regBase)⁻¹ * ∫ t in oc N, valueWithoutPoles φ (ez s) Q t).sum) o (-p)
          (fun k => ∫ t in oc N, coefficient φ (S :: Ss') (ek N k) (point (ez 0) t)) ∧
        ∀ k, IntegrableOn (fun t => coefficient φ (S :: Ss') (ek N k) (point (ez 0) t)) (oc N) := by
      intro p' hpp hpo' hq' h2
      obtain ⟨r, rfl, r1, r2, r3, r4⟩ := ih (some p') Ss' hs (fun Q hQ' => hQ Q (by simp [hQ'])) h2
        (fun q hq => by simp at hq; omega)
      have hr := r1 p' rfl
      refine ⟨r, rfl, fun q hq => (hq' q hq).trans hr, r2, ?_, fun k => ?_⟩
      · have h3 := (hE.mono_lo (show -r ≤ -p by omega)).add r3
        have h4 : ∀ k, ∫ t in oc N, coefficient φ (S :: Ss') (ek N k) (point (ez 0) t) =
            (∫ t in oc N, coefficient φ [S] (ek N k) (point (ez 0) t)) + ∫ t in oc N, coefficient φ Ss' (ek N k) (point (ez 0) t) := by
          intro k
          rw [← integral_add (hI k) (r4 k)]
          simp only [← coefficient_cons]
        simp only [h4, List.map_cons, List.sum_cons]
        exact h3
      · simp only [coefficient_cons (φ := φ) S Ss']
        exact (hI k).add (r4 k)
    cases h0 with
    | none => exact key p le_rfl hpo (by simp) h2
    | some q =>
      simp only [Option.map_some, List.zipWith_cons_cons, List.zipWith_nil_left] at h2
      exact key (max q p) (le_max_right _ _) (by have := le_max_right q p; omega) (fun q' hq' => by
        simp only [Option.some.injEq] at hq'; subst hq'; exact le_max_left _ _) h2

theorem value_split {Q : PolyProd (N + 1) F} (hW : WellFormed φ Q) {ε : Fin 1 → ℂ} {t : Fin N → ℝ} (ht : ∀ i, 0 < t i) :
    value φ ε Q t = (pev φ (rpt N ε) Q.regBase)⁻¹ * valueWithoutPoles φ ε Q t := by
  rw [value_eq hW ht, vwp_eq hW ht, cst]; ring

theorem integral_split {Q : PolyProd (N + 1) F} (hW : WellFormed φ Q) (ε : Fin 1 → ℂ) :
    ∫ t in oc N, value φ ε Q t = (pev φ (rpt N ε) Q.regBase)⁻¹ * ∫ t in oc N, valueWithoutPoles φ ε Q t := by
  rw [← integral_const_mul]
  exact setIntegral_congr_fun measurableSet_oc fun t ht => value_split hW fun i => (mem_oc.1 ht i).1

end SecDec.SectorExp
