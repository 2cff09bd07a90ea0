import Verif.Proof.SectorCont
import Verif.Spec.Sector
import Verif.Props.SubTotal
import Mathlib.Analysis.Normed.Module.Connected
/-
C46: the coefficients handed to the integrator are the Laurent coefficients of the (analytically continued) integral of
the sector.
-/
set_option linter.unusedSectionVars false
namespace SecDec.SectorExp
open Expr Subtraction Set Filter Topology MeasureTheory Decomp Expansion Sector

variable {N : Nat} {F : Type} [Field F] [DecidableEq F] {φ : F →+* ℂ}

/-- The terms are regular, and their pole factors do not vanish. -/
theorem outs_facts {fuel : ℕ} {val : F → Option ℚ} (hval : ∀ c q, val c = some q → φ c = (q : ℂ))
    (hv0 : val 0 = some 0) {P : PolyProd (N + 1) F} {js : List (Fin N)} {outs : List (PolyProd (N + 1) F)} (hP : WellFormed φ P)
    {W : Set ℂ} (hWo : IsOpen W) (hW0 : W ∈ 𝓝[≠] 0)
    (hS : ∀ z ∈ insert 0 W, Smooth φ (fun _ => z) P)
    (a : Fin N → ℚ) (ha : ∀ i ∈ js, power φ (fun _ => 0) P i = (a i : ℂ))
    (hden : ∀ z ∈ W, ∀ i ∈ js, ∀ p : ℕ, power φ (fun _ => z) P i + p + 1 ≠ 0)
    (hpole : ∀ z ∈ W, poleDenominator φ (fun _ => z) P ≠ 0)
    (hA : ∀ z ∈ insert 0 W, ∀ i, -1 < (power φ (fun _ => z) P i).re + (if i ∈ js ∧ a i < 0 then ⌊-(a i)⌋.toNat else 0 : ℕ))
    (hi : integratePolePart fuel val P (js.map (Fin.castAdd 1)) = .ok outs) :
    (∀ z0 ∈ insert (0 : ℂ) W, ∀ Q ∈ outs, ∃ U m, Reg φ z0 Q U m) ∧
      ∀ Q ∈ outs, ∀ z ∈ W, pev φ (rpt N (ez z)) Q.regBase ≠ 0 := by
  have h0 : insert (0 : ℂ) W ∈ 𝓝 (0 : ℂ) := insert_mem_nhds_iff.2 hW0
  refine ⟨?_, ?_⟩
  · intro z0 hz0
    have hn : insert (0 : ℂ) W ∈ 𝓝 z0 := by
      rcases hz0 with rfl | hz0
      · exact h0
      · exact mem_of_superset (hWo.mem_nhds hz0) (subset_insert _ _)
    refine outs_reg hval hP (mem_of_superset hn fun z hz => hS z hz) a ha (mem_of_superset hn ?_) (hA z0 hz0) hi
    intro z hz i hij p hp
    rcases hz with rfl | hz
    · have := ha i hij
      rw [show power φ (ez 0) P i = (a i : ℂ) from this]
      exact_mod_cast hp
    · exact hden z hz i hij p
  · intro Q hQ z hz
    obtain ⟨S, k, hSk, hSd⟩ := C20_pole_factors hv0 hP hi Q hQ
    rw [← poleDen_eq, hSd]
    refine mul_ne_zero (hpole z hz) (Finset.prod_ne_zero_iff.2 fun j hj => mul_ne_zero (hden z hz j (hSk j hj).1 _) ?_)
    exact_mod_cast Nat.factorial_ne_zero _

/-- C46: the terms returned by the subtraction are the analytic continuation of the integral: the sum of their integrals is an
analytic function of the regulator, which is the integral of the sector where this converges. -/
theorem C46_analytic_continuation {fuel : ℕ} {val : F → Option ℚ} (hval : ∀ c q, val c = some q → φ c = (q : ℂ))
    (hv0 : val 0 = some 0) {P : PolyProd (N + 1) F} {js : List (Fin N)} {outs : List (PolyProd (N + 1) F)} (hP : WellFormed φ P)
    {W : Set ℂ} (hWo : IsOpen W) (hW0 : W ∈ 𝓝[≠] 0)
    (hS : ∀ z ∈ insert 0 W, Smooth φ (fun _ => z) P)
    (a : Fin N → ℚ) (ha : ∀ i ∈ js, power φ (fun _ => 0) P i = (a i : ℂ))
    (hden : ∀ z ∈ W, ∀ i ∈ js, ∀ p : ℕ, power φ (fun _ => z) P i + p + 1 ≠ 0)
    (hpole : ∀ z ∈ W, poleDenominator φ (fun _ => z) P ≠ 0)
    (hA : ∀ z ∈ insert 0 W, ∀ i, -1 < (power φ (fun _ => z) P i).re + (if i ∈ js ∧ a i < 0 then ⌊-(a i)⌋.toNat else 0 : ℕ))
    (hi : integratePolePart fuel val P (js.map (Fin.castAdd 1)) = .ok outs) :
    AnalyticOnNhd ℂ (fun z => (outs.map fun Q => cubeIntegral (value φ (fun _ => z) Q)).sum) W ∧
      ∀ z ∈ W, (∀ i, -1 < (power φ (fun _ => z) P i).re) →
        (outs.map fun Q => cubeIntegral (value φ (fun _ => z) Q)).sum = cubeIntegral (value φ (fun _ => z) P) := by
  obtain ⟨hreg, hdenQ⟩ := outs_facts hval hv0 hP hWo hW0 hS a ha hden hpole hA hi
  refine ⟨?_, fun z hz hc => (C20_pole_part_preserves_integral hP (hS z (mem_insert_of_mem _ hz)) hc hi).2.2⟩
  intro z hz
  simp only [cubeIntegral_oc]
  have : ∀ Qs : List (PolyProd (N + 1) F), (∀ Q ∈ Qs, Q ∈ outs) →
      AnalyticAt ℂ (fun z => (Qs.map fun Q => ∫ t in oc N, value φ (ez z) Q t).sum) z := by
    intro Qs
    induction Qs with
    | nil => intro _; simpa using analyticAt_const
    | cons Q Qs ih =>
      intro hQs
      simp only [List.map_cons, List.sum_cons]
      obtain ⟨U, m, hR⟩ := hreg z (mem_insert_of_mem _ hz) Q (hQs Q (by simp))
      exact (term_analytic hR (hdenQ Q (hQs Q (by simp)) z hz)).add (ih fun Q' hQ' => hQs Q' (by simp [hQ']))
  exact this outs fun _ h => h

/-- C46: one sector with one regulator `z`.  `J` is the analytic continuation of the integral of the sector, to a punctured
neighbourhood of zero, from a value of the regulator for which the integral converges.  The integrand of each order which
is handed to the integrator is integrable, and the integrals are the Laurent coefficients of `J` at zero, from the
lowest to the required order. -/
theorem C46_sector_laurent_coefficients {fuel : ℕ} {val : F → Option ℚ} (hval : ∀ c q, val c = some q → φ c = (q : ℂ))
    (hv0 : val 0 = some 0) {P : PolyProd (N + 1) F} {js : List (Fin N)} {goals : List ℚ} {o : ℤ}
    {Ss : List (Summand (N + 1) F)} {hs : List ℤ} (hP : WellFormed φ P)
    {W : Set ℂ} (hWo : IsOpen W) (hWc : IsPreconnected W) (hW0 : W ∈ 𝓝[≠] 0)
    -- `cal_I` is smooth on the unit cube for these regulators
    (hS : ∀ z ∈ insert 0 W, Smooth φ (fun _ => z) P)
    -- the powers without regulator are rational numbers, not below the goals of the integration by parts
    (a : Fin N → ℚ) (ha : ∀ i ∈ js, power φ (fun _ => 0) P i = (a i : ℂ)) (hg : ∀ g ∈ goals.zip js, g.1 ≤ a g.2)
    -- no further poles for these regulators
    (hden : ∀ z ∈ W, ∀ i ∈ js, ∀ p : ℕ, power φ (fun _ => z) P i + p + 1 ≠ 0)
    (hpole : ∀ z ∈ W, poleDenominator φ (fun _ => z) P ≠ 0)
    -- the subtractions suffice
    (hA : ∀ z ∈ insert 0 W, ∀ i, -1 < (power φ (fun _ => z) P i).re + (if i ∈ js ∧ a i < 0 then ⌊-(a i)⌋.toNat else 0 : ℕ))
    -- the analytic continuation
    {J : ℂ → ℂ} (hJ : AnalyticOnNhd ℂ J W)
    (hJP : ∀ z ∈ W, (∀ i, -1 < (power φ (fun _ => z) P i).re) → J z = cubeIntegral (value φ (fun _ => z) P))
    (hconv : ∃ z ∈ W, ∀ i, -1 < (power φ (fun _ => z) P i).re)
    (h : processSector fuel val goals (js.map (Fin.castAdd 1)) [(Fin.natAdd N 0, o)] P = .ok (Ss, hs)) :
    ∃ p, hs = [p] ∧ -p ≤ o ∧ (∀ k, CubeIntegrable (orderIntegrand φ Ss k)) ∧
      IsExpansion J o ((sectorOrders o p).map (fun k => (k, cubeIntegral (orderIntegrand φ Ss k)))) := by
  obtain ⟨l, outs, h1, h2, h3⟩ := processSector_ok h
  have hl : l = [P] := by
    refine ibp_trivial _ ?_ h1
    intro g hgm q hq
    rw [List.zip_map_right, List.mem_map] at hgm
    obtain ⟨⟨g1, i⟩, hm, rfl⟩ := hgm
    have hi : i ∈ js := (List.of_mem_zip hm).2
    have e1 := hval _ _ hq
    have e2 := ha i hi
    simp only [Prod.map_snd] at e1
    rw [power_eq, pw_zero_point hP.wm, e1] at e2
    have : q = a i := by exact_mod_cast e2
    rw [this]; exact hg _ hm
  subst hl
  have hi := extendAll_single _ _ h2
  obtain ⟨hreg, hdenQ⟩ := outs_facts hval hv0 hP hWo hW0 hS a ha hden hpole hA hi
  have hWne : W.Nonempty := by obtain ⟨z, hz, _⟩ := hconv; exact ⟨z, hz⟩
  obtain ⟨p, rfl, _, p1, p2, p3⟩ := all_exp (φ := φ) outs none Ss hs (fun Q hQ =>
    ⟨hreg 0 (mem_insert _ _) Q hQ, coeffOf_ne_of_pev (hdenQ Q hQ _ hWne.some_mem)⟩) h3 (by simp)
  obtain ⟨hGan, hGc⟩ := C46_analytic_continuation hval hv0 hP hWo hW0 hS a ha hden hpole hA hi
  set G : ℂ → ℂ := fun z => (outs.map fun Q => cubeIntegral (value φ (fun _ => z) Q)).sum with hG
  have hGJ : EqOn G J W := by
    obtain ⟨z1, hz1, hc1⟩ := hconv
    refine hGan.eqOn_of_preconnected_of_eventuallyEq hJ hWc hz1 ?_
    have hopen : ∀ᶠ z in 𝓝 z1, ∀ i, -1 < (power φ (fun _ => z) P i).re := by
      rw [eventually_all]
      intro i
      exact (Complex.continuous_re.comp (power_continuous hP i)).continuousAt.eventually_const_lt (hc1 i)
    filter_upwards [hopen, hWo.mem_nhds hz1] with z hz hzW
    rw [hJP z hzW hz]
    exact hGc z hzW hz
  have hfin := (p2.congr (g := J) (by
    filter_upwards [hW0] with z hz
    rw [← hGJ hz]
    simp only [hG, cubeIntegral_oc]
    congr 1
    refine List.map_congr_left fun Q hQ => ?_
    obtain ⟨U, m, hR⟩ := hreg 0 (mem_insert _ _) Q hQ
    exact (integral_split hR.wf (ez z)).symm)).isExpansion
  refine ⟨p, rfl, p1, fun k => cubeIntegrable_oc.2 (p3 k), ?_⟩
  simp only [cubeIntegral_oc]
  exact hfin

/-! ### Success -/

theorem poleTerm_monos {n : ℕ} {fuel : ℕ} {P Q : PolyProd n F} {j : Fin n} {full : Poly n F} {a : F} {p : ℕ} {pf : F} {d : Expr n F}
    (h : poleTerm fuel P j full a p pf d = .ok Q) : Q.monos.length = P.monos.length := by
  unfold poleTerm at h
  dsimp only at h
  by_cases h1 : a + (p : F) + 1 = 0
  · rw [if_pos h1] at h
    simp only [Except.ok.injEq] at h; subst h; simp
  · rw [if_neg h1] at h
    obtain ⟨l, _, h⟩ := ok_bind h
    simp only [Except.ok.injEq] at h; subst h; simp

theorem poleLoop_monos {n : ℕ} {fuel : ℕ} {P : PolyProd n F} {j : Fin n} {full : Poly n F} {a : F} : ∀ (count p : ℕ) (pf : F) (d : Expr n F)
    (r : List (PolyProd n F) × List (Expr n F)), poleLoop fuel P j full a count p pf d = .ok r →
    ∀ Q ∈ r.1, Q.monos.length = P.monos.length
  | 0, _, _, _, r, h => by simp only [poleLoop, Except.ok.injEq] at h; subst h; simp
  | count + 1, p, pf, d, r, h => by
    simp only [poleLoop] at h
    obtain ⟨d', _, h⟩ := ok_bind h
    obtain ⟨dp, _, h⟩ := ok_bind h
    obtain ⟨t, ht, h⟩ := ok_bind h
    obtain ⟨rest, hr, h⟩ := ok_bind h
    simp only [Except.ok.injEq] at h; subst h
    intro Q hQ
    simp only [List.mem_cons] at hQ
    rcases hQ with rfl | hQ
    · exact poleTerm_monos ht
    · exact poleLoop_monos _ _ _ _ _ hr Q hQ

theorem poleSingle_monos {n : ℕ} {fuel : ℕ} {val : F → Option ℚ} {P : PolyProd n F} {j : Fin n} {l : List (PolyProd n F)}
    (h : poleSingle fuel val P j = .ok l) : ∀ Q ∈ l, Q.monos.length = P.monos.length := by
  simp only [poleSingle] at h
  rcases hv : val (ect j P.monos) with _ | q
  · rw [hv] at h; simp at h
  · rw [hv] at h
    dsimp only at h
    by_cases h1 : q < 0 ∧ noRegulator (fullExponent j P.monos) (ect j P.monos) = true
    · rw [if_pos h1] at h; simp at h
    · rw [if_neg h1] at h
      by_cases h2 : 0 ≤ q
      · rw [if_pos h2] at h
        simp only [Except.ok.injEq] at h; subst h; simp
      · rw [if_neg h2] at h
        obtain ⟨r, hr, h⟩ := ok_bind h
        obtain ⟨s, _, h⟩ := ok_bind h
        simp only [Except.ok.injEq] at h; subst h
        intro Q hQ
        rcases List.mem_append.1 hQ with hQ | hQ
        · exact poleLoop_monos _ _ _ _ _ hr Q hQ
        · simp only [List.mem_singleton] at hQ; subst hQ; rfl

theorem poleLoopIdx_monos {fuel : ℕ} {val : F → Option ℚ} : ∀ (js : List (Fin (N + 1))) (l outs : List (PolyProd (N + 1) F)),
    (∀ Q ∈ l, Q.monos ≠ []) → poleLoopIdx fuel val js l = .ok outs → ∀ Q ∈ outs, Q.monos ≠ []
  | [], l, outs, hl, h => by simp only [poleLoopIdx, Except.ok.injEq] at h; subst h; exact hl
  | j :: js, l, outs, hl, h => by
    simp only [poleLoopIdx] at h
    obtain ⟨l', h1, h⟩ := ok_bind h
    refine poleLoopIdx_monos js l' outs ?_ h
    exact extendAll_all (N := N) (R := 1) (p := fun Q => Q.monos ≠ []) (r := fun Q => Q.monos ≠ []) (fun P outs hP ho Q hQ => by
      have := poleSingle_monos ho Q hQ
      intro h0
      apply hP
      rw [h0] at this
      exact List.length_eq_zero_iff.1 this.symm) l l' hl h1

theorem extendAll_nonempty {n : ℕ} {f : PolyProd n F → Except Subtraction.Err (List (PolyProd n F))} (hf : ∀ P l, f P = .ok l → l ≠ [])
    {l outs : List (PolyProd n F)} (hl : l ≠ []) (h : extendAll f l = .ok outs) : outs ≠ [] := by
  cases l with
  | nil => exact absurd rfl hl
  | cons P l =>
    simp only [extendAll] at h
    obtain ⟨x, h1, h⟩ := ok_bind h
    obtain ⟨y, h2, h⟩ := ok_bind h
    simp only [Except.ok.injEq] at h; subst h
    have := hf P x h1
    simp [this]

theorem poleSingle_nonempty {n : ℕ} {fuel : ℕ} {val : F → Option ℚ} {P : PolyProd n F} {j : Fin n} {l : List (PolyProd n F)}
    (h : poleSingle fuel val P j = .ok l) : l ≠ [] := by
  simp only [poleSingle] at h
  rcases hv : val (ect j P.monos) with _ | q
  · rw [hv] at h; simp at h
  · rw [hv] at h
    dsimp only at h
    by_cases h1 : q < 0 ∧ noRegulator (fullExponent j P.monos) (ect j P.monos) = true
    · rw [if_pos h1] at h; simp at h
    · rw [if_neg h1] at h
      by_cases h2 : 0 ≤ q
      · rw [if_pos h2] at h
        simp only [Except.ok.injEq] at h; subst h; simp
      · rw [if_neg h2] at h
        obtain ⟨r, hr, h⟩ := ok_bind h
        obtain ⟨s, _, h⟩ := ok_bind h
        simp only [Except.ok.injEq] at h; subst h
        simp

theorem poleLoopIdx_nonempty {n : ℕ} {fuel : ℕ} {val : F → Option ℚ} : ∀ (js : List (Fin n)) (l outs : List (PolyProd n F)),
    l ≠ [] → poleLoopIdx fuel val js l = .ok outs → outs ≠ []
  | [], l, outs, hl, h => by simp only [poleLoopIdx, Except.ok.injEq] at h; subst h; exact hl
  | j :: js, l, outs, hl, h => by
    simp only [poleLoopIdx] at h
    obtain ⟨l', h1, h⟩ := ok_bind h
    exact poleLoopIdx_nonempty js l' outs (extendAll_nonempty (fun _ _ h => poleSingle_nonempty h) hl h1) h

theorem regularPart_complete {Q : PolyProd (N + 1) F} (hm : Q.monos ≠ []) (hc : CompleteIntegrand Q) : Complete (regularPart Q) := by
  refine .prod _ (by simp) ?_
  intro e he
  simp only [List.mem_cons] at he
  rcases he with rfl | he
  · refine .prod _ (by simpa using hm) ?_
    intro e he
    obtain ⟨m, _, rfl⟩ := List.mem_map.1 he
    refine .epoly _ _ (by simpa using .num _) (.poly _ ?_)
    intro t ht
    obtain ⟨u, _, rfl⟩ := List.mem_map.1 ht
    exact .num _
  · exact hc.2.1 e he

theorem singular_ok {Q : PolyProd (N + 1) F} (φ : F →+* ℂ) (hb : RegulatorPoly Q.regBase) (hne : ∃ e, Q.regBase.coeffOf e ≠ 0) (o : ℤ) :
    ∃ sing lo, singularExpansion [(ri N, o)] Q = .ok sing ∧ (sing.map fun a => a.1 (ri N)).min? = some lo ∧ lo ≤ o := by
  have hV : (polePart Q).Valid := by
    refine ⟨fun f hf => ?_, fun f hf _ => ?_⟩
    · rw [polePart_factor hf]; exact hb.simplify.nonneg
    · rw [polePart_factor hf]
      obtain ⟨e, he⟩ := hne
      exact ⟨e, by rwa [Poly.coeffOf_simplify]⟩
  obtain ⟨k, h1, h2, _⟩ := singStep_spec (φ := φ) (polePart Q) hV (ri N) o
  by_cases ho : o < k
  · refine ⟨[(orderExpo [(ri N, o)], ⟨[(false, ⟨[((fun _ => 0), 0)]⟩)]⟩)], o, ?_, ?_, le_rfl⟩
    · unfold singularExpansion expandSingular expandAndFlatten
      simp only [recursiveExpansion, (h1 ho).1, Bind.bind, Except.bind]
    · simp [orderExpo]
  · obtain ⟨p, c0, cs, h3, h4, _⟩ := h2 (by omega)
    refine ⟨p.terms, k, ?_, ?_, by omega⟩
    · unfold singularExpansion expandSingular expandAndFlatten
      simp only [recursiveExpansion, h3, Bind.bind, Except.bind, List.length_singleton, if_true, termsOf, List.filterMap_map]
      congr 1
      rw [← List.filterMap_some (l := p.terms)]
      simp
    · rw [h4, List.min?_eq_some_iff]
      simp only [List.map_map, List.mem_map, Function.comp_def, Function.update_self, Prod.exists]
      refine ⟨⟨c0, 0, by simp, by simp⟩, ?_⟩
      rintro b ⟨c, i, _, rfl⟩
      omega

theorem expandTerm_succeeds {Q : PolyProd (N + 1) F} (φ : F →+* ℂ) (hb : RegulatorPoly Q.regBase) (hne : ∃ e, Q.regBase.coeffOf e ≠ 0)
    (hm : Q.monos ≠ []) (hc : CompleteIntegrand Q) (o : ℤ) :
    ∃ r, ∃ K, ∀ fuel, K ≤ fuel → expandTerm fuel [(ri N, o)] Q = .ok r := by
  obtain ⟨sing, lo, h1, h2, h3⟩ := singular_ok φ hb hne o
  obtain ⟨p, _, K, h4⟩ := C37_taylor_succeeds (regularPart Q) (regularPart_complete hm hc) [(ri N, o - lo)] (by simp) (by simpa using h3)
  refine ⟨(⟨sing, termsOf p⟩, [-lo]), K, fun fuel hf => ?_⟩
  have h5 : highestPole sing (ri N) = .ok (-lo) := by simp [highestPole, h2]
  have h6 : regularExpansion fuel [(ri N, o + -lo)] Q = .ok (termsOf p) := by
    rw [← sub_eq_add_neg]
    unfold regularExpansion
    rw [show expandTaylor fuel (regularPart Q) [(ri N, o - lo)] = .ok p from h4 fuel hf]
  simp only [expandTerm, h1, Bind.bind, Except.bind, List.mapM_cons, List.mapM_nil, h5, pure, Except.pure, List.zipWith_cons_cons,
    List.zipWith_nil_left, h6]

theorem expandAll_succeeds (φ : F →+* ℂ) (o : ℤ) : ∀ (Qs : List (PolyProd (N + 1) F)) (h0 : Option (List ℤ)), (Qs = [] → h0 ≠ none) →
    (∀ Q ∈ Qs, RegulatorPoly (N := N) (R := 1) Q.regBase ∧ (∃ e, Q.regBase.coeffOf e ≠ 0) ∧ Q.monos ≠ [] ∧ CompleteIntegrand Q) →
    ∃ r, ∃ K, ∀ fuel, K ≤ fuel → expandAll fuel [(ri N, o)] Qs h0 = .ok r
  | [], none, h, _ => absurd rfl (h rfl)
  | [], some h, _, _ => ⟨([], h), 0, fun _ _ => rfl⟩
  | Q :: Qs, h0, _, hQ => by
    obtain ⟨a1, a2, a3, a4⟩ := hQ Q (by simp)
    obtain ⟨r, K, hr⟩ := expandTerm_succeeds φ a1 a2 a3 a4 o
    obtain ⟨s, L, hs⟩ := expandAll_succeeds φ o Qs (some (match h0 with
      | none => r.2
      | some h => List.zipWith max h r.2)) (by simp) (fun Q' h' => hQ Q' (by simp [h']))
    refine ⟨(r.1 :: s.1, s.2), max K L, fun fuel hf => ?_⟩
    have e1 := hr fuel (by omega)
    have e2 := hs fuel (by omega)
    simp only [expandAll, e1, Bind.bind, Except.bind]
    cases h0 <;> (dsimp only at e2 ⊢; rw [e2])

theorem ibp_succeeds {fuel : ℕ} (hf : 1 ≤ fuel) {val : F → Option ℚ} {P : PolyProd (N + 1) F} : ∀ (gs : List (ℚ × Fin (N + 1))),
    (∀ g ∈ gs, ∃ q, val (ect g.2 P.monos) = some q ∧ g.1 ≤ q ∧ ¬ (q < 0 ∧ noRegulator (fullExponent g.2 P.monos) (ect g.2 P.monos) = true)) →
    ibpLoopIdx fuel val gs [P] = .ok [P]
  | [], _ => rfl
  | g :: gs, h => by
    obtain ⟨q, h1, h2, h3⟩ := h g (by simp)
    obtain ⟨k, rfl⟩ : ∃ k, fuel = k + 1 := ⟨fuel - 1, by omega⟩
    have e : ibpSingle (k + 1) val g.1 g.2 (k + 1) P = .ok [P] := by
      simp only [ibpSingle, h1]
      rw [if_neg h3, if_pos h2]
    simp only [ibpLoopIdx, extendAll, e, Bind.bind, Except.bind, List.append_nil]
    exact ibp_succeeds hf gs fun g' hg' => h g' (by simp [hg'])

/-- C46: the sector is processed without exception, for every required order, if the powers without regulator are
numbers, not below the goals, and each negative one is regulated. -/
theorem C46_sector_succeeds {val : F → Option ℚ} (hv0 : val 0 = some 0) {P : PolyProd (N + 1) F} (hP : WellFormed φ P)
    (hc : CompleteIntegrand P) (hm : P.monos ≠ []) {js : List (Fin N)} {goals : List ℚ} (o : ℤ) (a : Fin N → ℚ)
    (ha : ∀ i ∈ js, val (powerCoeff P i (fun _ => 0)) = some (a i)) (hg : ∀ g ∈ goals.zip js, g.1 ≤ a g.2)
    (hreg : ∀ i ∈ js, a i < 0 → ¬ Unregulated P i)
    (hpole : ∃ z : ℂ, poleDenominator φ (fun _ => z) P ≠ 0 ∧ ∀ i ∈ js, ∀ p : ℕ, power φ (fun _ => z) P i + p + 1 ≠ 0) :
    ∃ r, ∃ K, ∀ fuel, K ≤ fuel → processSector fuel val goals (js.map (Fin.castAdd 1)) [(Fin.natAdd N 0, o)] P = .ok r := by
  obtain ⟨outs, _, K, hK⟩ := C37_pole_part_succeeds val hv0 P hP hc js (fun j hj => ⟨a j, ha j hj, fun h => hreg j hj h.1 h.2⟩)
  have hK0 := hK K le_rfl
  beta_reduce at hK0
  obtain ⟨r', ⟨_, K', hK'⟩, hcc⟩ := C37_pole_part_terminates val P hc (js.map (Fin.castAdd 1))
  have hr' : r' = .ok outs := (hK' (max K K') (le_max_right _ _)).symm.trans (hK (max K K') (le_max_left _ _))
  have hCI := hcc outs hr'
  obtain ⟨z, hz1, hz2⟩ := hpole
  have hall : ∀ Q ∈ outs, RegulatorPoly (N := N) (R := 1) Q.regBase ∧ (∃ e, Q.regBase.coeffOf e ≠ 0) ∧ Q.monos ≠ [] ∧ CompleteIntegrand Q := by
    intro Q hQ
    have h0 : Form φ P ∅ (fun _ => 0) P := ⟨hP.wm, hP.base, rfl, fun i => Or.inr ⟨by simp, rfl⟩, by simp, by simp⟩
    obtain ⟨S, k, hS, hF⟩ := poleLoopIdx_form hv0 js ∅ [P] outs (by
      intro Q hQ; simp at hQ; subst hQ; exact ⟨∅, _, by simp, h0⟩) hK0 Q hQ
    refine ⟨hF.base, coeffOf_ne_of_pev (φ := φ) (x := rpt N (ez z)) ?_, poleLoopIdx_monos _ [P] outs (by simpa using hm) hK0 Q hQ, hCI Q hQ⟩
    rw [hF.den]
    refine mul_ne_zero (by rw [← poleDen_eq]; exact hz1) (Finset.prod_ne_zero_iff.2 fun j hj => mul_ne_zero ?_ ?_)
    · rw [← power_eq]
      exact hz2 j (by simpa using hS hj) _
    · exact_mod_cast Nat.factorial_ne_zero _
  have hne : outs ≠ [] := by
    rintro rfl
    have := (poleLoopIdx_nonempty _ [P] [] (by simp) hK0)
    exact this rfl
  obtain ⟨r, L, hL⟩ := expandAll_succeeds φ o outs none (fun h => absurd h hne) hall
  refine ⟨r, max 1 (max K L), fun fuel hf => ?_⟩
  have e1 : integrateByParts fuel val P goals (js.map (Fin.castAdd 1)) = .ok [P] := by
    refine ibp_succeeds (by omega) _ ?_
    intro g hgm
    rw [List.zip_map_right, List.mem_map] at hgm
    obtain ⟨⟨g1, i⟩, hmm, rfl⟩ := hgm
    have hi : i ∈ js := (List.of_mem_zip hmm).2
    refine ⟨a i, ?_, hg _ hmm, ?_⟩
    · simp only [Prod.map_snd]; rw [ect_eq_powerCoeff]; exact ha i hi
    · rintro ⟨h1, h2⟩
      exact hreg i hi h1 ((noRegulator_iff i P).1 h2)
  have e2 := hK fuel (by omega)
  have e3 := hL fuel (by omega)
  beta_reduce at e2
  simp only [processSector, e1, liftSub, Bind.bind, Except.bind, extendAll, e2, List.append_nil]
  exact e3

/-! ### A concrete case: `x ** (-1 + eps) * exp(x)` -/

/-- The punctured unit disc. -/
def disc : Set ℂ := Complex.exp '' {w | w.re < 0}

theorem mem_disc {z : ℂ} : z ∈ disc ↔ z ≠ 0 ∧ ‖z‖ < 1 := by
  constructor
  · rintro ⟨w, hw, rfl⟩
    refine ⟨Complex.exp_ne_zero _, ?_⟩
    rw [Complex.norm_exp]
    exact (Real.exp_lt_exp.2 hw).trans_eq Real.exp_zero
  · rintro ⟨h1, h2⟩
    refine ⟨Complex.log z, ?_, Complex.exp_log h1⟩
    show (Complex.log z).re < 0
    rw [Complex.log_re]
    exact Real.log_neg (norm_pos_iff.2 h1) h2

theorem disc_preconnected : IsPreconnected disc :=
  ((convex_halfSpace_lt (𝕜 := ℝ) (f := Complex.re) ⟨by simp, by simp⟩ 0).isPreconnected).image _ Complex.continuous_exp.continuousOn

theorem disc_eq : disc = {0}ᶜ ∩ Metric.ball 0 1 := by
  ext z; rw [mem_disc]; simp

theorem disc_open : IsOpen disc := by
  rw [disc_eq]; exact isOpen_compl_singleton.inter Metric.isOpen_ball

theorem disc_nhds : disc ∈ 𝓝[≠] (0 : ℂ) := by
  rw [disc_eq]
  exact inter_mem self_mem_nhdsWithin (nhdsWithin_le_nhds (Metric.ball_mem_nhds 0 one_pos))

theorem sample_smooth (ε : Fin 1 → ℂ) : Smooth (Rat.castHom ℂ) (N := 1) ε Subtraction.sample := by
  refine ⟨univ, isOpen_univ, fun _ _ => trivial, ?_⟩
  intro e he; simp [Subtraction.sample] at he; subst he
  refine Adm.exp _ (Adm.poly _ ?_ ?_ ?_) <;> intro t ht <;> simp at ht <;> subst ht
  · intro x _ i _; fin_cases i <;> simp
  · exact Adm.num _
  · exact ⟨1, rfl⟩

theorem sample_complete : CompleteIntegrand Subtraction.sample := by
  refine ⟨by simp [Subtraction.sample], ?_, .poly _ (by simpa using .num _)⟩
  intro e he; simp [Subtraction.sample] at he; subst he
  exact .exp _ (.poly _ (by simpa using .num _))

theorem sample_pole (ε : Fin 1 → ℂ) : poleDenominator (Rat.castHom ℂ) (N := 1) ε Subtraction.sample = 1 := by
  simp [poleDenominator, Subtraction.sample, eval_poly, eval_num, Poly.mono, Fin.prod_univ_two]

theorem sample_den (z : ℂ) (hz : z ∈ disc) (i : Fin 1) (p : ℕ) : power (Rat.castHom ℂ) (N := 1) (fun _ => z) Subtraction.sample i + p + 1 ≠ 0 := by
  obtain ⟨h1, h2⟩ := mem_disc.1 hz
  rw [Subsingleton.elim i 0, sample_power]
  intro h
  have h3 : z = -(p : ℂ) := by linear_combination h
  rw [h3, norm_neg, Complex.norm_natCast] at h2
  have h4 : p = 0 := by
    have : p < 1 := by exact_mod_cast h2
    omega
  rw [h4] at h3
  exact h1 (by simpa using h3)

theorem sample_re (z : ℂ) (hz : z ∈ insert 0 disc) : -1 < z.re := by
  rcases hz with rfl | hz
  · simp
  · have := (Complex.abs_re_le_norm z).trans_lt (mem_disc.1 hz).2
    exact (abs_lt.1 this).1

/-- The hypotheses of the two theorems are met: the orders `eps^-1` ... `eps^o` of `x ** (-1 + eps) * exp(x)`. -/
example (o : ℤ) : ∃ (fuel : ℕ) (Ss : List (Summand (1 + 1) ℚ)) (p : ℤ) (J : ℂ → ℂ),
    processSector fuel some [-1] [0] [(1, o)] Subtraction.sample = .ok (Ss, [p]) ∧ AnalyticOnNhd ℂ J disc ∧
    (∀ z ∈ disc, 0 < z.re → J z = cubeIntegral (value (Rat.castHom ℂ) (N := 1) (fun _ => z) Subtraction.sample)) ∧
    IsExpansion J o ((sectorOrders o p).map (fun k => (k, cubeIntegral (orderIntegrand (N := 1) (Rat.castHom ℂ) Ss k)))) := by
  have hval : ∀ (c q : ℚ), some c = some q → Rat.castHom ℂ c = (q : ℂ) := by
    intro c q h; simp only [Option.some.injEq] at h; subst h; simp
  have ha : ∀ i ∈ [(0 : Fin 1)], power (Rat.castHom ℂ) (N := 1) (fun _ : Fin 1 => (0 : ℂ)) Subtraction.sample i = (((fun _ => -1 : Fin 1 → ℚ) i : ℚ) : ℂ) := by
    intro i hi; simp only [List.mem_singleton] at hi; subst hi; rw [sample_power]; simp
  have hg : ∀ g ∈ [(-1 : ℚ)].zip [(0 : Fin 1)], g.1 ≤ (fun _ => -1 : Fin 1 → ℚ) g.2 := by simp
  have hfl : ⌊-(-1 : ℚ)⌋.toNat = 1 := by simp
  have hA : ∀ z ∈ insert (0 : ℂ) disc, ∀ i, -1 < (power (Rat.castHom ℂ) (N := 1) (fun _ => z) Subtraction.sample i).re +
      (if i ∈ [(0 : Fin 1)] ∧ (fun _ => -1 : Fin 1 → ℚ) i < 0 then ⌊-((fun _ => -1 : Fin 1 → ℚ) i)⌋.toNat else 0 : ℕ) := by
    intro z hz i
    rw [Subsingleton.elim i 0, sample_power, if_pos (by norm_num), hfl]
    simpa using sample_re z hz
  have hconv : ∀ z : ℂ, (∀ i, -1 < (power (Rat.castHom ℂ) (N := 1) (fun _ => z) Subtraction.sample i).re) ↔ 0 < z.re := by
    intro z
    constructor
    · intro h
      have := h 0
      rw [sample_power] at this
      simpa using this
    · intro h i
      rw [Subsingleton.elim i 0, sample_power]
      simpa using h
  have hhalf : (1 / 2 : ℂ) ∈ disc := mem_disc.2 ⟨by norm_num, by norm_num⟩
  obtain ⟨⟨Ss, hs⟩, K, hK⟩ := C46_sector_succeeds (φ := Rat.castHom ℂ) (N := 1) (val := some) rfl sample_wf sample_complete
    (by simp [Subtraction.sample]) (js := [0]) (goals := [-1]) o (fun _ => -1) (by
      intro i hi; simp only [List.mem_singleton] at hi; subst hi; decide +kernel) hg
    (by intro i hi _; simp only [List.mem_singleton] at hi; subst hi; exact sample_regulated)
    ⟨1 / 2, by rw [sample_pole]; exact one_ne_zero, fun i _ p => sample_den _ hhalf i p⟩
  have hok := hK K le_rfl
  obtain ⟨l, outs, h1, h2, _⟩ := processSector_ok hok
  obtain ⟨outs', hst⟩ := C37_pole_part_succeeds (φ := Rat.castHom ℂ) (N := 1) (R := 1) some rfl Subtraction.sample sample_wf sample_complete [0] (by
      intro i hi; simp only [List.mem_singleton] at hi; subst hi
      exact ⟨-1, by decide +kernel, fun h => sample_regulated h.2⟩)
  obtain ⟨_, K', hK'⟩ := hst
  obtain ⟨c1, c2⟩ := C46_analytic_continuation hval rfl sample_wf disc_open disc_nhds (fun z _ => sample_smooth _) (fun _ => -1) ha
    (fun z hz i _ p => sample_den z hz i p) (fun z _ => by rw [sample_pole]; exact one_ne_zero) hA (hK' K' le_rfl)
  obtain ⟨p, rfl, _, _, p4⟩ := C46_sector_laurent_coefficients hval rfl sample_wf disc_open disc_preconnected disc_nhds
    (fun z _ => sample_smooth _) (fun _ => -1) ha hg (fun z hz i _ p => sample_den z hz i p)
    (fun z _ => by rw [sample_pole]; exact one_ne_zero) hA c1 c2 ⟨1 / 2, hhalf, (hconv _).2 (by norm_num)⟩ hok
  exact ⟨K, Ss, p, _, hok, c1, fun z hz hr => c2 z hz ((hconv z).2 hr), p4⟩

end SecDec.SectorExp
