import Verif.Proof.SectorMain
import Mathlib.Analysis.Analytic.Uniqueness
import Mathlib.Analysis.Complex.CauchyIntegral
/-
The terms of the subtraction are finite near every admissible value of the regulator; identity with the analytic
continuation of the integral.
-/
set_option linter.unusedSectionVars false
namespace SecDec.SectorExp
open Expr Subtraction Set Filter Topology MeasureTheory Decomp Expansion Sector

variable {N : Nat} {F : Type} [Field F] [DecidableEq F] {φ : F →+* ℂ}

/-- The vanishing orders reached by the subtraction. -/
noncomputable def improve (js : List (Fin N)) (a : Fin N → ℚ) (i : Fin N) : ℕ :=
  if i ∈ js ∧ a i < 0 then ⌊-(a i)⌋.toNat else 0

open Classical in
theorem outs_reg {fuel : ℕ} {val : F → Option ℚ} (hval : ∀ c q, val c = some q → φ c = (q : ℂ))
    {P : PolyProd (N + 1) F} {js : List (Fin N)} {outs : List (PolyProd (N + 1) F)} {z0 : ℂ} (hW : WellFormed φ P)
    (hS : ∀ᶠ z in 𝓝 z0, Smooth φ (ez z) P) (a : Fin N → ℚ)
    (ha : ∀ i ∈ js, power φ (ez 0) P i = (a i : ℂ))
    (hden : ∀ᶠ z in 𝓝 z0, ∀ i ∈ js, ∀ p : ℕ, (a i : ℚ) + p + 1 ≠ 0 → power φ (ez z) P i + p + 1 ≠ 0)
    (hA : ∀ i, -1 < (power φ (ez z0) P i).re + improve js a i)
    (h : integratePolePart fuel val P (js.map (Fin.castAdd 1)) = .ok outs) :
    ∀ Q ∈ outs, ∃ U m, Reg φ z0 Q U m := by
  have hgood := poleLoopIdx_good (P := P) js [P] outs ⟨P, by simp, rfl⟩ h
  have hvala : ∀ i ∈ js, val (ect (Fin.castAdd 1 i) P.monos) = some (a i) := by
    intro i hi
    obtain ⟨q, hq, _⟩ := hgood i hi
    have h1 := hval _ _ hq
    have h2 := ha i hi
    rw [power_eq, show ez (0 : ℂ) = (fun _ : Fin 1 => (0 : ℂ)) from rfl, pw_zero_point hW.wm, h1] at h2
    have : q = a i := by exact_mod_cast h2
    rw [hq, this]
  have hInv : ∀ᶠ z in 𝓝 z0, ∀ Q ∈ outs, ∃ S', (∀ i ∈ js, i ∈ S') ∧ Inv φ (ez z) val P S' Q := by
    filter_upwards [hS, hden] with z hSz hdz
    have h0 : Inv φ (ez z) val P [] P := ⟨hW, on_of_smooth hSz, fun i => Or.inr ⟨rfl, rfl, fun hi => by simp at hi⟩⟩
    intro Q hQ
    obtain ⟨S', hS', hI⟩ := poleLoopIdx_inv hval js [] [P] outs (by simpa using h0) (by
      intro j hj p hp
      have := hdz j hj p (by
        intro hz
        apply hp
        have hφ := hval _ _ (hvala j hj)
        apply φ.injective
        rw [map_add, map_add, hφ, map_natCast, map_one, map_zero]
        exact_mod_cast hz)
      rw [power_eq] at this
      exact this) h Q hQ
    exact ⟨S', fun i hi => hS' i (Or.inr hi), hI⟩
  intro Q hQ
  obtain ⟨S0, hS0, hI0⟩ := hInv.self_of_nhds Q hQ
  obtain ⟨U, hU⟩ := hI0.sm
  refine ⟨U, fun i => if ∀ m ∈ Q.monos, m.expo (Fin.castAdd 1 i) = 0 then 0 else improve js a i, hI0.wf, hU, ?_, ?_⟩
  · filter_upwards [hInv] with z hz i
    obtain ⟨S', hS', hI⟩ := hz Q hQ
    split
    · exact van_zero _ _
    · rename_i hcol
      rcases hI.col i with hc | ⟨_, _, e3⟩
      · exact absurd hc hcol
      · unfold improve
        split
        · rename_i hi
          exact e3 (hS' i hi.1) (a i) (hvala i hi.1) hi.2
        · exact van_zero _ _
  · intro i
    split
    · rename_i hcol
      rw [pw_zero hcol]; simp
    · rename_i hcol
      rcases hI0.col i with hc | ⟨_, e2, _⟩
      · exact absurd hc hcol
      · rw [e2, ← power_eq]; exact hA i

theorem analyticAt_rpt (z : ℂ) : AnalyticAt ℂ (fun z : ℂ => rpt N (ez z)) z := by
  apply AnalyticAt.pi
  intro i
  refine Fin.addCases (fun i => ?_) (fun i => ?_) i
  · simp only [rpt, Fin.append_left]; exact analyticAt_const
  · simp only [rpt, Fin.append_right, ez]; exact analyticAt_id

theorem den_analytic {p : Poly (N + 1) F} (hp : RegulatorPoly p) (z : ℂ) :
    AnalyticAt ℂ (fun z : ℂ => pev φ (rpt N (ez z)) p) z :=
  AnalyticAt.comp (g := fun x => pev φ x p) (f := fun z : ℂ => rpt N (ez z)) (pev_analytic hp _) (analyticAt_rpt z)

/-- The integral of a term is analytic where its pole factor does not vanish. -/
theorem term_analytic {Q : PolyProd (N + 1) F} {U : Set (Fin (N + 1) → ℂ)} {m : Fin N → ℕ} {z0 : ℂ} (hR : Reg φ z0 Q U m)
    (hb : pev φ (rpt N (ez z0)) Q.regBase ≠ 0) :
    AnalyticAt ℂ (fun z => ∫ t in oc N, value φ (ez z) Q t) z0 := by
  simp only [integral_split hR.wf]
  exact ((den_analytic hR.wf.base z0).inv hb).mul (reg_integral hR).1

theorem coeffOf_ne_of_pev {p : Poly (N + 1) F} {x : Fin (N + 1) → ℂ} (h : pev φ x p ≠ 0) : ∃ e, p.coeffOf e ≠ 0 := by
  by_contra hc
  push Not at hc
  apply h
  rw [← pev_simplify]
  obtain ⟨h1, h2⟩ := tidy_simplify p
  rcases h2 with h2 | h2
  · obtain ⟨t, ht⟩ := List.exists_mem_of_ne_nil _ h1
    exact absurd (by rw [Poly.coeffOf_simplify]; exact hc t.1) (h2 t ht)
  · rw [h2]; simp [pev, Poly.zeroPoly]

theorem poleDen_eq (ε : Fin 1 → ℂ) (Q : PolyProd (N + 1) F) : poleDenominator φ ε Q = pev φ (rpt N ε) Q.regBase := by
  unfold poleDenominator; rw [eval_ofPoly]; rfl

theorem power_continuous {P : PolyProd (N + 1) F} (hW : WellFormed φ P) (i : Fin N) :
    Continuous (fun z : ℂ => power φ (ez z) P i) := by
  simp only [power_eq, pw]
  apply continuous_list_sum
  intro m hm
  refine Continuous.mul ?_ continuous_const
  exact continuous_iff_continuousAt.2 fun z => (den_analytic (hW.exponent m hm) z).continuousAt

theorem extendAll_single (f : PolyProd (N + 1) F → Except Subtraction.Err (List (PolyProd (N + 1) F))) (P : PolyProd (N + 1) F)
    {l : List (PolyProd (N + 1) F)} (h : extendAll f [P] = .ok l) : f P = .ok l := by
  simp only [extendAll] at h
  obtain ⟨a, h1, h⟩ := ok_bind h
  obtain ⟨b, h2, h⟩ := ok_bind h
  simp only [Except.ok.injEq] at h2 h
  subst h2; subst h
  simpa using h1

theorem ibpSingle_trivial {fuel : ℕ} {val : F → Option ℚ} {goal : ℚ} {j : Fin (N + 1)} {steps : ℕ} {P : PolyProd (N + 1) F}
    {l : List (PolyProd (N + 1) F)} (hg : ∀ q, val (ect j P.monos) = some q → goal ≤ q)
    (h : ibpSingle fuel val goal j steps P = .ok l) : l = [P] := by
  cases steps with
  | zero => simp [ibpSingle] at h
  | succ s =>
    simp only [ibpSingle] at h
    rcases hv : val (ect j P.monos) with _ | q
    · rw [hv] at h; simp at h
    · rw [hv] at h
      dsimp only at h
      by_cases h1 : q < 0 ∧ noRegulator (fullExponent j P.monos) (ect j P.monos) = true
      · rw [if_pos h1] at h; simp at h
      · rw [if_neg h1, if_pos (hg q hv)] at h
        simpa using h.symm

theorem ibp_trivial {fuel : ℕ} {val : F → Option ℚ} {P : PolyProd (N + 1) F} : ∀ (gs : List (ℚ × Fin (N + 1)))
    {l : List (PolyProd (N + 1) F)}, (∀ g ∈ gs, ∀ q, val (ect g.2 P.monos) = some q → g.1 ≤ q) →
    ibpLoopIdx fuel val gs [P] = .ok l → l = [P]
  | [], l, _, h => by simpa [ibpLoopIdx] using h.symm
  | g :: gs, l, hg, h => by
    simp only [ibpLoopIdx] at h
    obtain ⟨l', h1, h⟩ := ok_bind h
    have h2 := ibpSingle_trivial (hg g (by simp)) (extendAll_single _ _ h1)
    subst h2
    exact ibp_trivial gs (fun g' hg' => hg g' (by simp [hg'])) h

theorem processSector_ok {fuel : ℕ} {val : F → Option ℚ} {goals : List ℚ} {ints : List (Fin (N + 1))} {regs : List (Fin (N + 1) × ℤ)}
    {P : PolyProd (N + 1) F} {r : List (Summand (N + 1) F) × List ℤ}
    (h : processSector fuel val goals ints regs P = .ok r) : ∃ l outs, integrateByParts fuel val P goals ints = .ok l ∧
      extendAll (fun Q => integratePolePart fuel val Q ints) l = .ok outs ∧ expandAll fuel regs outs none = .ok r := by
  unfold processSector at h
  obtain ⟨l, h1, h⟩ := ok_bind h
  obtain ⟨outs, h2, h⟩ := ok_bind h
  refine ⟨l, outs, ?_, ?_, h⟩
  · revert h1; cases integrateByParts fuel val P goals ints <;> simp [liftSub]
  · revert h2; cases extendAll (fun Q => integratePolePart fuel val Q ints) l <;> simp [liftSub]

end SecDec.SectorExp
