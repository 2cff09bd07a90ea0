import Verif.Proof.LeadingOrderMain
import Verif.Proof.RegionsExp
import Verif.Proof.Series
import Verif.Proof.ExpStep
import Mathlib.Analysis.SpecialFunctions.Gamma.Deligne
import Mathlib.MeasureTheory.Integral.IntegralEqImproper
/-
C53: `leading_order` bounds the order of the leading pole.
-/
set_option linter.unusedSectionVars false
namespace SecDec
namespace LeadingOrder
open Expansion Set Filter Topology
open Decomp (oc mem_oc)
open Subtraction (pev NonNeg)
variable {N K : ℕ} {F : Type} [Field F] [DecidableEq F] {φ : F →+* ℂ}

/-! ### The Gamma function -/

theorem gamma_analytic {s : ℂ} (hs : ∀ n : ℕ, s ≠ -n) : AnalyticAt ℂ Complex.Gamma s := by
  have h : AnalyticAt ℂ (fun s => (Complex.Gamma s)⁻¹) s := Complex.differentiable_one_div_Gamma.analyticAt s
  have := h.inv (inv_ne_zero (Complex.Gamma_ne_zero hs))
  exact this.congr (Eventually.of_forall fun z => by simp)

theorem gamma_pole (n : ℕ) {b : ℂ} (hb : b ≠ 0) :
    ∃ κ, AnalyticAt ℂ κ 0 ∧ ∀ᶠ z in 𝓝[≠] (0 : ℂ), Complex.Gamma (-(n : ℂ) + b * z) = z ^ (-1 : ℤ) * κ z := by
  have haff : ∀ a : ℂ, AnalyticAt ℂ (fun z : ℂ => a + b * z) 0 := fun a => analyticAt_const.add (analyticAt_const.mul analyticAt_id)
  induction n with
  | zero =>
    refine ⟨fun z => Complex.Gamma (1 + b * z) * b⁻¹, ?_, ?_⟩
    · refine AnalyticAt.mul (AnalyticAt.fun_comp (g := Complex.Gamma) (gamma_analytic fun n h => ?_) (haff 1)) analyticAt_const
      rw [mul_zero, add_zero] at h
      have : ((1 + n : ℕ) : ℂ) = 0 := by push_cast; rw [h]; ring
      exact absurd (Nat.cast_eq_zero.1 this) (by omega)
    · filter_upwards [self_mem_nhdsWithin] with z hz
      have hz' : z ≠ 0 := hz
      have := Complex.Gamma_add_one (b * z) (mul_ne_zero hb hz')
      rw [add_comm] at this
      rw [this, zpow_neg_one]
      simp only [Nat.cast_zero, neg_zero, zero_add]
      field_simp
  | succ n ih =>
    obtain ⟨κ, h1, h2⟩ := ih
    have h0 : -((n + 1 : ℕ) : ℂ) + b * 0 ≠ 0 := by
      rw [mul_zero, add_zero, neg_ne_zero]
      exact_mod_cast Nat.succ_ne_zero n
    refine ⟨fun z => κ z * (-((n + 1 : ℕ) : ℂ) + b * z)⁻¹, h1.mul ((haff _).inv h0), ?_⟩
    have hev := (haff (-((n + 1 : ℕ) : ℂ))).continuousAt.eventually_ne h0
    filter_upwards [h2, nhdsWithin_le_nhds hev] with z hz hne
    have := Complex.Gamma_add_one _ hne
    rw [show -((n + 1 : ℕ) : ℂ) + b * z + 1 = -(n : ℂ) + b * z by push_cast; ring, hz] at this
    rw [← mul_assoc, this]
    field_simp

/-- The order of the Gamma function. -/
theorem gamma_order {arg : Poly 1 ℚ} (harg : Affine arg) (hΓ : (∃ n : ℕ, exponentAt arg 0 = -n) → ∃ z, exponentAt arg z ≠ exponentAt arg 0) :
    ∃ κ, AnalyticAt ℂ κ 0 ∧ ∀ᶠ z in 𝓝[≠] (0 : ℂ), Complex.Gamma (exponentAt arg z) = z ^ (-(if gammaPole arg then 1 else 0) : ℤ) * κ z := by
  by_cases hp : gammaPole arg = true
  · have hp' : (atZero arg).den = 1 ∧ atZero arg ≤ 0 := by simpa [gammaPole] using hp
    obtain ⟨n, hn⟩ : ∃ n : ℕ, atZero arg = -(n : ℚ) := by
      have h1 : ((atZero arg).num : ℚ) = atZero arg := (Rat.den_eq_one_iff _).1 hp'.1
      have h2 : (atZero arg).num ≤ 0 := Rat.num_nonpos.2 hp'.2
      refine ⟨(-(atZero arg).num).toNat, ?_⟩
      rw [← h1]
      have : (((-(atZero arg).num).toNat : ℤ) : ℚ) = ((-(atZero arg).num : ℤ) : ℚ) := by rw [Int.toNat_of_nonneg (by omega)]
      rw [Int.cast_natCast] at this
      rw [h1, this]
      push_cast
      rw [h1]; ring
    have hb : ((slope arg : ℚ) : ℂ) ≠ 0 := by
      intro h0
      obtain ⟨z, hz⟩ := hΓ ⟨n, by rw [exponentAt_eq harg, hn]; push_cast; ring⟩
      apply hz
      rw [exponentAt_eq harg, exponentAt_eq harg, h0]; ring
    obtain ⟨κ, h1, h2⟩ := gamma_pole n hb
    refine ⟨κ, h1, ?_⟩
    filter_upwards [h2] with z hz
    rw [if_pos hp, ← hz, exponentAt_eq harg, hn]
    push_cast; rfl
  · have hne : ∀ n : ℕ, ((atZero arg : ℚ) : ℂ) ≠ -n := by
      intro n h
      apply hp
      have h' : atZero arg = ((-(n : ℤ) : ℤ) : ℚ) := by
        have : ((atZero arg : ℚ) : ℂ) = ((((-(n : ℤ) : ℤ) : ℚ)) : ℂ) := by rw [h]; push_cast; rfl
        exact_mod_cast this
      simp only [gammaPole, Bool.decide_and, Bool.and_eq_true, decide_eq_true_eq]
      rw [h']
      refine ⟨Rat.den_intCast _, ?_⟩
      push_cast
      simp
    refine ⟨fun z => Complex.Gamma (exponentAt arg z), ?_, ?_⟩
    · have e : (fun z => Complex.Gamma (exponentAt arg z)) = fun z => Complex.Gamma ((atZero arg : ℂ) + (slope arg : ℂ) * z) := by
        funext z; rw [exponentAt_eq harg]
      rw [e]
      refine AnalyticAt.fun_comp (g := Complex.Gamma) (gamma_analytic fun n h => ?_)
        (analyticAt_const.add (analyticAt_const.mul analyticAt_id))
      rw [mul_zero, add_zero] at h
      exact hne n h
    · filter_upwards with z
      rw [if_neg hp]; simp

theorem foldl_min (ds : List ℚ) (q : ℚ) : ds.foldl (fun p d => min p (-d)) q ≤ q ∧ ∀ d ∈ ds, ds.foldl (fun p d => min p (-d)) q ≤ -d := by
  induction ds generalizing q with
  | nil => simp
  | cons d ds ih =>
    obtain ⟨h1, h2⟩ := ih (min q (-d))
    refine ⟨h1.trans (min_le_left _ _), ?_⟩
    intro e he
    rcases List.mem_cons.1 he with rfl | he
    · exact h1.trans (min_le_right _ _)
    · exact h2 e he

theorem foldl_int (ds : List ℚ) (hd : ∀ d ∈ ds, ∃ n : ℤ, d = n) (q : ℤ) : ∃ L : ℤ, ds.foldl (fun p d => min p (-d)) (q : ℚ) = L := by
  induction ds generalizing q with
  | nil => exact ⟨q, rfl⟩
  | cons d ds ih =>
    obtain ⟨n, rfl⟩ := hd d (by simp)
    obtain ⟨L, hL⟩ := ih (fun e he => hd e (by simp [he])) (min q (-n))
    refine ⟨L, ?_⟩
    rw [← hL, List.foldl_cons]
    push_cast
    rfl

/-- C53: the returned number is an integer, and all orders of the integral below it vanish: the Gamma function of the loop integral
times the sum of the regulated integrals of the sectors is `regulator ^ returned number` times a function which is analytic at zero. -/
theorem C53_leading_order {nvars : ℕ} (hN : N ≤ nvars) {arg : Poly 1 ℚ} (harg : Affine arg)
    (hΓ : (∃ n : ℕ, exponentAt arg 0 = -n) → ∃ z, exponentAt arg z ≠ exponentAt arg 0) {sectors : List (Sector (N + 1) K 1 F)}
    (hs : ∀ s ∈ sectors, Valid φ s) {q : ℚ} (h : leadingOrder nvars false arg sectors = some q) {Js : List (ℂ → ℂ)}
    (hJ : List.Forall₂ (fun s J => ∀ᶠ z in 𝓝[≠] (0 : ℂ), Regulated (integrand φ s z) (J z)) sectors Js) :
    ∃ L : ℤ, q = L ∧ ∃ κ, AnalyticAt ℂ κ 0 ∧
      ∀ᶠ z in 𝓝[≠] (0 : ℂ), Complex.Gamma (exponentAt arg z) * (Js.map fun J => J z).sum = z ^ L * κ z := by
  unfold leadingOrder at h
  obtain ⟨ds, hds, rfl⟩ := Option.map_eq_some_iff.1 h
  have hint : ∀ d ∈ ds, ∃ n : ℤ, d = n := by
    clear h
    induction hJ generalizing ds with
    | nil => simp at hds; subst hds; simp
    | cons hsJ _ ih =>
      rw [List.mapM_cons] at hds
      obtain ⟨d, hd, hds⟩ := Option.bind_eq_some_iff.1 hds
      obtain ⟨ds', hds', hds⟩ := Option.bind_eq_some_iff.1 hds
      rw [Option.pure_def, Option.some.injEq] at hds
      subst hds
      intro e he
      rcases List.mem_cons.1 he with rfl | he
      · obtain ⟨n, hn, -⟩ := sector_order (hs _ (by simp)) hN hd hsJ
        exact ⟨n, hn⟩
      · exact ih (fun s hs' => hs s (by simp [hs'])) _ hds' e he
  obtain ⟨M, hM⟩ := foldl_int ds hint 0
  rw [Int.cast_zero] at hM
  have hle : ∀ d ∈ ds, (M : ℚ) ≤ -d := by rw [← hM]; exact (foldl_min ds 0).2
  have hsum : ∃ κ, AnalyticAt ℂ κ 0 ∧ ∀ᶠ z in 𝓝[≠] (0 : ℂ), (Js.map fun J => J z).sum = z ^ M * κ z := by
    clear h hint hM
    induction hJ generalizing ds with
    | nil => exact ⟨fun _ => 0, analyticAt_const, Eventually.of_forall fun z => by simp⟩
    | cons hsJ _ ih =>
      rw [List.mapM_cons] at hds
      obtain ⟨d, hd, hds⟩ := Option.bind_eq_some_iff.1 hds
      obtain ⟨ds', hds', hds⟩ := Option.bind_eq_some_iff.1 hds
      rw [Option.pure_def, Option.some.injEq] at hds
      subst hds
      obtain ⟨n, rfl, κ, h1, h2⟩ := sector_order (hs _ (by simp)) hN hd hsJ
      obtain ⟨κ', h3, h4⟩ := ih (fun s hs' => hs s (by simp [hs'])) _ hds' fun d hd => hle d (by simp [hd])
      have hMn : M ≤ -n := by
        have := hle n (by simp)
        exact_mod_cast this
      refine ⟨fun z => z ^ (-n - M).toNat * κ z + κ' z, ((analyticAt_id.pow _).mul h1).add h3, ?_⟩
      filter_upwards [h2, h4, self_mem_nhdsWithin] with z e1 e2 hz
      have hz' : z ≠ 0 := hz
      rw [List.map_cons, List.sum_cons, e1, e2]
      have e3 : z ^ (-n - M).toNat = z ^ (-n - M) := by rw [← zpow_natCast, Int.toNat_of_nonneg (by omega)]
      rw [e3, mul_add, ← mul_assoc, ← zpow_add₀ hz']
      congr 3
      ring
  obtain ⟨κ, h1, h2⟩ := hsum
  obtain ⟨κ', h3, h4⟩ := gamma_order harg hΓ
  refine ⟨M - (if gammaPole arg then 1 else 0), by rw [hM]; split <;> simp, fun z => κ' z * κ z, h3.mul h1, ?_⟩
  filter_upwards [h2, h4, self_mem_nhdsWithin] with z e1 e2 hz
  have hz' : z ≠ 0 := hz
  rw [e1, e2, sub_eq_add_neg, zpow_add₀ hz']
  ring

theorem numerators_total {s : Sector (N + 1) K 1 F} (hv : Valid φ s) :
    ∃ ms, s.other.mapM (numeratorPowers ((s.cast.take K).map (replacement false))) = some ms := by
  have hnum : ∀ q ∈ s.other, ∃ m, numeratorPowers ((s.cast.take K).map (replacement false)) q = some m := by
    intro q hq
    obtain ⟨l, hl⟩ := Cxx.mapM_list (insertTerm ((s.cast.take K).map (replacement false))) (fun _ _ => True) q.terms
      (fun t ht => ⟨_, if_pos (by simpa using fun k => hv.other q hq t ht _), trivial⟩)
    have h1 : numerator ((s.cast.take K).map (replacement false)) q = some ((l.foldl Poly.add Poly.zeroPoly).simplify) := by
      unfold numerator; rw [hl.1]; rfl
    obtain ⟨res, hres⟩ := Poly.C05_refactorize_total ((⟨[((fun _ => 0), 1)]⟩ : Poly (N + 1) F), (l.foldl Poly.add Poly.zeroPoly).simplify) []
      (Regions.simplify_terms_ne_nil _)
    obtain ⟨-, -, k, -, h4, -⟩ := Poly.C05_refactorize _ _ _ hres
    refine ⟨(fun _ => 0) + k, ?_⟩
    unfold numeratorPowers
    rw [h1]
    simp only [Option.bind_some]
    rw [show Poly.refactorizeMethod _ _ = some res from hres, Option.bind_some, h4]
    rfl
  obtain ⟨ms, hms, -⟩ := Cxx.mapM_list (numeratorPowers ((s.cast.take K).map (replacement false))) (fun _ _ => True) s.other
    fun q hq => (hnum q hq).imp fun m hm => ⟨hm, trivial⟩
  exact ⟨ms, hms⟩

/-- The order is returned for all sectors which have the form that the decomposition gives them. -/
theorem C53_total {nvars : ℕ} {arg : Poly 1 ℚ} {sectors : List (Sector (N + 1) K 1 F)} (hs : ∀ s ∈ sectors, Valid φ s)
    (hK : ∀ s ∈ sectors, K ≤ s.cast.length) : ∃ q, leadingOrder nvars false arg sectors = some q := by
  have hsec : ∀ s ∈ sectors, ∃ d, sectorDivergences nvars false s = some d := by
    intro s hm
    have hv := hs s hm
    obtain ⟨ms, hms⟩ := numerators_total hv
    have hz : ∀ k : Fin K, powers s (Fin.natAdd (N + 1) k) = 0 := by
      intro k
      unfold powers
      rw [hv.prim _ (by simp; omega), hv.jac _ (by simp; omega)]
      have : (s.cast.map fun f => (f.mono (Fin.natAdd (N + 1) k) : ℚ) * atZero f.exponent).sum = 0 := by
        refine List.sum_eq_zero fun x hx => ?_
        obtain ⟨f, hf, rfl⟩ := List.mem_map.1 hx
        rw [(hv.mono f hf).1 _ (by simp; omega)]; simp
      rw [this]; simp
    unfold sectorDivergences
    rw [if_neg (by simpa using hz), if_neg (by have := hK s hm; omega)]
    dsimp only
    rw [hms]
    exact ⟨_, rfl⟩
  obtain ⟨ds, hds, -⟩ := Cxx.mapM_list (sectorDivergences nvars false) (fun _ _ => True) sectors
    fun s hm => (hsec s hm).imp fun d hd => ⟨hd, trivial⟩
  exact ⟨_, by unfold leadingOrder; rw [hds]; rfl⟩

/-- The regulated integral has one value. -/
theorem C53_unique {f : (Fin N → ℝ) → ℂ} {v w : ℂ} (hv : Regulated f v) (hw : Regulated f w) : v = w :=
  AnalyticReg.regulated_unique hv hw

/-- Powers are not negative integers, if the regulator is small. -/
theorem powers_ne (a c : ℚ) (h : ∀ k : ℕ, a + k + 1 = 0 → c ≠ 0) :
    ∀ᶠ z in 𝓝[≠] (0 : ℂ), ∀ k : ℕ, ((a : ℝ) : ℂ) + (c : ℂ) * z + k + 1 ≠ 0 := by
  have hd : (0 : ℝ) < 1 / a.den := by
    have := a.den_pos
    positivity
  have hc : ContinuousAt (fun z : ℂ => ‖(c : ℂ) * z‖) 0 := by fun_prop
  have hev : ∀ᶠ z in 𝓝 (0 : ℂ), ‖(c : ℂ) * z‖ < 1 / a.den := hc.eventually_lt_const (by simpa using hd)
  filter_upwards [nhdsWithin_le_nhds hev, self_mem_nhdsWithin] with z h1 hz k h2
  have hz' : z ≠ 0 := hz
  by_cases h0 : a + k + 1 = 0
  · have h3 : (c : ℂ) * z = 0 := by
      have h0' : ((a : ℝ) : ℂ) + k + 1 = 0 := by exact_mod_cast h0
      linear_combination h2 - h0'
    rcases mul_eq_zero.1 h3 with h4 | h4
    · exact h k h0 (by exact_mod_cast h4)
    · exact hz' h4
  · have h3 : ‖(c : ℂ) * z‖ = |((a + k + 1 : ℚ) : ℝ)| := by
      have : (c : ℂ) * z = -(((a + k + 1 : ℚ) : ℝ) : ℂ) := by push_cast; push_cast at h2; linear_combination h2
      rw [this, norm_neg, Complex.norm_real, Real.norm_eq_abs]
    have h4 : (1 : ℚ) / a.den ≤ |a + k + 1| := by
      have hden : (a.den : ℚ) ≠ 0 := by exact_mod_cast a.den_ne_zero
      have e : a + k + 1 = ((a.num + (k + 1) * a.den : ℤ) : ℚ) / a.den := by
        rw [eq_div_iff hden]
        push_cast
        have := Rat.mul_den_eq_num a
        linear_combination this
      have hne : a.num + (k + 1) * a.den ≠ 0 := by
        intro h5
        apply h0
        rw [e, h5]; simp
      rw [e, abs_div, Nat.abs_cast]
      refine div_le_div_of_nonneg_right ?_ (by positivity)
      rw [← Int.cast_abs]
      exact_mod_cast Int.one_le_abs hne
    have h5 : ((1 : ℝ) / a.den) ≤ |((a + k + 1 : ℚ) : ℝ)| := by
      have := (Rat.cast_le (K := ℝ)).2 h4
      rwa [Rat.cast_div, Rat.cast_one, Rat.cast_natCast, Rat.cast_abs] at this
    rw [h3] at h1
    linarith

/-- The regulated integral of a sector exists, if the regulator is small and not zero. -/
theorem C53_exists {s : Sector (N + 1) K 1 F} (hs : Valid φ s) (hK : K ≤ s.cast.length) :
    ∃ J : ℂ → ℂ, ∀ᶠ z in 𝓝[≠] (0 : ℂ), Regulated (integrand φ s z) (J z) := by
  obtain ⟨ms, hms⟩ := numerators_total hs
  obtain ⟨ns, rfl, hns, hval⟩ := numerators hs hK hms
  have hev : ∀ᶠ z in 𝓝[≠] (0 : ℂ), ∀ i, ∀ k : ℕ,
      powerAt s i z + (((ns.map fun n => (n.1 (Fin.castAdd 1 i) : ℚ)).sum : ℚ) : ℂ) + k + 1 ≠ 0 := by
    rw [eventually_all]
    intro i
    set M : ℤ := (ns.map fun n => n.1 (Fin.castAdd 1 i)).sum with hM
    have hM0 : 0 ≤ M := List.sum_nonneg fun x hx => by
      obtain ⟨n, hn, rfl⟩ := List.mem_map.1 hx
      exact (hns n hn).2 _
    obtain ⟨m, hm⟩ := Int.eq_ofNat_of_zero_le hM0
    have := powers_ne (powers s (Fin.castAdd K (Fin.castAdd 1 i)))
      (s.cast.map fun f => (f.mono (Fin.castAdd K (Fin.castAdd 1 i)) : ℚ) * slope f.exponent).sum (by
        intro k hk hc
        obtain ⟨z, hz⟩ := hs.regulated i ⟨k, by
          rw [powerAt_eq hs.affine, mul_zero, add_zero]
          have : powers s (Fin.castAdd K (Fin.castAdd 1 i)) = -((k : ℚ) + 1) := by linarith
          rw [this]; push_cast; rfl⟩
        apply hz
        rw [powerAt_eq hs.affine, powerAt_eq hs.affine, hc]; simp)
    filter_upwards [this] with z hz k h
    apply hz (k + m)
    rw [← h, powerAt_eq hs.affine, sum_cast, ← hM, hm, Complex.ofReal_ratCast]
    push_cast
    ring
  choose! v hv using fun (z : ℂ) (h : ∀ i, ∀ k : ℕ,
      powerAt s i z + (((ns.map fun n => (n.1 (Fin.castAdd 1 i) : ℚ)).sum : ℚ) : ℂ) + k + 1 ≠ 0) =>
    AnalyticReg.regulated_exists (regular_ana hs fun n hn => (hns n hn).1) (mem_univ z) h
  refine ⟨fun z => (ns.map fun n => z ^ n.1 (Fin.last N)).prod * v z, ?_⟩
  filter_upwards [hev] with z hz
  exact regulated_congr (fun t ht => (integrand_eq hs ht (hval _ _)).symm) (regulated_scale (hv z hz))

/-- Where the integral of a sector converges, the regulated integral is the integral. -/
theorem C53_convergent {s : Sector (N + 1) K 1 F} (hs : Valid φ s) (hK : K ≤ s.cast.length) {z : ℂ} (hz : ∀ i, -1 < (powerAt s i z).re) :
    Regulated (integrand φ s z) (Decomp.cubeIntegral (integrand φ s z)) := by
  obtain ⟨ms, hms⟩ := numerators_total hs
  obtain ⟨ns, rfl, hns, hval⟩ := numerators hs hK hms
  have h := regulated_scale (c := (ns.map fun n => z ^ n.1 (Fin.last N)).prod) (AnalyticReg.regulated_convergent
    (regular_ana hs fun n hn => (hns n hn).1) (mem_univ z)
    (β := fun i => powerAt s i z + (((ns.map fun n => (n.1 (Fin.castAdd 1 i) : ℚ)).sum : ℚ) : ℂ)) (by
      intro i
      have h0 : 0 ≤ (ns.map fun n => n.1 (Fin.castAdd 1 i)).sum := List.sum_nonneg fun x hx => by
        obtain ⟨n, hn, rfl⟩ := List.mem_map.1 hx
        exact (hns n hn).2 _
      have h1 : (0 : ℝ) ≤ ((ns.map fun n => n.1 (Fin.castAdd 1 i)).sum : ℤ) := by exact_mod_cast h0
      rw [sum_cast, Rat.cast_intCast, Complex.add_re, Complex.intCast_re]
      linarith [hz i]))
  rw [← scale_cubeIntegral] at h
  have e : Decomp.cubeIntegral (integrand φ s z) = Decomp.cubeIntegral (fun t => (ns.map fun n => z ^ n.1 (Fin.last N)).prod *
      ((∏ i, (t i : ℂ) ^ (powerAt s i z + (((ns.map fun n => (n.1 (Fin.castAdd 1 i) : ℚ)).sum : ℚ) : ℂ))) *
        regular φ s ns (fun i => (t i : ℂ)) z)) := by
    rw [AnalyticReg.cubeIntegral_oc, AnalyticReg.cubeIntegral_oc]
    exact MeasureTheory.setIntegral_congr_fun Decomp.measurableSet_oc fun t ht => integrand_eq hs ht (hval _ _)
  rw [e]
  exact regulated_congr (fun t ht => (integrand_eq hs ht (hval _ _)).symm) h

/-! ### Examples -/

/-- A one-dimensional integral. -/
theorem cubeIntegral_one (f : (Fin 1 → ℝ) → ℂ) (g : ℝ → ℂ) (h : ∀ x ∈ Ioo (0 : ℝ) 1, f (fun _ => x) = g x) :
    Decomp.cubeIntegral f = ∫ x in Ioo (0 : ℝ) 1, g x := by
  rw [AnalyticReg.cubeIntegral_oc]
  have e := (MeasureTheory.volume_preserving_funUnique (Fin 1) ℝ).setIntegral_preimage_emb (MeasurableEquiv.measurableEmbedding _) g (Ioo 0 1)
  rw [← e]
  have hset : (MeasurableEquiv.funUnique (Fin 1) ℝ) ⁻¹' Ioo (0 : ℝ) 1 = oc 1 := by
    ext t
    rw [mem_oc]
    constructor
    · intro ht i
      rw [Subsingleton.elim i 0]
      exact ht
    · intro ht
      exact ht 0
  rw [hset]
  refine MeasureTheory.setIntegral_congr_fun Decomp.measurableSet_oc fun t ht => ?_
  have ht0 : t = fun _ => t 0 := by funext i; rw [Subsingleton.elim i 0]
  have hc : (MeasurableEquiv.funUnique (Fin 1) ℝ) t = t 0 := rfl
  beta_reduce
  rw [hc, ← h (t 0) (mem_oc.1 ht 0), ← ht0]

/-- `∫ x^(-1-z) (1+x)^(-1) (2+x)^(-1-z) (1 + x + 3 x z) dx`: `U = 1 + x` to the power `-1`, `F = x (2 + x)` to the power `-1-z`,
and the numerator `U + 3 x z`. -/
def exSector : Sector 2 1 1 ℚ :=
  ⟨0, 0, [⟨0, ⟨[(0, 1), (![1, 0, 0], 1)]⟩, ⟨[(![0], -1)]⟩⟩, ⟨![1, 0, 0], ⟨[(0, 2), (![1, 0, 0], 1)]⟩, ⟨[(![0], -1), (![1], -1)]⟩⟩],
    [⟨[(![0, 0, 1], 1), (![1, 1, 0], 3)]⟩]⟩

theorem only_ex : OnlyParameters (N := 1) (K := 1) ![1, 0, 0] := by
  unfold OnlyParameters; decide

theorem only_zero : OnlyParameters (N := 1) (K := 1) 0 := fun _ _ => rfl

theorem rest_ex (a : ℚ) (m : Expo 3) (e : Poly 1 ℚ) (x : Fin 1 → ℂ) :
    restValue (N := 1) (K := 1) (Rat.castHom ℂ) ⟨m, ⟨[(0, a), (![1, 0, 0], 1)]⟩, e⟩ x = a + x 0 := by
  have h1 := monoValue_eq (N := 1) (K := 1) only_ex x
  have h0 := monoValue_eq (N := 1) (K := 1) only_zero x
  unfold monoValue at h1 h0
  simp only [restValue, polyValue, List.map_cons, List.map_nil, List.sum_cons, List.sum_nil]
  rw [h1, h0]
  simp

theorem ex_valid : Valid (N := 1) (K := 1) (Rat.castHom ℂ) exSector where
  prim := only_zero
  jac := only_zero
  mono := by
    intro f hf
    simp only [exSector, List.mem_cons, List.not_mem_nil, or_false] at hf
    rcases hf with rfl | rfl
    · exact ⟨only_zero, fun _ => le_rfl⟩
    · exact ⟨only_ex, by decide⟩
  rest := by
    intro f hf t ht
    simp only [exSector, List.mem_cons, List.not_mem_nil, or_false] at hf
    rcases hf with rfl | rfl
    all_goals
      simp only [List.mem_cons, List.not_mem_nil, or_false] at ht
      rcases ht with rfl | rfl
      · exact ⟨only_zero, fun _ => le_rfl⟩
      · exact ⟨only_ex, by decide⟩
  slit := by
    intro f hf t ht
    have h0 : 0 ≤ t 0 := ht.1 0
    simp only [exSector, List.mem_cons, List.not_mem_nil, or_false] at hf
    rcases hf with rfl | rfl
    all_goals
      rw [rest_ex]
      left
      simp
      linarith
  affine := by
    intro f hf
    simp only [exSector, List.mem_cons, List.not_mem_nil, or_false] at hf
    rcases hf with rfl | rfl
    all_goals
      intro t ht
      simp only [List.mem_cons, List.not_mem_nil, or_false] at ht
      rcases ht with rfl | rfl <;> simp
  other := by
    intro q hq t ht
    simp only [exSector, List.mem_cons, List.not_mem_nil, or_false] at hq
    subst hq
    simp only [List.mem_cons, List.not_mem_nil, or_false] at ht
    rcases ht with rfl | rfl <;> decide
  regulated := by
    intro i _
    refine ⟨1, ?_⟩
    rw [Subsingleton.elim i 0]
    simp [powerAt, exSector, exponentAt, polyValue, Poly.mono]

/-- The hypotheses of `C53_leading_order` are met. -/
example : ∃ q, leadingOrder 2 false ⟨[(![0], 0), (![1], 1)]⟩ [exSector] = some q ∧ ∃ J : ℂ → ℂ,
    (∀ᶠ z in 𝓝[≠] (0 : ℂ), Regulated (integrand (N := 1) (Rat.castHom ℂ) exSector z) (J z)) ∧ ∃ L : ℤ, q = L ∧ ∃ κ, AnalyticAt ℂ κ 0 ∧
      ∀ᶠ z in 𝓝[≠] (0 : ℂ), Complex.Gamma (exponentAt ⟨[(![0], 0), (![1], 1)]⟩ z) * J z = z ^ L * κ z := by
  obtain ⟨q, hq⟩ := C53_total (N := 1) (nvars := 2) (arg := ⟨[(![0], 0), (![1], 1)]⟩) (sectors := [exSector]) (φ := Rat.castHom ℂ)
    (by intro s hs; rw [List.mem_singleton.1 hs]; exact ex_valid) (by intro s hs; rw [List.mem_singleton.1 hs]; decide)
  obtain ⟨J, hJ⟩ := C53_exists (N := 1) ex_valid (by decide)
  refine ⟨q, hq, J, hJ, ?_⟩
  have h := C53_leading_order (N := 1) (nvars := 2) (by decide) (arg := ⟨[(![0], 0), (![1], 1)]⟩)
    (by intro t ht; simp only [List.mem_cons, List.not_mem_nil, or_false] at ht; rcases ht with rfl | rfl <;> simp)
    (by intro _; exact ⟨1, by simp [exponentAt, polyValue, Poly.mono]⟩) (sectors := [exSector]) (φ := Rat.castHom ℂ)
    (by intro s hs; rw [List.mem_singleton.1 hs]; exact ex_valid) hq (Js := [J]) (List.Forall₂.cons hJ List.Forall₂.nil)
  simpa using h

/-- Without numerators the result can be computed: a double pole and the pole of the Gamma function. -/
example : leadingOrder 3 false ⟨[(![0], 0), (![1], 1)]⟩
    [(⟨0, ![1, 0, 0, 0], [⟨![1, 1, 0, 0], ⟨[(0, 1)]⟩, ⟨[(![0], -2), (![1], -1)]⟩⟩], []⟩ : Sector 3 1 1 ℚ)] = some (-3) := by
  decide +kernel

/-! ### Defects -/

/-- `x^(-1+z^2)`. -/
def quadratic : Sector 2 0 1 ℚ := ⟨0, 0, [⟨![1, 0], ⟨[(0, 1)]⟩, ⟨[(![0], -1), (![2], 1)]⟩⟩], []⟩

/-- If a power is not linear in the regulator, then the returned order is wrong: here it is `-1`, but the integral is
`1 / regulator ^ 2`. -/
theorem C53_nonlinear_defect : leadingOrder 2 false ⟨[(![0], 1)]⟩ [quadratic] = some (-1) ∧
    ∀ z : ℂ, 0 < (z ^ 2).re → Decomp.cubeIntegral (integrand (N := 1) (Rat.castHom ℂ) quadratic z) = 1 / z ^ 2 := by
  refine ⟨by decide +kernel, fun z hz => ?_⟩
  rw [cubeIntegral_one _ (fun x => (x : ℂ) ^ (-1 + z ^ 2)), Subtraction.integral_cpow_Ioo]
  · ring
  · simpa using hz
  · intro x hx
    have ho : OnlyParameters (N := 1) (K := 0) ![1, 0] := by unfold OnlyParameters; decide
    have h0 : OnlyParameters (N := 1) (K := 0) 0 := fun _ _ => rfl
    have e0 := monoValue_eq (N := 1) (K := 0) h0 (fun _ => (x : ℂ))
    simp only [integrand, quadratic, List.map_cons, List.map_nil, List.prod_cons, List.prod_nil, monoValue_eq ho, monoValue_eq h0]
    have h1 : exponentAt ⟨[(![0], -1), (![2], 1)]⟩ z = -1 + z ^ 2 := by
      simp [exponentAt, polyValue, Poly.mono]
    have h2 : restValue (N := 1) (K := 0) (Rat.castHom ℂ) ⟨![1, 0], ⟨[(0, 1)]⟩, ⟨[(![0], -1), (![2], 1)]⟩⟩ (fun _ => (x : ℂ)) = 1 := by
      simp [restValue, polyValue, Poly.mono]
    rw [h1, h2]
    simp

/-- `U = 2`, and `x^(-1+z) (U - 1 + x)`. -/
def spurious : Sector 2 1 1 ℚ :=
  ⟨0, 0, [⟨0, ⟨[(0, 2)]⟩, ⟨[(![0], 0)]⟩⟩, ⟨![1, 0, 0], ⟨[(0, 1)]⟩, ⟨[(![0], -1), (![1], 1)]⟩⟩],
    [⟨[(![0, 0, 1], 1), (![0, 0, 0], -1), (![1, 0, 0], 1)]⟩]⟩

theorem simplify_single {n : ℕ} (e : Expo n) {c : F} (hc : c ≠ 0) : (⟨[(e, c)]⟩ : Poly n F).simplify = ⟨[(e, c)]⟩ := by
  simp [Poly.simplify, argsort2D, Poly.expolist, Poly.coeffs, Poly.mergeLoop, List.zipIdx_cons, List.mergeSort_singleton, takeIdx, hc]

theorem integrable_cpow {b : ℂ} (hb : -1 < b.re) : MeasureTheory.IntegrableOn (fun x : ℝ => (x : ℂ) ^ b) (Ioo 0 1) := by
  have h := intervalIntegral.intervalIntegrable_cpow' (a := 0) (b := 1) hb
  rw [intervalIntegrable_iff, uIoc_of_le zero_le_one] at h
  exact h.mono_set Ioo_subset_Ioc_self

theorem spurious_numerator : numerator (K := 1) [(⟨[(drop (v := 2) (K := 1) 0, 1)]⟩ : Poly 2 ℚ)]
    ⟨[(![0, 0, 1], 1), (![0, 0, 0], -1), (![1, 0, 0], 1)]⟩ = some ⟨[(![1, 0], 1)]⟩ := by
  have hl : (List.mapM (insertTerm (K := 1) [(⟨[(drop (v := 2) (K := 1) 0, 1)]⟩ : Poly 2 ℚ)])
      [(![0, 0, 1], 1), (![0, 0, 0], -1), (![1, 0, 0], 1)]) = some
      [(⟨[(drop (v := 2) (K := 1) ![0, 0, 1], 1)]⟩ : Poly 2 ℚ).mul (power ⟨[(drop (v := 2) (K := 1) 0, 1)]⟩ 1),
        (⟨[(drop (v := 2) (K := 1) ![0, 0, 0], -1)]⟩ : Poly 2 ℚ).mul (power ⟨[(drop (v := 2) (K := 1) 0, 1)]⟩ 0),
        (⟨[(drop (v := 2) (K := 1) ![1, 0, 0], 1)]⟩ : Poly 2 ℚ).mul (power ⟨[(drop (v := 2) (K := 1) 0, 1)]⟩ 0)] := by
    rfl
  have d0 : drop (v := 2) (K := 1) (0 : Expo 3) = 0 := rfl
  have d1 : drop (v := 2) (K := 1) ![0, 0, 1] = 0 := by funext i; revert i; decide
  have d2 : drop (v := 2) (K := 1) ![0, 0, 0] = 0 := by funext i; revert i; decide
  have d3 : drop (v := 2) (K := 1) ![1, 0, 0] = ![1, 0] := by funext i; revert i; decide
  rw [d0, d1, d2, d3] at hl
  unfold numerator
  rw [d0, hl, Option.map_some]
  congr 1
  refine Eq.trans ?_ (simplify_single (![1, 0] : Expo 2) (one_ne_zero : (1 : ℚ) ≠ 0))
  rw [Poly.C02_simplify_canonical]
  intro e
  rw [Expansion.coeffOf_eq_laurent, Expansion.coeffOf_eq_laurent]
  congr 1
  have hz : ∀ c : ℚ, (⟨[((fun _ => 0), c)]⟩ : Poly 2 ℚ).toLaurent = AddMonoidAlgebra.single 0 c := fun c => by simp [Poly.toLaurent]; rfl
  simp only [List.foldl_cons, List.foldl_nil, Poly.add, Poly.toLaurent_subOrAdd, Poly.toLaurent_mul, power, List.replicate, Poly.toLaurent_zero]
  simp [Poly.toLaurent_mk]
  rfl

/-- With `faster = True` only the monomials are inserted into the numerators.  They can cancel although the polynomials do not: here the
returned order is zero, but the integral is `1 / z + 1 / (z + 1)`. -/
theorem C53_faster_defect : leadingOrder 2 true ⟨[(![0], 1)]⟩ [spurious] = some 0 ∧
    ∀ z : ℂ, 0 < z.re → Decomp.cubeIntegral (integrand (N := 1) (Rat.castHom ℂ) spurious z) = 1 / z + 1 / (z + 1) := by
  constructor
  · have h : sectorDivergences 2 true spurious = some 0 := by
      have h1 : [(⟨[(![0, 0, 1], 1), (![0, 0, 0], -1), (![1, 0, 0], 1)]⟩ : Poly 3 ℚ)].mapM
          (numeratorPowers (K := 1) [(⟨[(drop (v := 2) (K := 1) 0, 1)]⟩ : Poly 2 ℚ)]) = some [![1, 0]] := by
        rw [List.mapM_cons, numeratorPowers, spurious_numerator]
        decide +kernel
      unfold sectorDivergences
      rw [if_neg (by decide +kernel), if_neg (by decide)]
      dsimp only
      have h2 : (spurious.cast.take 1).map (replacement true) = [(⟨[(drop (v := 2) (K := 1) 0, 1)]⟩ : Poly 2 ℚ)] := rfl
      rw [h2, show spurious.other = [(⟨[(![0, 0, 1], 1), (![0, 0, 0], -1), (![1, 0, 0], 1)]⟩ : Poly 3 ℚ)] from rfl, h1, Option.map_some]
      congr 1
      decide +kernel
    unfold leadingOrder
    rw [List.mapM_cons, h]
    decide +kernel
  · intro z hz
    have hz0 : z ≠ 0 := by rintro rfl; simp at hz
    rw [cubeIntegral_one _ (fun x => (x : ℂ) ^ (-1 + z) + (x : ℂ) ^ z)]
    · rw [MeasureTheory.integral_add, Subtraction.integral_cpow_Ioo, Subtraction.integral_cpow_Ioo]
      · ring
      · linarith
      · simpa using hz
      · exact integrable_cpow (by simpa using hz)
      · exact integrable_cpow (by linarith)
    · intro x hx
      have hx0 : (x : ℂ) ≠ 0 := by exact_mod_cast hx.1.ne'
      have e1 : exponentAt ⟨[(![0], 0)]⟩ z = 0 := by simp [exponentAt, polyValue, Poly.mono]
      have e2 : exponentAt ⟨[(![0], -1), (![1], 1)]⟩ z = -1 + z := by simp [exponentAt, polyValue, Poly.mono]
      have r1 : restValue (N := 1) (K := 1) (Rat.castHom ℂ) ⟨0, ⟨[(0, 2)]⟩, ⟨[(![0], 0)]⟩⟩ (fun _ => (x : ℂ)) = 2 := by
        simp [restValue, polyValue, Poly.mono]
      have r2 : restValue (N := 1) (K := 1) (Rat.castHom ℂ) ⟨![1, 0, 0], ⟨[(0, 1)]⟩, ⟨[(![0], -1), (![1], 1)]⟩⟩ (fun _ => (x : ℂ)) = 1 := by
        simp [restValue, polyValue, Poly.mono]
      have n1 : polyValue (Rat.castHom ℂ) (⟨[(![0, 0, 1], 1), (![0, 0, 0], -1), (![1, 0, 0], 1)]⟩ : Poly 3 ℚ)
          (point (N := 1) (K := 1) (fun _ => (x : ℂ)) z (nameValue (N := 1) (Rat.castHom ℂ) spurious fun _ => (x : ℂ))) = 1 + x := by
        have hn : nameValue (N := 1) (Rat.castHom ℂ) spurious (fun _ => (x : ℂ)) = fun _ => 2 := by
          funext k
          rw [Subsingleton.elim k 0]
          simp only [nameValue, spurious, Fin.val_zero, List.getElem?_cons_zero, Option.elim, r1, monoValue_eq (only_zero), Pi.zero_apply,
            zpow_zero, Finset.prod_const_one, one_mul]
        rw [hn]
        have p0 : point (N := 1) (K := 1) (fun _ => (x : ℂ)) z (fun _ => 2) = ![(x : ℂ), z, 2] := by
          funext i; fin_cases i <;> rfl
        rw [p0]
        simp [polyValue, Poly.mono, Fin.prod_univ_succ]
        ring
      simp only [integrand]
      rw [show spurious.prim = 0 from rfl, show spurious.jac = 0 from rfl]
      simp only [spurious, List.map_cons, List.map_nil, List.prod_cons, List.prod_nil] at n1 ⊢
      rw [n1, e1, e2, r1, r2, monoValue_eq only_zero, monoValue_eq only_ex]
      simp
      rw [Complex.cpow_add _ _ hx0, Complex.cpow_neg_one]
      field_simp

end LeadingOrder
end SecDec
