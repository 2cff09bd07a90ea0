import Verif.Proof.PackageCore
import Mathlib.Analysis.SpecialFunctions.Gamma.Beta
/-
C57: the coefficients computed by a package are the Laurent coefficients of the whole integral.
-/
namespace SecDec
namespace Package
open Squash Decomp Sector Expansion Set LeadingOrder Filter Topology
variable {n : ℕ}

/-- What the steps need of the exponents. -/
def Exponents (polys : List (SPoly (n + 1) ℝ (Poly 1 ℚ))) (e : Poly 1 ℚ) : Prop := ∃ p ∈ polys, exponentOf p = e

theorem exponents_affine {polys : List (SPoly (n + 1) ℝ (Poly 1 ℚ))} (hE : Euclidean polys) : ∀ e, Exponents polys e → Affine e := by
  rintro e ⟨p, hp, rfl⟩
  exact (hE p hp).2.2

/-- C57: if the integral converges for the regulators in an open set, the sum of the regulated sectors is its analytic
continuation; the continuation exists. -/
theorem C57_continuation_exists {o : Options} {polys : List (SPoly (n + 1) ℝ (Poly 1 ℚ))} (hE : Euclidean polys) (hD : Decomposable o polys) {V : Set ℂ}
    (hV : IsOpen V) (hne : V.Nonempty) (hp : ∀ z ∈ V, Projective (integrandAt polys z)) (hc : ∀ z ∈ V, DeltaIntegrable (integrandAt polys z))
    {ss : List (Squash.Sector n ℝ (Poly 1 ℚ))} (h : sectors o polys = some ss) : ∃ J, Continuation polys V J := by
  obtain ⟨h1, h2⟩ := sectors_spec (Q := Exponents polys) hE (fun p hp => ⟨p, hp, rfl⟩) hD h
  obtain ⟨J, h3, h4⟩ := continuation_core (exponents_affine hE) h1 hne fun z hz => h2 z (hp z hz) (hc z hz)
  exact ⟨J, hV, hne, hc, h3, h4⟩

/-- C57: the continuation is unique up to the singularities. -/
theorem C57_continuation_unique {polys : List (SPoly (n + 1) ℝ (Poly 1 ℚ))} {V : Set ℂ} {J J' : ℂ → ℂ} (h : Continuation polys V J)
    (h' : Continuation polys V J') : ∃ E : Set ℂ, E.Countable ∧ IsClosed E ∧ (∃ r > 0, ∀ z, ‖z‖ < r → z ≠ 0 → z ∉ E) ∧ EqOn J J' Eᶜ := by
  obtain ⟨E, e1, e2, ⟨r, hr, e3⟩, e4⟩ := h.analytic
  obtain ⟨E', e1', e2', ⟨r', hr', e3'⟩, e4'⟩ := h'.analytic
  refine ⟨E ∪ E', e1.union e1', e2.union e2', ⟨min r r', lt_min hr hr', fun z hz h0 hm => ?_⟩, ?_⟩
  · exact hm.elim (e3 z (lt_of_lt_of_le hz (min_le_left _ _)) h0) (e3' z (lt_of_lt_of_le hz (min_le_right _ _)) h0)
  · refine eq_of_open h.isOpen h.nonempty (e1.union e1') (e2.union e2') (e4.mono fun z hz hm => hz (Or.inl hm))
      (e4'.mono fun z hz hm => hz (Or.inr hm)) fun z hz _ => ?_
    rw [h.eq z hz, h'.eq z hz]

/-- C57: the whole of `make_package` for Euclidean kinematics.  If the package is generated, then for every analytic continuation `J`
of the integral to the neighbourhood of the value zero of the regulator, the integrals which the package integrates numerically
exist, no sector stays below the required order, and their sums over the sectors are the coefficients of the Laurent expansion of `J` up to and
including the required order. -/
theorem C57_laurent_coefficients {o : Options} {polys : List (SPoly (n + 1) ℝ (Poly 1 ℚ))} (hE : Euclidean polys) (hD : Decomposable o polys)
    (hval : ∀ c q, o.val c = some q → c = (q : ℝ)) (hv0 : o.val 0 = some 0) (hg : NoIntegerPowers polys ∧ CleanPowers polys ∨ GoalsReached o polys) {V : Set ℂ}
    (hp : ∀ z ∈ V, Projective (integrandAt polys z)) {J : ℂ → ℂ} (hJ : Continuation polys V J) {results : List (List (Summand (n + 1) ℝ) × ℤ)}
    (h : package o polys = some results) :
    (∀ r ∈ results, -r.2 ≤ o.order ∧ ∀ k, CubeIntegrable (orderIntegrand Complex.ofRealHom r.1 k)) ∧
      ∀ P : ℤ, (∀ r ∈ results, r.2 ≤ P) →
        IsExpansion J o.order ((sectorOrders o.order P).map fun k => (k, coefficient results o.order k)) := by
  unfold package at h
  rw [Option.bind_eq_bind, Option.bind_eq_some_iff] at h
  obtain ⟨ss, hss, h⟩ := h
  obtain ⟨h1, h2⟩ := sectors_spec (Q := Exponents polys) hE (fun p hp => ⟨p, hp, rfl⟩) hD hss
  refine laurent_core (exponents_affine hE) h1 hJ.isOpen hJ.nonempty (fun z hz => h2 z (hp z hz) (hJ.convergent z hz)) hval hv0 (fun s hs => ?_) hJ.analytic hJ.eq h
  rcases hg with hg | hg
  · exact Or.inl ⟨fun e ⟨p, hp, he⟩ => he ▸ hg.1 p hp, fun e ⟨p, hp, he⟩ => he ▸ hg.2 p hp⟩
  · exact Or.inr (hg ss hss s hs)

/-- C57: the package is generated for every required order, if the decomposition ends and each parameter with a negative power
is regulated. -/
theorem C57_package_succeeds {o : Options} {polys : List (SPoly (n + 1) ℝ (Poly 1 ℚ))} (hE : Euclidean polys) (hD : Decomposable o polys) (hC : CleanPowers polys)
    (hval : ∀ q : ℚ, o.val q = some q) (hval' : ∀ c q, o.val c = some q → c = (q : ℝ)) (hlen : o.goals.length = n)
    {ss : List (Squash.Sector n ℝ (Poly 1 ℚ))} (h : sectors o polys = some ss)
    (hreg : ∀ s ∈ ss, ∀ i, powerAtZero s i < 0 → powerSlope s i ≠ 0) :
    ∃ results K, ∀ fuel, K ≤ fuel → package { o with fuel := fuel } polys = some results := by
  obtain ⟨h1, -⟩ := sectors_spec (Q := Exponents polys) hE (fun p hp => ⟨p, hp, rfl⟩) hD h
  obtain ⟨rs, K, hK⟩ := succeeds_core (o := o) (exponents_affine hE) (fun e ⟨p, hp, he⟩ => he ▸ hC p hp) hval hval' hlen h1 hreg
  refine ⟨rs, K, fun fuel hf => ?_⟩
  have h' : sectors { o with fuel := fuel } polys = some ss := h
  unfold package
  rw [h']
  exact hK fuel hf

/-! ### an integral with poles: `∫ d²x δ(1 - x₀ - x₁) (x₀ + x₁)^(2 ε) (x₀ x₁)^(-1-ε) = Γ(-ε)² / Γ(-2 ε)` -/

/-- The polynomials `(x₀ + x₁)^(2 ε)` and `(x₀ x₁)^(-1-ε)`. -/
def exPolys : List (SPoly 2 ℝ (Poly 1 ℚ)) :=
  [⟨[(![1, 0], 1), (![0, 1], 1)], some ⟨[((fun _ => 1), 2)]⟩⟩, ⟨[(![1, 1], 1)], some ⟨[((fun _ => 0), -1), ((fun _ => 1), -1)]⟩⟩]

open Classical in
/-- Options without symmetries. -/
noncomputable def exOptions (order : ℤ) : Options where
  useIterativeSort := false
  useLightPak := false
  usePak := false
  goals := [-1]
  order := order
  hash := fun _ => 0
  val := fun c => if h : ∃ q : ℚ, c = q then some h.choose else none
  sortFuel := 0
  depth := 1
  fuel := 0

open Classical in
theorem ex_val (order : ℤ) (c : ℝ) (q : ℚ) : (exOptions order).val c = some q ↔ c = (q : ℝ) := by
  show (if h : ∃ q : ℚ, c = q then some h.choose else none) = some q ↔ _
  by_cases h : ∃ q : ℚ, c = q
  · rw [dif_pos h, Option.some.injEq]
    have := h.choose_spec
    constructor
    · intro e; rw [← e]; exact this
    · intro e; have h2 := this.symm.trans e; exact_mod_cast h2
  · rw [dif_neg h]
    exact ⟨fun h' => (by simp at h'), fun e => absurd ⟨q, e⟩ h⟩

/-- The initial sector. -/
noncomputable def exInit : Squash.Sector 2 ℝ (Poly 1 ℚ) := (mkSector exPolys []).getD ⟨(fun _ => 0, 1), [], []⟩
/-- The two sectors. -/
noncomputable def exSectors : List (Squash.Sector 1 ℝ (Poly 1 ℚ)) := primaryDecomposition exInit (List.finRange 2)

theorem ex_sectors (order : ℤ) : sectors (exOptions order) exPolys = some exSectors := by rfl

theorem ex_power : ∀ s ∈ exSectors, ∀ i, powerAtZero s i = -1 ∧ powerSlope s i = -1 := by decide +kernel

theorem ex_exponent1 (z : ℂ) : exponentAt ⟨[((fun _ => 1), 2)]⟩ z = 2 * z := by simp [exponentAt, polyValue, Poly.mono]
theorem ex_exponent2 (z : ℂ) : exponentAt ⟨[((fun _ => 0), -1), ((fun _ => 1), -1)]⟩ z = -z - 1 := by
  simp [exponentAt, polyValue, Poly.mono]; ring

theorem ex_integrand (z : ℂ) (x : Fin 2 → ℝ) : integrandAt exPolys z x = ((x 0 + x 1 : ℝ) : ℂ) ^ (2 * z) * ((x 0 * x 1 : ℝ) : ℂ) ^ (-z - 1) := by
  simp only [integrandAt, exPolys, List.map_cons, List.map_nil, List.prod_cons, List.prod_nil, mul_one, exponentOf, Option.getD_some,
    ex_exponent1, ex_exponent2]
  simp [SPoly.eval, Poly.eval, Poly.mono]

theorem ex_euclidean : Euclidean exPolys := by
  intro p hp
  simp only [exPolys, List.mem_cons, List.not_mem_nil, or_false] at hp
  rcases hp with rfl | rfl
  · refine ⟨by simp, ?_, ?_⟩
    · intro t ht
      simp only [List.mem_cons, List.not_mem_nil, or_false] at ht
      rcases ht with rfl | rfl <;> exact ⟨one_pos, by decide⟩
    · intro t ht
      simp only [exponentOf, Option.getD_some, List.mem_cons, List.not_mem_nil, or_false] at ht
      subst ht; right; rfl
  · refine ⟨by simp, ?_, ?_⟩
    · intro t ht
      simp only [List.mem_cons, List.not_mem_nil, or_false] at ht
      subst ht; exact ⟨one_pos, by decide⟩
    · intro t ht
      simp only [exponentOf, Option.getD_some, List.mem_cons, List.not_mem_nil, or_false] at ht
      rcases ht with rfl | rfl
      · left; rfl
      · right; rfl

theorem ex_clean : CleanPowers exPolys := by
  intro p hp h
  simp only [exPolys, List.mem_cons, List.not_mem_nil, or_false] at hp
  rcases hp with rfl | rfl
  · rfl
  · have := (h ((fun _ => 0), -1) (by simp [exponentOf])).2
    norm_num at this

theorem ex_noInteger : NoIntegerPowers exPolys := by
  intro p hp k h
  simp only [exPolys, List.mem_cons, List.not_mem_nil, or_false] at hp
  have hk : (0 : ℝ) ≤ k := Nat.cast_nonneg k
  rcases hp with rfl | rfl
  · simp only [exponentOf, Option.getD_some, ex_exponent1] at h
    have := congrArg Complex.re h
    simp at this
    linarith
  · simp only [exponentOf, Option.getD_some, ex_exponent2] at h
    have := congrArg Complex.re h
    simp at this
    linarith

theorem ex_projective (z : ℂ) : Projective (integrandAt exPolys z) := by
  intro c x hc hx
  rw [ex_integrand, ex_integrand]
  have e1 : (c * x 0 + c * x 1 : ℝ) = c * (x 0 + x 1) := by ring
  have e2 : (c * x 0 * (c * x 1) : ℝ) = c * (c * (x 0 * x 1)) := by ring
  have hc' : (c : ℂ) ≠ 0 := by exact_mod_cast hc.ne'
  have h1 : 0 < x 0 + x 1 := add_pos (hx 0) (hx 1)
  have h2 : 0 < x 0 * x 1 := mul_pos (hx 0) (hx 1)
  rw [e1, e2, Complex.ofReal_mul c (x 0 + x 1), Complex.ofReal_mul c (c * _), Complex.ofReal_mul c (x 0 * x 1),
    Complex.mul_cpow_ofReal_nonneg hc.le h1.le, ← Complex.ofReal_mul c (x 0 * x 1), Complex.mul_cpow_ofReal_nonneg hc.le (mul_pos hc h2).le,
    Complex.ofReal_mul c (x 0 * x 1), Complex.mul_cpow_ofReal_nonneg hc.le h2.le]
  have h3 : (c : ℂ) ^ (2 * z) * ((c : ℂ) ^ (-z - 1) * (c : ℂ) ^ (-z - 1)) = ((c : ℂ) ^ 2)⁻¹ := by
    rw [← Complex.cpow_add _ _ hc', ← Complex.cpow_add _ _ hc']
    rw [show 2 * z + (-z - 1 + (-z - 1)) = -(2 : ℕ) by push_cast; ring, Complex.cpow_neg, Complex.cpow_natCast]
  rw [Complex.real_smul]
  have h4 : (((c ^ (1 + 1))⁻¹ : ℝ) : ℂ) = ((c : ℂ) ^ 2)⁻¹ := by push_cast; rfl
  rw [h4, ← h3]
  ring

theorem ex_transfer (z : ℂ) : (DeltaIntegrable (integrandAt exPolys z) ↔
      MeasureTheory.IntegrableOn (fun t : ℝ => (t : ℂ) ^ (-z - 1) * (1 - (t : ℂ)) ^ (-z - 1)) (Ioo 0 1)) ∧
    deltaIntegral (integrandAt exPolys z) = ∫ t in Ioo (0 : ℝ) 1, (t : ℂ) ^ (-z - 1) * (1 - (t : ℂ)) ^ (-z - 1) := by
  have hmp := MeasureTheory.volume_preserving_funUnique (Fin 1) ℝ
  have hpre : (MeasurableEquiv.funUnique (Fin 1) ℝ) ⁻¹' Ioo 0 1 = Simplex 1 := by
    ext w
    simp [Simplex, MeasurableEquiv.funUnique]
  have hms : MeasurableSet (Simplex 1) := by
    rw [← hpre]; exact (MeasurableEquiv.measurable _) measurableSet_Ioo
  have hint := hmp.setIntegral_preimage_emb (MeasurableEquiv.measurableEmbedding _)
    (fun t : ℝ => (t : ℂ) ^ (-z - 1) * (1 - (t : ℂ)) ^ (-z - 1)) (Ioo 0 1)
  rw [hpre] at hint
  have heq : EqOn (fun w : Fin 1 → ℝ => integrandAt exPolys z (Fin.snoc w (1 - ∑ k, w k)))
      ((fun t : ℝ => (t : ℂ) ^ (-z - 1) * (1 - (t : ℂ)) ^ (-z - 1)) ∘ MeasurableEquiv.funUnique (Fin 1) ℝ) (Simplex 1) := by
    intro w hw
    have h0 : 0 < w 0 := hw.1 0
    have h1 : 0 < 1 - w 0 := by have := hw.2; simp at this; linarith
    have a0 : (Fin.snoc w (1 - ∑ k, w k) : Fin 2 → ℝ) 0 = w 0 := rfl
    have a1 : (Fin.snoc w (1 - ∑ k, w k) : Fin 2 → ℝ) 1 = 1 - w 0 := by
      have : (Fin.snoc w (1 - ∑ k, w k) : Fin 2 → ℝ) (Fin.last 1) = 1 - ∑ k, w k := Fin.snoc_last _ _
      simpa using this
    have a2 : MeasurableEquiv.funUnique (Fin 1) ℝ w = w 0 := rfl
    simp only [Function.comp, a2]
    rw [ex_integrand, a0, a1, show w 0 + (1 - w 0) = 1 by ring, Complex.ofReal_one, Complex.one_cpow, one_mul, Complex.ofReal_mul,
      Complex.mul_cpow_ofReal_nonneg h0.le h1.le, Complex.ofReal_sub, Complex.ofReal_one]
  constructor
  · unfold DeltaIntegrable
    rw [MeasureTheory.integrableOn_congr_fun heq hms, ← hpre]
    exact hmp.integrableOn_comp_preimage (MeasurableEquiv.measurableEmbedding _)
  · unfold deltaIntegral
    rw [← hint]
    exact MeasureTheory.setIntegral_congr_fun hms heq

theorem ex_continuation : Continuation exPolys {z | z.re < 0} fun z => Complex.Gamma (-z) ^ 2 * (Complex.Gamma (-(2 * z)))⁻¹ where
  isOpen := isOpen_lt Complex.continuous_re continuous_const
  nonempty := ⟨-1, by simp⟩
  convergent := by
    intro z hz
    have hz' : 0 < (-z).re := by simpa using hz
    rw [(ex_transfer z).1]
    have := Complex.betaIntegral_convergent hz' hz'
    rw [intervalIntegrable_iff_integrableOn_Ioo_of_le zero_le_one] at this
    exact this
  analytic := by
    refine ⟨range fun k : ℕ => (k : ℂ), countable_range _, ?_, ⟨1, one_pos, ?_⟩, ?_⟩
    · have := (Complex.isometry_ofReal.isClosedEmbedding.comp Nat.isClosedEmbedding_coe_real).isClosed_range
      have e : (Complex.ofReal ∘ fun k : ℕ => (k : ℝ)) = fun k : ℕ => (k : ℂ) := by funext k; simp
      rwa [e] at this
    · rintro z hz h0 ⟨k, rfl⟩
      rw [Complex.norm_natCast] at hz
      have : k = 0 := by
        have : k < 1 := by exact_mod_cast hz
        omega
      subst this
      simp at h0
    · intro z hz
      have h1 : DifferentiableAt ℂ Complex.Gamma (-z) := by
        refine Complex.differentiableAt_Gamma _ fun k hk => hz ⟨k, ?_⟩
        simpa using hk.symm
      have h2 : DifferentiableAt ℂ (fun z => Complex.Gamma (-z)) z := h1.comp z differentiableAt_id.neg
      have h3 : DifferentiableAt ℂ (fun z => (Complex.Gamma (-(2 * z)))⁻¹) z :=
        DifferentiableAt.comp (g := fun s => (Complex.Gamma s)⁻¹) (f := fun z => -(2 * z)) z
          (Complex.differentiable_one_div_Gamma.differentiableAt (x := -(2 * z))) (by fun_prop)
      exact ((h2.pow 2).mul h3).differentiableWithinAt
  eq := by
    intro z hz
    have hz' : 0 < (-z).re := by simpa using hz
    have h1 := Complex.Gamma_mul_Gamma_eq_betaIntegral hz' hz'
    have h2 : Complex.Gamma (-(2 * z)) ≠ 0 := Complex.Gamma_ne_zero_of_re_pos (by
      have : z.re < 0 := hz
      simp only [Complex.neg_re, Complex.mul_re, Complex.re_ofNat, Complex.im_ofNat, zero_mul, sub_zero]
      linarith)
    have h3 : deltaIntegral (integrandAt exPolys z) = Complex.betaIntegral (-z) (-z) := by
      rw [(ex_transfer z).2, Complex.betaIntegral, intervalIntegral.integral_of_le zero_le_one, MeasureTheory.integral_Ioc_eq_integral_Ioo]
    rw [h3]
    rw [sq, h1, show -z + -z = -(2 * z) by ring]
    field_simp

theorem iterative_decomposable {o : Options} (h : o.method = .iterative) (polys : List (SPoly (n + 1) ℝ (Poly 1 ℚ))) : Decomposable o polys := by
  unfold Decomposable DistinctMonomials NormalizCorrect
  rw [h]
  exact ⟨trivial, fun _ _ _ _ => trivial⟩

/-- The package for this integral is generated, and its coefficients are those of `Γ(-ε)² / Γ(-2 ε)`. -/
example (order : ℤ) : ∃ fuel results, package { exOptions order with fuel := fuel } exPolys = some results ∧
    ∀ P : ℤ, (∀ r ∈ results, r.2 ≤ P) → IsExpansion (fun z => Complex.Gamma (-z) ^ 2 * (Complex.Gamma (-(2 * z)))⁻¹) order
      ((sectorOrders order P).map fun k => (k, coefficient results order k)) := by
  obtain ⟨results, K, hK⟩ := C57_package_succeeds (o := exOptions order) ex_euclidean (iterative_decomposable rfl _) ex_clean (fun q => (ex_val order _ _).2 rfl)
    (fun c q => (ex_val order c q).1) rfl (ex_sectors order) fun s hs i _ => by rw [(ex_power s hs i).2]; norm_num
  refine ⟨K, results, hK K le_rfl, fun P hP => ?_⟩
  exact (C57_laurent_coefficients (o := { exOptions order with fuel := K }) ex_euclidean (iterative_decomposable rfl _) (fun c q => (ex_val order c q).1)
    ((ex_val order 0 0).2 (by simp)) (Or.inl ⟨ex_noInteger, ex_clean⟩) (fun z _ => ex_projective z) ex_continuation (hK K le_rfl)).2 P hP

example (order : ℤ) : ∃ J, Continuation exPolys {z | z.re < 0} J :=
  C57_continuation_exists ex_euclidean (iterative_decomposable rfl _) ex_continuation.isOpen ex_continuation.nonempty (fun z _ => ex_projective z) ex_continuation.convergent
    (ex_sectors order)

end Package
end SecDec
