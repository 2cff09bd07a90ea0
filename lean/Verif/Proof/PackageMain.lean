import Verif.Proof.PackageChain
import Mathlib.Analysis.Complex.RealDeriv
/-
The Laurent coefficients of the whole integral.
-/
namespace SecDec
namespace Package
open Squash Decomp Sector Expansion Set Subtraction Expr LeadingOrder AnalyticReg Filter Topology MeasureTheory
variable {n : ℕ} {Q : Poly 1 ℚ → Prop} {m : ℕ} {s : Squash.Sector n ℝ (Poly 1 ℚ)}

/-- The poles of a sector. -/
def poles (s : Squash.Sector n ℝ (Poly 1 ℚ)) : Set ℂ := {z | ∃ i, ∃ k : ℕ, β s z i + k + 1 = 0}

/-- The poles are isolated. -/
def Isolated (s : Squash.Sector n ℝ (Poly 1 ℚ)) : Prop := ∀ i, ∀ k : ℕ, β0 s i + k + 1 = 0 → β1 s i ≠ 0

theorem closed_neg : IsClosed (range fun k : ℕ => -(k : ℂ)) := by
  have h1 : IsClosed (range fun k : ℕ => ((k : ℝ) : ℂ)) := by
    have := (Complex.isometry_ofReal.isClosedEmbedding.comp Nat.isClosedEmbedding_coe_real).isClosed_range
    exact this
  have h2 : (range fun k : ℕ => -(k : ℂ)) = (fun z : ℂ => -z) ⁻¹' range fun k : ℕ => ((k : ℝ) : ℂ) := by
    ext z
    simp only [mem_range, mem_preimage, Complex.ofReal_natCast]
    exact ⟨fun ⟨k, h⟩ => ⟨k, by rw [← h, neg_neg]⟩, fun ⟨k, h⟩ => ⟨k, by rw [h, neg_neg]⟩⟩
  rw [h2]
  exact h1.preimage continuous_neg

theorem affine_of (h : Pos Q m s) (hQ : ∀ e, Q e → Affine e) : ∀ p ∈ s.cast, Affine (exponentOf p.poly) := fun p hp => hQ _ (h.exponent p hp)

theorem β_continuous (h : Pos Q m s) (hQ : ∀ e, Q e → Affine e) (i : Fin n) : Continuous fun z => β s z i := by
  have : (fun z => β s z i) = fun z => ((β0 s i : ℝ) : ℂ) + (β1 s i : ℂ) * z := funext fun z => β_eq (affine_of h hQ) z i
  rw [this]
  fun_prop

theorem poles_closed (h : Pos Q m s) (hQ : ∀ e, Q e → Affine e) : IsClosed (poles s) := by
  have : poles s = ⋃ i, (fun z => β s z i + 1) ⁻¹' range fun k : ℕ => -(k : ℂ) := by
    ext z
    simp only [poles, mem_ofPred_eq, mem_iUnion, mem_preimage, mem_range]
    refine exists_congr fun i => exists_congr fun k => ⟨fun h => ?_, fun h => ?_⟩
    · linear_combination -h
    · linear_combination -h
  rw [this]
  exact isClosed_iUnion_of_finite fun i => closed_neg.preimage ((β_continuous h hQ i).add continuous_const)

theorem poles_countable (h : Pos Q m s) (hQ : ∀ e, Q e → Affine e) (hi : Isolated s) : (poles s).Countable := by
  have : poles s = ⋃ i, ⋃ k : ℕ, {z | β s z i + k + 1 = 0} := by
    ext z; simp [poles]
  rw [this]
  refine countable_iUnion fun i => countable_iUnion fun k => Set.Subsingleton.countable fun z hz w hw => ?_
  have hz' : β s z i + k + 1 = 0 := hz
  have hw' : β s w i + k + 1 = 0 := hw
  rw [β_eq (affine_of h hQ)] at hz' hw'
  by_cases h1 : β1 s i = 0
  · exfalso
    refine hi i k ?_ h1
    rw [h1] at hz'
    simp only [Rat.cast_zero, zero_mul, add_zero] at hz'
    exact_mod_cast hz'
  · have h2 : (β1 s i : ℂ) ≠ 0 := by exact_mod_cast h1
    have h3 : (β1 s i : ℂ) * (z - w) = 0 := by linear_combination hz' - hw'
    rcases mul_eq_zero.1 h3 with h4 | h4
    · exact absurd h4 h2
    · exact sub_eq_zero.1 h4

theorem poles_zero (h : Pos Q m s) (hQ : ∀ e, Q e → Affine e) (hi : Isolated s) : ∀ᶠ z in 𝓝[≠] (0 : ℂ), z ∉ poles s := by
  have : ∀ i, ∀ᶠ z in 𝓝[≠] (0 : ℂ), ∀ k : ℕ, β s z i + k + 1 ≠ 0 := by
    intro i
    filter_upwards [powers_ne (β0 s i) (β1 s i) (hi i)] with z hz k
    rw [β_eq (affine_of h hQ)]
    exact hz k
  filter_upwards [eventually_all.2 this] with z hz hp
  obtain ⟨i, k, h0⟩ := hp
  exact hz i k h0

/-- The regulated value of a sector. -/
theorem sector_value (h : Pos Q m s) (hs : StandardForm (List.finRange n) s) (hQ : ∀ e, Q e → Affine e) :
    ∃ J : ℂ → ℂ, (∀ z ∉ poles s, Regulated (fun t => (∏ i, (t i : ℂ) ^ (β s z i)) * G s (fun i => (t i : ℂ)) z) (J z)) ∧
      DifferentiableOn ℂ J (poles s)ᶜ := by
  obtain ⟨J, h1, h2⟩ := regulated_analytic (G_ana h hs hQ) (fun i => ((β0 s i : ℝ) : ℂ)) (fun i => (β1 s i : ℂ))
  have hb : ∀ z i, ((β0 s i : ℝ) : ℂ) + (β1 s i : ℂ) * z = β s z i := fun z i => (β_eq (affine_of h hQ) z i).symm
  simp only [hb] at h1 h2
  refine ⟨J, fun z hz => h1 z fun i k h0 => hz ⟨i, k, h0⟩, fun z hz => (h2 z ?_).differentiableWithinAt⟩
  filter_upwards [(poles_closed h hQ).isOpen_compl.mem_nhds hz] with w hw i k h0
  exact hw ⟨i, k, h0⟩

theorem sector_convergent (h : Pos Q m s) (hs : StandardForm (List.finRange n) s) (hQ : ∀ e, Q e → Affine e) {z : ℂ}
    (hz : CubeIntegrable (Decomp.integrand (Fz z) s)) : (∀ i, -1 < (β s z i).re) ∧ z ∉ poles s ∧
      Regulated (fun t => (∏ i, (t i : ℂ) ^ (β s z i)) * G s (fun i => (t i : ℂ)) z) (cubeIntegral (Decomp.integrand (Fz z) s)) := by
  have heq : EqOn (Decomp.integrand (Fz z) s) (fun t => (∏ i, (t i : ℂ) ^ (β s z i)) * G s (fun i => (t i : ℂ)) z) (oc n) :=
    fun t ht => integrand_value h hs z fun i => (mem_oc.1 ht i).1
  have h1 : IntegrableOn (fun t : Fin n → ℝ => (∏ i, (t i : ℂ) ^ (β s z i)) * G s (fun i => (t i : ℂ)) z) (oc n) :=
    ((cubeIntegrable_iff _).1 hz).congr_fun heq measurableSet_oc
  have h2 : ∀ i, -1 < (β s z i).re := fun i => power_of_convergent (G_ana h hs hQ) (fun t ht => G_ne h hs z ht) h1 i
  refine ⟨h2, ?_, ?_⟩
  · rintro ⟨i, k, h0⟩
    have := congrArg Complex.re h0
    simp only [Complex.add_re, Complex.natCast_re, Complex.one_re, Complex.zero_re] at this
    have hk : (0 : ℝ) ≤ k := Nat.cast_nonneg k
    linarith [h2 i]
  · have h3 := regulated_convergent (G_ana h hs hQ) (mem_univ z) h2
    have h4 : cubeIntegral (Decomp.integrand (Fz z) s) = cubeIntegral fun t => (∏ i, (t i : ℂ) ^ (β s z i)) * G s (fun i => (t i : ℂ)) z := by
      rw [cubeIntegral_eq, cubeIntegral_eq]
      exact setIntegral_congr_fun measurableSet_oc heq
    rw [h4]; exact h3

theorem isolated_of_convergent (h : Pos Q m s) (hs : StandardForm (List.finRange n) s) (hQ : ∀ e, Q e → Affine e) {z : ℂ}
    (hz : CubeIntegrable (Decomp.integrand (Fz z) s)) : Isolated s := by
  intro i k h0 h1
  have h2 := (sector_convergent h hs hQ hz).1 i
  rw [β_eq (affine_of h hQ), h1] at h2
  simp only [Rat.cast_zero, zero_mul, add_zero, Complex.ofReal_re] at h2
  have h3 : ((β0 s i + k + 1 : ℚ) : ℝ) = 0 := by rw [h0]; simp
  push_cast at h3
  have hk : (0 : ℝ) ≤ k := Nat.cast_nonneg k
  linarith

theorem isExpansion_congr {f g : ℂ → ℂ} {o : ℤ} {l : List (ℤ × ℂ)} (h : f =ᶠ[𝓝[≠] 0] g) (hf : IsExpansion f o l) : IsExpansion g o l := by
  refine ⟨hf.1, hf.2.1, hf.2.2.congr' ?_ EventuallyEq.rfl⟩
  filter_upwards [h] with z hz
  rw [hz]

/-- The expansion of one sector. -/
theorem sector_expansion (h : Pos Q m s) (hs : StandardForm (List.finRange n) s) (hQ : ∀ e, Q e → Affine e) (hi : Isolated s) {o : Options}
    (hval : ∀ c q, o.val c = some q → c = (q : ℝ)) (hv0 : o.val 0 = some 0)
    (hg : ((∀ e, Q e → ∀ k : ℕ, exponentAt e 0 ≠ (k : ℂ) + 1) ∧
        ∀ e, Q e → (∀ t ∈ e.terms, t.1 = (fun _ => 0) ∧ t.2 = 1) → e.terms.length = 1) ∨
      ∀ g ∈ o.goals.zip (List.finRange n), g.1 ≤ powerAtZero s g.2)
    {r : List (Summand (n + 1) ℝ) × ℤ} (hr : processOne o s = some r) {J : ℂ → ℂ}
    (hJ : ∀ z ∉ poles s, Regulated (fun t => (∏ i, (t i : ℂ) ^ (β s z i)) * G s (fun i => (t i : ℂ)) z) (J z)) :
    -r.2 ≤ o.order ∧ (∀ k, CubeIntegrable (orderIntegrand φr r.1 k)) ∧
      IsExpansion J o.order ((sectorOrders o.order r.2).map fun k => (k, cubeIntegral (orderIntegrand φr r.1 k))) := by
  unfold processOne at hr
  split at hr
  swap
  · cases hr
  rename_i l p hp
  simp only [Option.some.injEq] at hr
  subst hr
  have hval' : ∀ c q, o.val c = some q → φr c = (q : ℂ) := by
    intro c q hc
    rw [hval c q hc]
    simp
  have hpow : ∀ z i, power φr (fun _ : Fin 1 => z) (initializer s) i = β s z i := fun z i => init_power z i
  have hA0 : ∀ i, -1 < (β s 0 i).re + ((if i ∈ List.finRange n ∧ β0 s i < 0 then ⌊-(β0 s i)⌋.toNat else 0 : ℕ) : ℝ) := by
    intro i
    rw [β_eq (affine_of h hQ)]
    simp only [mul_zero, add_zero, Complex.ofReal_re, List.mem_finRange, true_and]
    split_ifs with hc
    · have h1 : (0 : ℤ) ≤ ⌊-(β0 s i)⌋ := Int.floor_nonneg.2 (by linarith)
      have h2 := Int.lt_floor_add_one (-(β0 s i))
      have h3 : ((⌊-(β0 s i)⌋.toNat : ℕ) : ℝ) = ((⌊-(β0 s i)⌋ : ℤ) : ℝ) := by
        have : ((⌊-(β0 s i)⌋.toNat : ℕ) : ℤ) = ⌊-(β0 s i)⌋ := Int.toNat_of_nonneg h1
        exact_mod_cast this
      rw [h3]
      have h4 : ((-(β0 s i) : ℚ) : ℝ) < ((⌊-(β0 s i)⌋ + 1 : ℚ) : ℝ) := by exact_mod_cast h2
      push_cast at h4
      linarith
    · have : (0 : ℝ) ≤ (β0 s i : ℝ) := by exact_mod_cast not_lt.1 hc
      simp only [Nat.cast_zero, add_zero]
      linarith
  have hA : ∀ᶠ z in 𝓝 (0 : ℂ), ∀ i, -1 < (β s z i).re + ((if i ∈ List.finRange n ∧ β0 s i < 0 then ⌊-(β0 s i)⌋.toNat else 0 : ℕ) : ℝ) := by
    rw [eventually_all]
    intro i
    have : ContinuousAt (fun z => (β s z i).re + ((if i ∈ List.finRange n ∧ β0 s i < 0 then ⌊-(β0 s i)⌋.toNat else 0 : ℕ) : ℝ)) 0 :=
      (Complex.continuous_re.comp (β_continuous h hQ i)).continuousAt.add continuousAt_const
    exact this.eventually_const_lt (hA0 i)
  obtain ⟨U, hU, hUo, h0U⟩ := _root_.eventually_nhds_iff.1 (hA.and (eventually_nhdsWithin_iff.1 (poles_zero h hQ hi)))
  have hWo : IsOpen (U \ {0}) := hUo.sdiff isClosed_singleton
  have hW0 : U \ {0} ∈ 𝓝[≠] (0 : ℂ) := sdiff_mem_nhdsWithin_compl (hUo.mem_nhds h0U) {0}
  have hsub : insert (0 : ℂ) (U \ {0}) ⊆ U := by
    rintro z (rfl | hz)
    · exact h0U
    · exact hz.1
  have ha : ∀ i ∈ List.finRange n, power φr (fun _ => 0) (initializer s) i = ((β0 s i : ℚ) : ℂ) := by
    intro i _
    rw [hpow, β_eq (affine_of h hQ)]
    simp
  have hden : ∀ z ∈ U \ {0}, ∀ i ∈ List.finRange n, ∀ p : ℕ, power φr (fun _ => z) (initializer s) i + p + 1 ≠ 0 := by
    intro z hz i _ p h0
    rw [hpow] at h0
    exact (hU z hz.1).2 hz.2 ⟨i, p, h0⟩
  have hpole : ∀ z ∈ U \ {0}, poleDenominator φr (fun _ => z) (initializer s) ≠ 0 := by
    intro z _
    rw [init_pole]; exact one_ne_zero
  have hA' : ∀ z ∈ insert (0 : ℂ) (U \ {0}), ∀ i, -1 < (power φr (fun _ => z) (initializer s) i).re +
      ((if i ∈ List.finRange n ∧ β0 s i < 0 then ⌊-(β0 s i)⌋.toNat else 0 : ℕ) : ℝ) := by
    intro z hz i
    rw [hpow]
    exact (hU z (hsub hz)).1 i
  have key : ∃ (p' : ℤ) (J' : ℂ → ℂ), [p] = [p'] ∧ -p' ≤ o.order ∧ (∀ k, CubeIntegrable (orderIntegrand φr l k)) ∧
      (∀ z ∈ U \ {0}, Regulated (value φr (fun _ => z) (initializer s)) (J' z)) ∧
      IsExpansion J' o.order ((sectorOrders o.order p').map (fun k => (k, cubeIntegral (orderIntegrand φr l k)))) := by
    rcases hg with ⟨hg1, hg2⟩ | hg
    · exact SectorExp.C46_sector_by_parts_regulated hval' hv0 (init_wf h hQ) (init_clean h hg2) hWo hW0 (fun z _ => init_smooth0 h hs hQ hg1 z)
        (β0 s) ha hden hpole hA' hp
    · exact SectorExp.C46_sector_regulated hval' hv0 (init_wf h hQ) hWo hW0 (fun z _ => init_smooth h hs hQ z) (β0 s) ha hg hden hpole hA' hp
  obtain ⟨p', J', e, k1, k2, k3, k4⟩ := key
  simp only [List.cons.injEq, and_true] at e
  subst e
  refine ⟨k1, k2, isExpansion_congr ?_ k4⟩
  filter_upwards [hW0] with z hz
  have h1 := regulated_congr (fun t ht => init_value h hQ z fun i => (mem_oc.1 ht i).1) (k3 z hz)
  exact regulated_unique h1 (hJ z ((hU z hz.1).2 hz.2))

/-! ### sums over the sectors -/

theorem sectorOrders_mem {o p k : ℤ} : k ∈ sectorOrders o p ↔ -p ≤ k ∧ k ≤ o := by
  unfold sectorOrders
  simp only [List.mem_map, List.mem_range]
  constructor
  · rintro ⟨j, hj, rfl⟩; omega
  · rintro ⟨h1, h2⟩; exact ⟨(k + p).toNat, by omega, by omega⟩

theorem sectorOrders_pairwise (o p : ℤ) : (sectorOrders o p).Pairwise (· < ·) := by
  unfold sectorOrders
  rw [List.pairwise_map]
  refine List.pairwise_lt_range.imp ?_
  intro a b h
  omega

theorem sectorOrders_nodup (o p : ℤ) : (sectorOrders o p).Nodup := (sectorOrders_pairwise o p).imp fun h => h.ne

theorem expansion_list {o : ℤ} {P : ℤ} (l : List ((ℂ → ℂ) × ℤ × (ℤ → ℂ))) (hP : ∀ x ∈ l, x.2.1 ≤ P)
    (h : ∀ x ∈ l, IsExpansion x.1 o ((sectorOrders o x.2.1).map fun k => (k, x.2.2 k))) :
    IsExpansion (fun z => (l.map fun x => x.1 z).sum) o ((sectorOrders o P).map fun k =>
      (k, (l.map fun x => if k ∈ sectorOrders o x.2.1 then x.2.2 k else 0).sum)) := by
  refine ⟨?_, ?_, ?_⟩
  · rw [List.map_map]
    have : (Prod.fst ∘ fun k : ℤ => (k, (l.map fun x => if k ∈ sectorOrders o x.2.1 then x.2.2 k else 0).sum)) = id := rfl
    rw [this, List.map_id]
    exact sectorOrders_pairwise o P
  · intro t ht
    obtain ⟨k, hk, rfl⟩ := List.mem_map.1 ht
    exact (sectorOrders_mem.1 hk).2
  · simp only [List.map_map, Function.comp_def]
    induction l with
    | nil => simpa using Asymptotics.isBigO_zero _ _
    | cons x l ih =>
      have h1 := (h x (by simp)).2.2
      have h2 := ih (fun y hy => hP y (by simp [hy])) fun y hy => h y (by simp [hy])
      refine (h1.add h2).congr_left fun z => ?_
      simp only [List.map_cons, List.sum_cons, List.map_map, Function.comp_def]
      have e : ((sectorOrders o P).map fun k => ((if k ∈ sectorOrders o x.2.1 then x.2.2 k else 0) +
          (l.map fun x => if k ∈ sectorOrders o x.2.1 then x.2.2 k else 0).sum) * z ^ k).sum =
          ((sectorOrders o x.2.1).map fun k => x.2.2 k * z ^ k).sum +
          ((sectorOrders o P).map fun k => (l.map fun x => if k ∈ sectorOrders o x.2.1 then x.2.2 k else 0).sum * z ^ k).sum := by
        simp only [add_mul]
        rw [List.sum_map_add]
        congr 1
        rw [← List.sum_toFinset _ (sectorOrders_nodup o P), ← List.sum_toFinset _ (sectorOrders_nodup o x.2.1)]
        rw [← Finset.sum_subset (s₁ := (sectorOrders o x.2.1).toFinset)]
        · refine Finset.sum_congr rfl fun k hk => ?_
          rw [if_pos (List.mem_toFinset.1 hk)]
        · intro k hk
          rw [List.mem_toFinset, sectorOrders_mem] at hk ⊢
          have := hP x (by simp)
          omega
        · intro k _ hk
          rw [if_neg fun h => hk (List.mem_toFinset.2 h), zero_mul]
      rw [e]
      ring

theorem zipWith_left {α β γ : Type} (f : α → β → γ) (g : α → γ) : ∀ (l : List α) (l' : List β), (∀ a b, f a b = g a) → l.length = l'.length →
    List.zipWith f l l' = l.map g
  | [], [], _, _ => rfl
  | a :: l, b :: l', h, hl => by simp [h, zipWith_left f g l l' h (by simpa using hl)]

theorem zipWith_right {α β γ : Type} (f : α → β → γ) (g : β → γ) : ∀ (l : List α) (l' : List β), (∀ a b, f a b = g b) → l.length = l'.length →
    List.zipWith f l l' = l'.map g
  | [], [], _, _ => rfl
  | a :: l, b :: l', h, hl => by simp [h, zipWith_right f g l l' h (by simpa using hl)]

theorem mem_zipWith {α β γ : Type} {R : α → β → Prop} {f : α → β → γ} {l : List α} {l' : List β} (h : List.Forall₂ R l l') {x : γ}
    (hx : x ∈ List.zipWith f l l') : ∃ a b, a ∈ l ∧ b ∈ l' ∧ R a b ∧ f a b = x := by
  induction h with
  | nil => simp at hx
  | @cons a b l l' hab _ ih =>
    rw [List.zipWith_cons_cons, List.mem_cons] at hx
    rcases hx with rfl | hx
    · exact ⟨a, b, by simp, by simp, hab, rfl⟩
    · obtain ⟨c, d, hc, hd, hr, e⟩ := ih hx
      exact ⟨c, d, by simp [hc], by simp [hd], hr, e⟩

/-- Two functions which are analytic up to a closed countable set and agree on a nonempty open set. -/
theorem eq_of_open {V E : Set ℂ} (hV : IsOpen V) (hne : V.Nonempty) (hE : E.Countable) (hEc : IsClosed E) {f g : ℂ → ℂ}
    (hf : DifferentiableOn ℂ f Eᶜ) (hg : DifferentiableOn ℂ g Eᶜ) (h : ∀ z ∈ V, z ∉ E → f z = g z) : EqOn f g Eᶜ := by
  have hop : IsOpen Eᶜ := hEc.isOpen_compl
  have hcon : IsPreconnected Eᶜ := (hE.isPathConnected_compl_of_one_lt_rank (by simp)).isConnected.isPreconnected
  obtain ⟨z0, hz0, hz0'⟩ : (V ∩ Eᶜ).Nonempty := (hE.dense_compl ℂ).inter_open_nonempty _ hV hne
  refine (hf.analyticOnNhd hop).eqOn_of_preconnected_of_eventuallyEq (hg.analyticOnNhd hop) hcon hz0' ?_
  filter_upwards [hV.mem_nhds hz0, hop.mem_nhds hz0'] with z h1 h2
  exact h z h1 h2

/-- The sum of the regulated values of the sectors. -/
theorem sum_continuation {ss : List (Squash.Sector n ℝ (Poly 1 ℚ))} (hQ : ∀ e, Q e → Affine e)
    (hss : ∀ s ∈ ss, Pos Q m s ∧ StandardForm (List.finRange n) s) (Js : Squash.Sector n ℝ (Poly 1 ℚ) → ℂ → ℂ)
    (hJs : ∀ s ∈ ss, (∀ z ∉ poles s, Regulated (fun t => (∏ i, (t i : ℂ) ^ (β s z i)) * G s (fun i => (t i : ℂ)) z) (Js s z)) ∧
      DifferentiableOn ℂ (Js s) (poles s)ᶜ) (hi : ∀ s ∈ ss, Isolated s) :
    ∃ E : Set ℂ, E.Countable ∧ IsClosed E ∧ (∀ᶠ z in 𝓝[≠] (0 : ℂ), z ∉ E) ∧ DifferentiableOn ℂ (fun z => (ss.map fun s => Js s z).sum) Eᶜ ∧
      ∀ z, (∀ s ∈ ss, CubeIntegrable (Decomp.integrand (Fz z) s)) →
        z ∉ E ∧ (ss.map fun s => Js s z).sum = (ss.map fun s => cubeIntegral (Decomp.integrand (Fz z) s)).sum := by
  induction ss with
  | nil => exact ⟨∅, countable_empty, isClosed_empty, by simp, by simp, by simp⟩
  | cons s ss ih =>
    obtain ⟨E, h1, h2, h3, h4, h5⟩ := ih (fun t ht => hss t (by simp [ht])) (fun t ht => hJs t (by simp [ht])) fun t ht => hi t (by simp [ht])
    have hp := (hss s (by simp)).1
    have hst := (hss s (by simp)).2
    refine ⟨poles s ∪ E, (poles_countable hp hQ (hi s (by simp))).union h1, (poles_closed hp hQ).union h2, ?_, ?_, ?_⟩
    · filter_upwards [h3, poles_zero hp hQ (hi s (by simp))] with z a b hz
      exact hz.elim b a
    · simp only [List.map_cons, List.sum_cons]
      refine DifferentiableOn.add ((hJs s (by simp)).2.mono ?_) (h4.mono ?_)
      · exact fun z hz h => hz (Or.inl h)
      · exact fun z hz h => hz (Or.inr h)
    · intro z hz
      obtain ⟨a, b⟩ := h5 z fun t ht => hz t (by simp [ht])
      obtain ⟨c1, c2, c3⟩ := sector_convergent hp hst hQ (hz s (by simp))
      refine ⟨fun h => h.elim c2 a, ?_⟩
      simp only [List.map_cons, List.sum_cons]
      rw [b, regulated_unique ((hJs s (by simp)).1 z c2) c3]

end Package
end SecDec
