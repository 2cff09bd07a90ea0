import Verif.Proof.Amplitude
import Verif.Props.Package
import Verif.Props.LoopPackage
import Verif.Props.Orders
set_option linter.unusedSectionVars false
/-
C59: the amplitudes reported by `disteval` are the Laurent expansions of the sums coefficient * prefactor * integral.
-/
namespace SecDec
namespace Amplitude
open Orders Sector Package Filter Topology Asymptotics Squash Decomp
variable {κ : Type} [DecidableEq κ] [Fintype κ]

theorem lowest_min {l : List (ℤ × ℂ)} {m : ℤ} (h : Lowest l m) : minAxis0 ((l.map tuple).map (·.1)) = some (fun _ => m) := by
  obtain ⟨⟨t, ht, rfl⟩, h2⟩ := h
  have hne : (l.map tuple).map (·.1) ≠ [] := by
    intro h
    simp only [List.map_eq_nil_iff] at h
    rw [h] at ht
    simp at ht
  obtain ⟨x, hx⟩ := minAxis0_isSome _ hne
  obtain ⟨a1, a2⟩ := minAxis0_spec _ _ hx
  rw [hx, Option.some.injEq]
  funext i
  obtain rfl : i = 0 := Subsingleton.elim _ _
  obtain ⟨y, hy, hy'⟩ := a2 0
  simp only [List.map_map, List.mem_map, Function.comp_apply] at hy
  obtain ⟨u, hu, rfl⟩ := hy
  refine le_antisymm (a1 _ (List.mem_map_of_mem (List.mem_map_of_mem ht)) 0) ?_
  rw [← hy']
  exact h2 u hu

/-- The orders of the kernels of a package, and their sums. -/
theorem kernels_spec {kernel : ℕ → ℤ → κ} {val : κ → ℂ} {g : Generated} {J : ℂ → ℂ} (hne : g.results ≠ []) (hJ : Computes g J) (hv : Values kernel val g) :
    ∃ kl : Ord 1, minAxis0 ((g.info kernel).orders.map (·.1)) = some kl ∧
      maxAxis0 ((g.info kernel).orders.map (·.1)) = some (fun _ => g.requested - g.prefLead) ∧ g.lowest ≤ kl 0 ∧ kl 0 ≤ g.requested - g.prefLead ∧
      (fun z => J z - kval val (g.info kernel).orders z) =O[𝓝[≠] 0] fun z : ℂ => z ^ (g.requested - g.prefLead + 1) := by
  have hkeys := fun key => kernelsFrom_keys kernel (requiredOrder g.requested g.prefLead) key 1 g.results []
  simp only [List.map_nil, List.not_mem_nil, false_or] at hkeys
  obtain ⟨r0, hr0⟩ := List.exists_mem_of_ne_nil _ hne
  have htop : (fun _ => g.requested - g.prefLead : Ord 1) ∈ (g.info kernel).orders.map (·.1) := by
    refine (hkeys _).2 ⟨r0, hr0, g.requested - g.prefLead, sectorOrders_mem.2 ⟨hJ.1 r0 hr0, le_rfl⟩, rfl⟩
  have hne' : (g.info kernel).orders.map (·.1) ≠ [] := List.ne_nil_of_mem htop
  obtain ⟨kl, hkl⟩ := minAxis0_isSome _ hne'
  obtain ⟨kh, hkh⟩ := maxAxis0_isSome _ hne'
  obtain ⟨a1, a2⟩ := minAxis0_spec _ _ hkl
  obtain ⟨b1, b2⟩ := maxAxis0_spec _ _ hkh
  refine ⟨kl, hkl, ?_, ?_, a1 _ htop 0, ?_⟩
  · rw [hkh, Option.some.injEq]
    funext i
    obtain rfl : i = 0 := Subsingleton.elim _ _
    refine le_antisymm ?_ (b1 _ htop 0)
    obtain ⟨x, hx, hx'⟩ := b2 0
    obtain ⟨r, -, k, hk, rfl⟩ := (hkeys x).1 hx
    rw [← hx']
    exact (sectorOrders_mem.1 hk).2
  · obtain ⟨x, hx, hx'⟩ := a2 0
    obtain ⟨r, hr, k, hk, rfl⟩ := (hkeys x).1 hx
    rw [← hx']
    exact ((lowest_le g.results g.requested).2 r hr).trans (sectorOrders_mem.1 hk).1
  · obtain ⟨P, hP⟩ : ∃ P : ℤ, ∀ r ∈ g.results, r.2 ≤ P := by
      refine ⟨-(g.lowest), fun r hr => ?_⟩
      have := (lowest_le g.results g.requested).2 r hr
      unfold Generated.lowest
      omega
    refine (hJ.2 P hP).2.2.congr_left fun z => ?_
    congr 1
    have hs := kernelsFrom_sum kernel val (fun k => z ^ (k 0)) (requiredOrder g.requested g.prefLead)
      (fun (r : List (Summand (g.n + 1) ℝ)) k => cubeIntegral (orderIntegrand Complex.ofRealHom r k)) 1 g.results [] (fun j r hj k hk => by
        rw [add_comm]; exact hv j r hj k hk)
    unfold kval Generated.info
    rw [hs, List.map_nil, List.sum_nil, zero_add, List.map_map]
    simp only [Function.comp_def]
    unfold Package.coefficient
    have gen : ∀ l : List (List (Summand (g.n + 1) ℝ) × ℤ), (∀ r ∈ l, r.2 ≤ P) →
        ((sectorOrders (g.requested - g.prefLead) P).map fun k => (l.map fun r => if k ∈ sectorOrders (g.requested - g.prefLead) r.2 then
          cubeIntegral (orderIntegrand Complex.ofRealHom r.1 k) else 0).sum * z ^ k).sum =
        (l.map fun r => ((sectorOrders (g.requested - g.prefLead) r.2).map fun k => z ^ k * cubeIntegral (orderIntegrand Complex.ofRealHom r.1 k)).sum).sum := by
      intro l hl
      induction l with
      | nil => simp
      | cons r l ih =>
        simp only [List.map_cons, List.sum_cons, add_mul]
        rw [List.sum_map_add, ih fun x hx => hl x (by simp [hx])]
        congr 1
        rw [← List.sum_toFinset _ (sectorOrders_nodup _ P), ← List.sum_toFinset _ (sectorOrders_nodup _ r.2)]
        rw [← Finset.sum_subset (s₁ := (sectorOrders (g.requested - g.prefLead) r.2).toFinset)]
        · refine Finset.sum_congr rfl fun k hk => ?_
          rw [if_pos (List.mem_toFinset.1 hk), mul_comm]
        · intro k hk
          rw [List.mem_toFinset, sectorOrders_mem] at hk ⊢
          have := hl r (by simp)
          omega
        · intro k _ hk
          rw [if_neg fun h => hk (List.mem_toFinset.2 h), zero_mul]
    exact gen g.results hP

theorem kval_isBigO {val : κ → ℂ} {orders : List (Ord 1 × List κ)} {kl : Ord 1} (h : minAxis0 (orders.map (·.1)) = some kl) :
    kval val orders =O[𝓝[≠] 0] fun z : ℂ => z ^ (kl 0) := by
  unfold kval
  refine list_isBigO orders (fun o z => z ^ (o.1 0) * (o.2.map val).sum) _ fun o ho => ?_
  have := (minAxis0_spec _ _ h).1 _ (List.mem_map_of_mem ho) 0
  exact ((Expansion.zpow_isBigO this).const_mul_left (o.2.map val).sum).congr_left fun z => mul_comm _ _

theorem evalL_answer (l : List (ℤ × ℂ)) (z : ℂ) : evalL (answer l) z = evalL l z := by
  unfold answer
  split_ifs with h
  · rw [h]; simp [evalL]
  · rfl

/-- One term. -/
theorem term_near {tab : Table 1 κ ℂ} {kernel : ℕ → ℤ → κ} {val : κ → ℂ} {g : Generated} {J Pf C : ℂ → ℂ} {rq : ℤ} {t : AmpTerm} (hne : g.results ≠ [])
    (hJ : Computes g J) (hv : Values kernel val g) (hP : Expanded Pf g.prefOrder g.pref) (hl : Lowest g.pref g.prefLead)
    (hC : ∃ h, coefOrd (g.info kernel) (fun _ => rq) = some h ∧ Expanded C (h 0) t.coef ∧ ∀ s ∈ t.coef, t.lead ≤ s.1) (hrq : rq - t.lead ≤ g.requested) :
    ∃ tab', splitIntegral tab t.amp (g.info kernel) ((answer t.coef).map tuple) (fun _ => rq) = some tab' ∧
      ∃ R : ℂ → ℂ, (∀ z a, tabSum val (fun k => z ^ k) a tab' = tabSum val (fun k => z ^ k) a tab + if t.amp = a then R z else 0) ∧
        (fun z => C z * Pf z * J z - R z) =O[𝓝[≠] 0] fun z : ℂ => z ^ (rq + 1) := by
  obtain ⟨kl, k1, k2, k3, k4, k5⟩ := kernels_spec hne hJ hv
  have p1 := lowest_min hl
  have hans : ∃ cl, minAxis0 (((answer t.coef).map tuple).map (·.1)) = some cl := by
    refine minAxis0_isSome _ ?_
    simp only [ne_eq, List.map_eq_nil_iff]
    unfold answer
    split_ifs with h
    · simp
    · exact h
  obtain ⟨cl, c1⟩ := hans
  obtain ⟨h, hh, hC1, hC2⟩ := hC
  have hh' : h 0 = -kl 0 - g.prefLead + rq := by
    simp only [coefOrd, k1] at hh
    rw [show minAxis0 ((g.info kernel).pref.map (·.1)) = _ from p1] at hh
    simp only [Option.some.injEq] at hh
    rw [← hh]
    rfl
  have hsp : ∃ tab', splitIntegral tab t.amp (g.info kernel) ((answer t.coef).map tuple) (fun _ => rq) = some tab' := by
    unfold splitIntegral
    rw [show minAxis0 ((g.info kernel).pref.map (·.1)) = _ from p1, c1, k1, k2]
    exact ⟨_, rfl⟩
  obtain ⟨tab', htab⟩ := hsp
  refine ⟨tab', htab, ?_⟩
  have hmh : (∀ u ∈ answer t.coef, u.2 = 0) ∨ rq ≤ g.prefLead + cl 0 + (g.requested - g.prefLead) := by
    by_cases he : t.coef = []
    · left
      intro u hu
      unfold answer at hu
      rw [if_pos he] at hu
      rw [List.mem_singleton.1 hu]
    · right
      obtain ⟨x, hx, hx'⟩ := (minAxis0_spec _ _ c1).2 0
      unfold answer at hx
      rw [if_neg he] at hx
      simp only [List.map_map, List.mem_map, Function.comp_apply] at hx
      obtain ⟨u, hu, rfl⟩ := hx
      have := hC2 u hu
      have e : u.1 = cl 0 := hx'
      omega
  obtain ⟨R, hR, hO⟩ := split_near (pl := fun _ => g.prefLead) (kh := fun _ => g.requested - g.prefLead) val p1 c1 k1 k2 hmh htab
  refine ⟨R, hR, ?_⟩
  have hpl : g.prefLead ≤ g.prefOrder := by
    obtain ⟨⟨u, hu, e⟩, -⟩ := hl
    rw [← e]
    exact hP.2.1 u hu
  have hlow : g.lowest ≤ kl 0 := k3
  have tri := triple_isBigO (P := Pf) (C := C) (J := J) (p := evalL g.pref) (c := evalL (answer t.coef)) (k := kval val (g.info kernel).orders) (pl := g.prefLead) (cl := t.lead) (kl := kl 0)
    (hP := g.prefOrder) (hC := h 0) (hK := g.requested - g.prefLead) (rq := rq)
    (evalL_isBigO fun u hu => Or.inr (hl.2 u hu)) (by
      have : evalL t.coef =O[𝓝[≠] 0] fun z : ℂ => z ^ t.lead := evalL_isBigO fun u hu => Or.inr (hC2 u hu)
      exact this.congr_left fun z => (evalL_answer _ _).symm) (kval_isBigO k1) hP.2.2
    (hC1.2.2.congr_left fun z => by rw [evalL_answer]; rfl) k5 (by omega) (by omega) (by omega) (by omega)
    (by unfold Generated.prefOrder; omega)
  refine (tri.add hO).congr_left fun z => ?_
  ring

theorem terms_near {kernel : ℕ → ℕ → ℤ → κ} {val : κ → ℂ} {gens : ℕ → Generated} {J Pf : ℕ → ℂ → ℂ} {C : AmpTerm → ℂ → ℂ} {rq : ℤ} : ∀ (terms : List AmpTerm) (tab : Table 1 κ ℂ),
    (∀ t ∈ terms, (gens t.int).results ≠ [] ∧ Computes (gens t.int) (J t.int) ∧ Values (kernel t.int) val (gens t.int) ∧
      Expanded (Pf t.int) (gens t.int).prefOrder (gens t.int).pref ∧ Lowest (gens t.int).pref (gens t.int).prefLead ∧
      (∃ h, coefOrd ((gens t.int).info (kernel t.int)) (fun _ => rq) = some h ∧ Expanded (C t) (h 0) t.coef ∧ ∀ s ∈ t.coef, t.lead ≤ s.1) ∧
      rq - t.lead ≤ (gens t.int).requested) →
    ∃ tab', (terms.map fun t => (t.amp, (gens t.int).info (kernel t.int), (answer t.coef).map tuple)).foldlM
        (fun tab t => splitIntegral tab t.1 t.2.1 t.2.2 (fun _ => rq)) tab = some tab' ∧
      ∀ a, (fun z => ((terms.filter fun t => t.amp = a).map fun t => C t z * Pf t.int z * J t.int z).sum -
        (tabSum val (fun k => z ^ k) a tab' - tabSum val (fun k => z ^ k) a tab)) =O[𝓝[≠] 0] fun z : ℂ => z ^ (rq + 1)
  | [], tab, _ => ⟨tab, rfl, fun a => by simpa using isBigO_zero _ _⟩
  | t :: terms, tab, h => by
    obtain ⟨h1, h2, h3, h4, h5, h6, h7⟩ := h t (by simp)
    obtain ⟨tab1, s1, R, r1, r2⟩ := term_near (tab := tab) h1 h2 h3 h4 h5 h6 h7
    obtain ⟨tab', s2, r3⟩ := terms_near terms tab1 fun u hu => h u (by simp [hu])
    refine ⟨tab', ?_, fun a => ?_⟩
    · rw [List.map_cons, List.foldlM_cons, Option.bind_eq_bind, Option.bind_eq_some_iff]
      exact ⟨tab1, s1, s2⟩
    · by_cases ha : t.amp = a
      · refine (r2.add (r3 a)).congr_left fun z => ?_
        rw [List.filter_cons_of_pos (by simpa using ha), List.map_cons, List.sum_cons, r1 z a, if_pos ha]
        ring
      · refine (r3 a).congr_left fun z => ?_
        rw [List.filter_cons_of_neg (by simpa using ha), r1 z a, if_neg ha, add_zero]

/-- C59: the report for a sum of integrals.  If the package of each integral is generated for the orders which `sum_package` requests, its sectors add up
to the expansion of the integral (`Computes`), its prefactor is expanded up to the orders which `make_package` requires, the coefficients are
expanded up to the orders which `disteval` requires, and the kernels have exact values, then the evaluation does not fail, and the report for each amplitude is the
Laurent expansion of the sum of the products coefficient * prefactor * integral, up to and including the requested order. -/
theorem C59_amplitude_laurent {kernel : ℕ → ℕ → ℤ → κ} {val : κ → ℂ} {gens : ℕ → Generated} {J Pf : ℕ → ℂ → ℂ} {C : AmpTerm → ℂ → ℂ} {rq : ℤ} {terms : List AmpTerm}
    (hne : ∀ t ∈ terms, (gens t.int).results ≠ []) (hJ : ∀ t ∈ terms, Computes (gens t.int) (J t.int)) (hv : ∀ t ∈ terms, Values (kernel t.int) val (gens t.int))
    (hP : ∀ t ∈ terms, Expanded (Pf t.int) (gens t.int).prefOrder (gens t.int).pref ∧ Lowest (gens t.int).pref (gens t.int).prefLead)
    (hC : ∀ t ∈ terms, ∃ h, coefOrd ((gens t.int).info (kernel t.int)) (fun _ => rq) = some h ∧ Expanded (C t) (h 0) t.coef ∧ ∀ s ∈ t.coef, t.lead ≤ s.1)
    (hrq : ∀ t ∈ terms, requestedOf rq terms t.int = some fun _ => (gens t.int).requested) :
    ∃ tab, evaluate kernel gens rq terms = some tab ∧ ∀ a, Expansion.IsExpansion
      (fun z => ((terms.filter fun t => t.amp = a).map fun t => C t z * Pf t.int z * J t.int z).sum) rq (report tab val a) := by
  have hlead : ∀ t ∈ terms, rq - t.lead ≤ (gens t.int).requested := by
    intro t ht
    have := hrq t ht
    unfold requestedOf packageOrders at this
    rw [Option.map_eq_some_iff] at this
    obtain ⟨m, hm, e⟩ := this
    have h1 : m 0 ≤ t.lead := pyMin_le_one _ m hm (fun _ => t.lead) (List.mem_map.2 ⟨t, by simp [ht], rfl⟩) 0
    have h2 := congrFun e 0
    simp only [Pi.sub_apply] at h2
    omega
  obtain ⟨tab, h1, h2⟩ := terms_near (kernel := kernel) (val := val) (gens := gens) (J := J) (Pf := Pf) (C := C) (rq := rq) terms [] fun t ht =>
    ⟨hne t ht, hJ t ht, hv t ht, (hP t ht).1, (hP t ht).2, hC t ht, hlead t ht⟩
  refine ⟨tab, h1, fun a => ⟨report_pairwise val (nodup_splitAll _ h1 (by simp)) a, ?_, ?_⟩⟩
  · intro t ht
    unfold report at ht
    rw [List.mem_mergeSort, List.mem_map] at ht
    obtain ⟨e, he, rfl⟩ := ht
    have := (C30_only_requested (fun _ => rq) _ tab h1 e.1 (List.mem_map_of_mem (List.mem_filter.1 he).1)).1 0
    exact this
  · refine (h2 a).congr_left fun z => ?_
    rw [report_sum]
    simp [tabSum]

/-- C59: the report for a single integral is the expansion of prefactor * integral. -/
theorem C59_integral_laurent {kernel : ℕ → ℤ → κ} {val : κ → ℂ} {g : Generated} {J Pf : ℂ → ℂ} (hne : g.results ≠ []) (hJ : Computes g J) (hv : Values kernel val g)
    (hP : Expanded Pf g.prefOrder g.pref) (hl : Lowest g.pref g.prefLead) :
    ∃ tab, evaluateIntegral kernel g = some tab ∧ Expansion.IsExpansion (fun z => Pf z * J z) g.requested (report tab val 0) := by
  obtain ⟨kl, k1, -, -, k4, -⟩ := kernels_spec hne hJ hv
  have p1 := lowest_min hl
  obtain ⟨tab, h1, R, h2, h3⟩ := term_near (tab := []) (t := ⟨0, 0, [(0, 1)], 0⟩) (C := fun _ => 1) (rq := g.requested) hne hJ hv hP hl (by
    refine ⟨-kl - (fun _ => g.prefLead) + fun _ => g.requested, ?_, ⟨by simp, ?_, ?_⟩, by simp⟩
    · unfold coefOrd
      rw [k1, show minAxis0 ((g.info kernel).pref.map (·.1)) = _ from p1]
    · intro t ht
      rw [List.mem_singleton.1 ht]
      show (0 : ℤ) ≤ -kl 0 - g.prefLead + g.requested
      omega
    · simpa using isBigO_zero _ _) (by simp)
  refine ⟨tab, h1, report_pairwise val (nodup_split h1 (by simp)) 0, ?_, ?_⟩
  · intro t ht
    unfold report at ht
    rw [List.mem_mergeSort, List.mem_map] at ht
    obtain ⟨e, he, rfl⟩ := ht
    rcases splitIntegral_keys h1 e.1 (List.mem_map_of_mem (List.mem_filter.1 he).1) with h | h
    · simp at h
    · exact h.2 0
  · refine h3.congr_left fun z => ?_
    rw [report_sum, h2 z 0]
    simp [tabSum]

/-- C59: the packages written by `make_package` for Euclidean kinematics have sectors, and these add up to the expansion of the integral, so that
`C59_amplitude_laurent` and `C59_integral_laurent` apply. -/
theorem C59_make_package {n : ℕ} {o : Options} {polys : List (SPoly (n + 1) ℝ (Poly 1 ℚ))} (hE : Euclidean polys) (hD : Decomposable o polys)
    (hval : ∀ c q, o.val c = some q → c = (q : ℝ)) (hv0 : o.val 0 = some 0) (hg : NoIntegerPowers polys ∧ CleanPowers polys ∨ GoalsReached o polys) {V : Set ℂ}
    (hp : ∀ z ∈ V, Projective (integrandAt polys z)) {J : ℂ → ℂ} (hJ : Continuation polys V J) {requested prefLead : ℤ} {pref : List (ℤ × ℂ)} {g : Generated}
    (h : generate o polys requested prefLead pref = some g) :
    g.requested = requested ∧ g.prefLead = prefLead ∧ g.pref = pref ∧ g.results ≠ [] ∧ Computes g J := by
  unfold generate at h
  rw [Option.map_eq_some_iff] at h
  obtain ⟨r, hr, rfl⟩ := h
  have := C57_laurent_coefficients (o := { o with order := requiredOrder requested prefLead }) hE hD hval hv0 hg hp hJ hr
  exact ⟨rfl, rfl, rfl, package_ne_nil (o := { o with order := requiredOrder requested prefLead }) hE hD hr, fun x hx => (this.1 x hx).1, this.2⟩

section loop
open LoopCommon FromProps LoopMeasure Numer MeasureTheory Set LoopPackage
variable {n D e d : ℕ} {R : Type} [CommRing R] [DecidableEq R] [Invertible (2 : R)] [Algebra ℝ R]
  {num : R → Option Int} {rules : R →ₗ[ℝ] ℝ} {sym : Fin e → R} {p : Fin e → Fin (d + 1) → ℝ} {m : Momentum (n + 1) D e ℝ} {input : Props (n + 1) D R}

/-- C59: the same for the packages written by `loop_package`: with `C59_amplitude_laurent`, the report is the expansion of the sum of the products coefficient *
Gamma factors * `J`, where the Gamma factors times `J` is the continuation of the loop integral (up to the factor `pi^(d*L/2)`). -/
theorem C59_loop_package {o : Options} (hden : Denotes input m sym rules (edotForm (d + 1)) p) (hint : IntegerForm num input)
    (hM : ∀ x, (∀ i, 0 < x i) → (m.form x).PosDef) (hneg : ∀ᵐ k : Fin (d + 1) → Fin (D+1) → ℝ, ∀ i, propagator m p i k < 0)
    (powers : Fin (n + 1) → Power ℚ) (hE : Euclidean (polynomials num rules input ⟨(d + 1 : ℕ), 0⟩ powers))
    (hD : Decomposable o (polynomials num rules input ⟨(d + 1 : ℕ), 0⟩ powers)) {a b : ℝ} (hab : a < b)
    (hc : ∀ t ∈ Ioo a b, Converges m p powers t)
    (hval : ∀ c q, o.val c = some q → c = (q : ℝ)) (hv0 : o.val 0 = some 0)
    (hg : NoIntegerPowers (polynomials num rules input ⟨(d + 1 : ℕ), 0⟩ powers) ∨ GoalsReached o (polynomials num rules input ⟨(d + 1 : ℕ), 0⟩ powers))
    {results : List (List (Sector.Summand (n + 1) ℝ) × ℤ)} {requested prefLead : ℤ} {pref : List (ℤ × ℂ)}
    (h : loopPackage { o with order := requiredOrder requested prefLead } num rules input ⟨(d + 1 : ℕ), 0⟩ powers = some results)
    {J : ℂ → ℂ} (hJ : Continues m p powers a b J) : results ≠ [] ∧ Computes ⟨n, results, requested, prefLead, pref⟩ J := by
  have := C58_loop_integral_laurent (o := { o with order := requiredOrder requested prefLead }) hden hint hM hneg powers hE hD hab hc hval hv0 hg h hJ
  refine ⟨?_, fun x hx => (this.1 x hx).1, this.2⟩
  unfold loopPackage at h
  split_ifs at h
  exact package_ne_nil (o := { o with order := requiredOrder requested prefLead }) hE hD h
end loop

/-! ### two amplitudes with the integral of C57: `3/ε * Γ(-ε)² / Γ(-2 ε)` and `2 * Γ(-ε)² / Γ(-2 ε)` -/

/-- The expansion of `c * ε^lead`. -/
noncomputable def exCoef (c : ℂ) (lead h : ℤ) : List (ℤ × ℂ) := if lead ≤ h then [(lead, c)] else []

theorem ex_expanded (c : ℂ) (lead h : ℤ) : Expanded (fun z => c * z ^ lead) h (exCoef c lead h) := by
  unfold exCoef
  split_ifs with hl
  · exact ⟨by simp, by simpa using hl, by simpa using isBigO_zero _ _⟩
  · refine ⟨by simp, by simp, ?_⟩
    simpa using (Expansion.zpow_isBigO (a := h + 1) (b := lead) (by omega)).const_mul_left c

theorem exCoef_lead (c : ℂ) (lead h : ℤ) : ∀ s ∈ exCoef c lead h, lead ≤ s.1 := by
  unfold exCoef
  split_ifs with hl
  · simp
  · simp

/-- Names for the kernels of a package, and their values. -/
theorem ex_kernels (g : Generated) : ∃ (N : ℕ) (kernel : ℕ → ℤ → Fin (N + 1)) (val : Fin (N + 1) → ℂ), Values kernel val g := by
  classical
  let F : Finset ℕ := ((Finset.range (g.results.length + 1)) ×ˢ (Finset.Icc g.lowest (g.requested - g.prefLead))).image fun x : ℕ × ℤ => Encodable.encode x
  obtain ⟨N, hN⟩ : ∃ N, ∀ x ∈ F, x ≤ N := ⟨F.sup id, fun x hx => Finset.le_sup (f := id) hx⟩
  let v : ℕ × ℤ → ℂ := fun x => match g.results[x.1 - 1]? with
    | some r => cubeIntegral (orderIntegrand Complex.ofRealHom r.1 x.2)
    | none => 0
  refine ⟨N, fun s k => Fin.ofNat (N + 1) (Encodable.encode (s, k)), fun x => ((Encodable.decode (α := ℕ × ℤ) x.1).map v).getD 0, ?_⟩
  intro s r hr k hk
  have hs : s < g.results.length := (List.getElem?_eq_some_iff.1 hr).1
  have hm : r ∈ g.results := List.mem_of_getElem? hr
  have hlow := (lowest_le g.results g.requested).2 r hm
  rw [sectorOrders_mem] at hk
  have hle : Encodable.encode (s + 1, k) ≤ N := hN _ (Finset.mem_image.2 ⟨(s + 1, k), Finset.mem_product.2 ⟨Finset.mem_range.2 (by omega),
    Finset.mem_Icc.2 ⟨hlow.trans hk.1, hk.2⟩⟩, rfl⟩)
  have e : (Fin.ofNat (N + 1) (Encodable.encode (s + 1, k))).1 = Encodable.encode (s + 1, k) := Nat.mod_eq_of_lt (by omega)
  beta_reduce
  rw [e, Encodable.encodek]
  show v (s + 1, k) = _
  simp only [v, Nat.add_sub_cancel, hr]

example (rq : ℤ) : ∃ (fuel : ℕ) (g : Generated) (N : ℕ) (kernel : ℕ → ℕ → ℤ → Fin (N + 1)) (val : Fin (N + 1) → ℂ) (terms : List AmpTerm) (tab : Table 1 (Fin (N + 1)) ℂ),
    generate { exOptions rq with fuel := fuel } exPolys (rq + 1) 0 [(0, 1)] = some g ∧ terms.length = 2 ∧
    evaluate kernel (fun _ => g) rq terms = some tab ∧
    Expansion.IsExpansion (fun z => 3 * z ^ (-1 : ℤ) * (Complex.Gamma (-z) ^ 2 * (Complex.Gamma (-(2 * z)))⁻¹)) rq (report tab val 0) ∧
    Expansion.IsExpansion (fun z => 2 * (Complex.Gamma (-z) ^ 2 * (Complex.Gamma (-(2 * z)))⁻¹)) rq (report tab val 1) := by
  have hv := fun c q => ex_val rq c q
  obtain ⟨results, K, hK⟩ := C57_package_succeeds (o := exOptions (requiredOrder (rq + 1) 0)) ex_euclidean (iterative_decomposable rfl _) ex_clean (fun q => (ex_val _ _ _).2 rfl)
    (fun c q => (ex_val _ c q).1) rfl (ex_sectors _) fun s hs i _ => by rw [(ex_power s hs i).2]; norm_num
  have hgen : generate { exOptions rq with fuel := K } exPolys (rq + 1) 0 [(0, 1)] = some ⟨1, results, rq + 1, 0, [(0, 1)]⟩ := by
    unfold generate
    have := hK K le_rfl
    rw [Option.map_eq_some_iff]
    exact ⟨results, this, rfl⟩
  obtain ⟨-, -, -, hne, hJ⟩ := C59_make_package (o := { exOptions rq with fuel := K }) ex_euclidean (iterative_decomposable rfl _) (fun c q => (ex_val rq c q).1) ((ex_val rq 0 0).2 (by simp))
    (Or.inl ⟨ex_noInteger, ex_clean⟩) (fun z _ => ex_projective z) ex_continuation hgen
  obtain ⟨N, kernel, val, hval⟩ := ex_kernels ⟨1, results, rq + 1, 0, [(0, 1)]⟩
  obtain ⟨kl, k1, -, k3, k4, -⟩ := kernels_spec hne hJ hval
  have p1 : minAxis0 ((([(0, 1)] : List (ℤ × ℂ)).map tuple).map (·.1)) = some (fun _ => (0 : ℤ)) := lowest_min ⟨⟨(0, 1), by simp, rfl⟩, by simp⟩
  have hco : coefOrd (Generated.info kernel ⟨1, results, rq + 1, 0, [(0, 1)]⟩) (fun _ => rq) = some (-kl - (fun _ => (0 : ℤ)) + fun _ => rq) := by
    unfold coefOrd
    rw [k1]
    rw [show minAxis0 ((Generated.info kernel ⟨1, results, rq + 1, 0, [(0, 1)]⟩).pref.map (·.1)) = _ from p1]
  let h : ℤ := -kl 0 - 0 + rq
  let terms : List AmpTerm := [⟨0, 0, exCoef 3 (-1) h, -1⟩, ⟨1, 0, exCoef 2 0 h, 0⟩]
  have hlow : Generated.lowest ⟨1, results, rq + 1, 0, [(0, 1)]⟩ ≤ rq + 1 := (lowest_le results (rq + 1)).1
  obtain ⟨tab, t1, t2⟩ := C59_amplitude_laurent (kernel := fun _ => kernel) (val := val) (gens := fun _ => ⟨1, results, rq + 1, 0, [(0, 1)]⟩)
    (J := fun _ z => Complex.Gamma (-z) ^ 2 * (Complex.Gamma (-(2 * z)))⁻¹) (Pf := fun _ _ => 1) (C := fun t z => (if t.amp = 0 then 3 else 2) * z ^ t.lead) (rq := rq) (terms := terms)
    (fun _ _ => hne) (fun _ _ => hJ) (fun _ _ => hval)
    (fun _ _ => ⟨⟨by simp, by
      intro t ht
      rw [List.mem_singleton.1 ht]
      show (0 : ℤ) ≤ rq + 1 - Generated.lowest ⟨1, results, rq + 1, 0, [(0, 1)]⟩
      omega, by simpa using isBigO_zero _ _⟩, ⟨(0, 1), by simp, rfl⟩, by simp⟩)
    (by
      intro t ht
      refine ⟨_, hco, ?_⟩
      simp only [terms, List.mem_cons, List.not_mem_nil, or_false] at ht
      rcases ht with rfl | rfl
      · exact ⟨ex_expanded 3 (-1) h, exCoef_lead _ _ _⟩
      · exact ⟨ex_expanded 2 0 h, exCoef_lead _ _ _⟩)
    (by
      intro t ht
      have : t.int = 0 := by
        simp only [terms, List.mem_cons, List.not_mem_nil, or_false] at ht
        rcases ht with rfl | rfl <;> rfl
      rw [this]
      simp only [requestedOf, terms, packageOrders]
      simp [pyMin, lexLt]
      funext i
      simp)
  refine ⟨K, _, N, fun _ => kernel, val, terms, tab, hgen, rfl, t1, ?_, ?_⟩
  · have := t2 0
    simpa [terms] using this
  · have := t2 1
    simpa [terms] using this

/-- The single integral. -/
example (rq : ℤ) : ∃ (fuel : ℕ) (g : Generated) (N : ℕ) (kernel : ℕ → ℤ → Fin (N + 1)) (val : Fin (N + 1) → ℂ) (tab : Table 1 (Fin (N + 1)) ℂ),
    generate { exOptions rq with fuel := fuel } exPolys rq 0 [(0, 1)] = some g ∧ evaluateIntegral kernel g = some tab ∧
    Expansion.IsExpansion (fun z => 1 * (Complex.Gamma (-z) ^ 2 * (Complex.Gamma (-(2 * z)))⁻¹)) rq (report tab val 0) := by
  obtain ⟨results, K, hK⟩ := C57_package_succeeds (o := exOptions (requiredOrder rq 0)) ex_euclidean (iterative_decomposable rfl _) ex_clean (fun q => (ex_val _ _ _).2 rfl)
    (fun c q => (ex_val _ c q).1) rfl (ex_sectors _) fun s hs i _ => by rw [(ex_power s hs i).2]; norm_num
  have hgen : generate { exOptions rq with fuel := K } exPolys rq 0 [(0, 1)] = some ⟨1, results, rq, 0, [(0, 1)]⟩ := by
    unfold generate
    rw [Option.map_eq_some_iff]
    exact ⟨results, hK K le_rfl, rfl⟩
  obtain ⟨-, -, -, hne, hJ⟩ := C59_make_package (o := { exOptions rq with fuel := K }) ex_euclidean (iterative_decomposable rfl _) (fun c q => (ex_val rq c q).1) ((ex_val rq 0 0).2 (by simp))
    (Or.inl ⟨ex_noInteger, ex_clean⟩) (fun z _ => ex_projective z) ex_continuation hgen
  obtain ⟨N, kernel, val, hval⟩ := ex_kernels ⟨1, results, rq, 0, [(0, 1)]⟩
  have hlow : Generated.lowest ⟨1, results, rq, 0, [(0, 1)]⟩ ≤ rq := (lowest_le results rq).1
  obtain ⟨tab, t1, t2⟩ := C59_integral_laurent (Pf := fun _ => 1) hne hJ hval ⟨by simp, by
      intro t ht
      rw [List.mem_singleton.1 ht]
      show (0 : ℤ) ≤ rq - Generated.lowest ⟨1, results, rq, 0, [(0, 1)]⟩
      omega, by simpa using isBigO_zero _ _⟩ ⟨⟨(0, 1), by simp, rfl⟩, by simp⟩
  exact ⟨K, _, N, kernel, val, tab, hgen, t1, t2⟩

end Amplitude
namespace LoopPackage
open LoopCommon FromProps LoopMeasure Numer MeasureTheory Set Package LeadingOrder Decomp Squash Expansion Filter Topology


/-- The loop integral of C58. -/
example (requested prefLead : ℤ) (pref : List (ℤ × ℂ)) : ∃ fuel results, loopPackage { exOptions 0 with fuel := fuel, order := Amplitude.requiredOrder requested prefLead }
      exNum exRules exInput ⟨(0 + 1 : ℕ), 0⟩ exPowers = some results ∧
    ∃ J, Continues exMomentum exP exPowers 0 1 J ∧ results ≠ [] ∧ Amplitude.Computes ⟨1, results, requested, prefLead, pref⟩ J := by
  have hone : (⟨((0 + 1 : ℕ) : ℚ), 0⟩ : Power ℚ) = ⟨1, 0⟩ := by simp
  obtain ⟨results, K, hK⟩ := C57_package_succeeds (o := exOptions (Amplitude.requiredOrder requested prefLead)) ex_euclidean (iterative_decomposable rfl _) ex_clean (fun q => (ex_val _ _ _).2 rfl)
    (fun c q => (ex_val _ c q).1) rfl (ex_sectors _) ex_power
  have hpk : loopPackage { exOptions 0 with fuel := K, order := Amplitude.requiredOrder requested prefLead } exNum exRules exInput
      ⟨(0 + 1 : ℕ), 0⟩ exPowers = some results := by
    unfold loopPackage
    rw [if_pos (by decide +kernel), hone]
    exact hK K le_rfl
  have hneg : ∀ᵐ k : Fin 1 → Fin 1 → ℝ, ∀ i, propagator exMomentum exP i k < 0 :=
    Filter.Eventually.of_forall fun k i => lt_of_le_of_lt (ex_neg i k) (by norm_num)
  obtain ⟨J, hJ⟩ := C58_continuation_exists (o := { exOptions 0 with fuel := K, order := Amplitude.requiredOrder requested prefLead }) ex_denotes ⟨exNum_exact 0, fun _ _ _ _ => exNum_exact _⟩ ex_posDef hneg
    exPowers (hone ▸ ex_euclidean) (iterative_decomposable rfl _) zero_lt_one (fun t ht => ex_converges ht) hpk
  exact ⟨K, results, hpk, J, hJ, Amplitude.C59_loop_package (o := { exOptions 0 with fuel := K }) ex_denotes ⟨exNum_exact 0, fun _ _ _ _ => exNum_exact _⟩
    ex_posDef hneg exPowers (hone ▸ ex_euclidean) (iterative_decomposable rfl _) zero_lt_one (fun t ht => ex_converges ht)
    (fun c q => (ex_val 0 c q).1) ((ex_val 0 0 0).2 (by simp)) (Or.inl (hone ▸ ex_noInteger)) hpk hJ⟩

end LoopPackage
end SecDec
