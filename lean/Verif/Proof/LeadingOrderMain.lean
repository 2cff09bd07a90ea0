import Verif.Proof.LeadingOrder
import Mathlib.Analysis.SpecialFunctions.Complex.Analytic
/-
The order of the pole of a sector.
-/
set_option linter.unusedSectionVars false
namespace SecDec
namespace LeadingOrder
open Expansion Set Filter Topology
open Decomp (oc mem_oc)
open Subtraction (pev NonNeg pev_simplify pev_mul pev_add pev_zero real_cpow prod_zpow_cpow)
variable {N K : ℕ} {F : Type} [Field F] [DecidableEq F] {φ : F →+* ℂ}

/-- The regulated value depends only on the integrand inside the cube. -/
theorem regulated_congr {f g : (Fin N → ℝ) → ℂ} {v : ℂ} (h : ∀ t ∈ oc N, f t = g t) (hf : Regulated f v) : Regulated g v := by
  obtain ⟨δ, c, E, H, h1, h2, h3, h4, h5, h6, h7, h8⟩ := hf
  refine ⟨δ, c, E, H, h1, h2, h3, h4, h5, fun s hs => ?_, fun s hs hE => ?_, h8⟩
  · rw [AnalyticReg.cubeIntegrable_oc]
    refine ((AnalyticReg.cubeIntegrable_oc.1 (h6 s hs)).congr_fun (fun t ht => ?_) Decomp.measurableSet_oc)
    beta_reduce
    rw [h t ht]
  · rw [h7 s hs hE, AnalyticReg.cubeIntegral_oc, AnalyticReg.cubeIntegral_oc]
    refine MeasureTheory.setIntegral_congr_fun Decomp.measurableSet_oc fun t ht => ?_
    beta_reduce
    rw [h t ht]

/-- The regular part of the integrand. -/
noncomputable def regular (φ : F →+* ℂ) (s : Sector (N + 1) K 1 F) (ns : List (Expo (N + 1) × Poly (N + 1) F)) (x : Fin N → ℂ) (z : ℂ) : ℂ :=
  (s.cast.map fun f => restValue φ f x ^ exponentAt f.exponent z).prod * (ns.map fun n => pev φ (pt x z) n.2).prod

theorem pt_analytic (p : (Fin N → ℂ) × ℂ) : AnalyticAt ℂ (fun q : (Fin N → ℂ) × ℂ => pt q.1 q.2) p := by
  refine AnalyticAt.pi fun i => ?_
  refine Fin.addCases (fun i => ?_) (fun i => ?_) i
  · simp only [pt, Fin.append_left]
    exact ((ContinuousLinearMap.proj (R := ℂ) (φ := fun _ : Fin N => ℂ) i).comp (ContinuousLinearMap.fst ℂ (Fin N → ℂ) ℂ)).analyticAt p
  · simp only [pt, Fin.append_right]
    exact (ContinuousLinearMap.snd ℂ (Fin N → ℂ) ℂ).analyticAt p

theorem analyticAt_list_prod {E α : Type} [NormedAddCommGroup E] [NormedSpace ℂ E] (l : List α) (f : α → E → ℂ) {p : E}
    (h : ∀ a ∈ l, AnalyticAt ℂ (f a) p) : AnalyticAt ℂ (fun q => (l.map fun a => f a q).prod) p := by
  induction l with
  | nil => simpa using analyticAt_const
  | cons a l ih =>
    simp only [List.map_cons, List.prod_cons]
    exact (h a (by simp)).mul (ih fun b hb => h b (by simp [hb]))

theorem rest_pt {f : Factor (N + 1) K 1 F} (hr : ∀ t ∈ f.rest.terms, OnlyParameters t.1 ∧ ∀ i, 0 ≤ t.1 i) (x : Fin N → ℂ) (z : ℂ) :
    restValue φ f x = pev φ (pt x z) (⟨f.rest.terms.map fun t => (drop t.1, t.2)⟩ : Poly (N + 1) F) := by
  unfold restValue polyValue pev
  rw [List.map_map]
  congr 1
  refine List.map_congr_left fun t ht => ?_
  simp only [Function.comp]
  rw [drop_eq (hr t ht).1]
  rfl

theorem pev_analytic {p : Poly (N + 1) F} (hp : NonNeg p) (q : (Fin N → ℂ) × ℂ) :
    AnalyticAt ℂ (fun q : (Fin N → ℂ) × ℂ => pev φ (pt q.1 q.2) p) q :=
  AnalyticAt.fun_comp (g := fun x => pev φ x p) (f := fun q : (Fin N → ℂ) × ℂ => pt q.1 q.2) (pev_continuous hp _ trivial) (pt_analytic q)

theorem rest_analytic {f : Factor (N + 1) K 1 F} (hr : ∀ t ∈ f.rest.terms, OnlyParameters t.1 ∧ ∀ i, 0 ≤ t.1 i) (q : (Fin N → ℂ) × ℂ) :
    AnalyticAt ℂ (fun q : (Fin N → ℂ) × ℂ => restValue φ f q.1) q := by
  have h : (fun q : (Fin N → ℂ) × ℂ => restValue φ f q.1) =
      fun q => pev φ (pt q.1 q.2) (⟨f.rest.terms.map fun t => (drop t.1, t.2)⟩ : Poly (N + 1) F) := by
    funext q; exact rest_pt hr _ _
  rw [h]
  refine pev_analytic ?_ q
  intro t ht i
  obtain ⟨s, hs, rfl⟩ := List.mem_map.1 ht
  exact (hr s hs).2 _

/-- The regular part is analytic in a neighbourhood of the cube. -/
theorem regular_ana {s : Sector (N + 1) K 1 F} (hs : Valid φ s) {ns : List (Expo (N + 1) × Poly (N + 1) F)} (hns : ∀ n ∈ ns, NonNeg n.2) :
    AnalyticReg.Ana univ (regular φ s ns) := by
  refine ⟨⋂ f ∈ {f | f ∈ s.cast}, {q : (Fin N → ℂ) × ℂ | restValue φ f q.1 ∈ Complex.slitPlane}, ?_, ?_, ?_⟩
  · refine Set.Finite.isOpen_biInter (List.finite_toSet s.cast) fun f hf => ?_
    refine Complex.isOpen_slitPlane.preimage ?_
    exact continuous_iff_continuousAt.2 fun q => (rest_analytic (hs.rest f hf) q).continuousAt
  · intro t ht z _
    simp only [mem_iInter]
    exact fun f hf => hs.slit f hf t ht
  · intro q hq
    simp only [mem_iInter] at hq
    unfold regular
    refine AnalyticAt.mul ?_ ?_
    · refine analyticAt_list_prod s.cast (fun f (q : (Fin N → ℂ) × ℂ) => restValue φ f q.1 ^ exponentAt f.exponent q.2) fun f hf => ?_
      refine AnalyticAt.cpow (rest_analytic (hs.rest f hf) q) ?_ (hq f hf)
      have h : (fun q : (Fin N → ℂ) × ℂ => exponentAt f.exponent q.2) = fun q => (atZero f.exponent : ℂ) + (slope f.exponent : ℂ) * q.2 := by
        funext q; exact exponentAt_eq (hs.affine f hf) _
      rw [h]
      exact analyticAt_const.add (analyticAt_const.mul ((ContinuousLinearMap.snd ℂ (Fin N → ℂ) ℂ).analyticAt q))
    · exact analyticAt_list_prod ns (fun n (q : (Fin N → ℂ) × ℂ) => pev φ (pt q.1 q.2) n.2) fun n hn => pev_analytic (hns n hn) q

theorem reps_get {s : Sector (N + 1) K 1 F} (hs : Valid φ s) (hK : K ≤ s.cast.length) (x : Fin N → ℂ) (z : ℂ)
    (hl : ((s.cast.take K).map (replacement false)).length = K) :
    (fun k : Fin K => pev φ (pt x z) (((s.cast.take K).map (replacement false))[k.val]'(by omega))) = nameValue φ s x := by
  funext k
  have hk : k.val < s.cast.length := lt_of_lt_of_le k.isLt hK
  have hmem : s.cast[k.val] ∈ s.cast := List.getElem_mem hk
  simp only [List.getElem_map, List.getElem_take]
  rw [(replacement_value (hs.mono _ hmem) (hs.rest _ hmem) x z).2]
  unfold nameValue
  rw [List.getElem?_eq_getElem hk]
  rfl

/-- The numerators of a sector. -/
theorem numerators {s : Sector (N + 1) K 1 F} (hs : Valid φ s) (hK : K ≤ s.cast.length) {ms : List (Expo (N + 1))}
    (hms : s.other.mapM (numeratorPowers ((s.cast.take K).map (replacement false))) = some ms) :
    ∃ ns : List (Expo (N + 1) × Poly (N + 1) F), ms = ns.map Prod.fst ∧ (∀ n ∈ ns, NonNeg n.2 ∧ ∀ i, 0 ≤ n.1 i) ∧
      ∀ (x : Fin N → ℂ) (z : ℂ), (s.other.map fun q => polyValue φ q (point x z (nameValue φ s x))).prod =
        (ns.map fun n => Poly.mono (pt x z) n.1).prod * (ns.map fun n => pev φ (pt x z) n.2).prod := by
  have hl : ((s.cast.take K).map (replacement false)).length = K := by simp [hK]
  have hn : ∀ p ∈ (s.cast.take K).map (replacement false), NonNeg p := by
    intro p hp
    obtain ⟨f, hf, rfl⟩ := List.mem_map.1 hp
    have hf' := List.mem_of_mem_take hf
    exact (replacement_value (φ := φ) (hs.mono _ hf') (hs.rest _ hf') (fun _ => 0) 0).1
  have ho := hs.other
  generalize s.other = qs at ho hms
  induction qs generalizing ms with
  | nil =>
    simp only [List.mapM_nil, Option.pure_def, Option.some.injEq] at hms
    subst hms
    exact ⟨[], by simp, by simp, by simp⟩
  | cons q qs ih =>
    rw [List.mapM_cons] at hms
    obtain ⟨m, hm, hms⟩ := Option.bind_eq_some_iff.1 hms
    obtain ⟨ms', hms', hms⟩ := Option.bind_eq_some_iff.1 hms
    rw [Option.pure_def, Option.some.injEq] at hms
    subst hms
    obtain ⟨ns, h1, h2, h3⟩ := ih (fun q hq => ho q (by simp [hq])) hms'
    obtain ⟨hm0, r, hr, hv⟩ := numeratorPowers_value (φ := φ) hl hn (ho q (by simp)) hm
    refine ⟨(m, r) :: ns, by simp [h1], ?_, ?_⟩
    · intro n hn
      rcases List.mem_cons.1 hn with rfl | hn
      · exact ⟨hr, hm0⟩
      · exact h2 n hn
    · intro x z
      simp only [List.map_cons, List.prod_cons]
      rw [h3 x z, ← reps_get hs hK x z hl, hv x z]
      ring

theorem prod_list_cpow {l : List (Expo (N + 1))} {t : Fin N → ℝ} (ht : t ∈ oc N) (z : ℂ) :
    (l.map fun n => Poly.mono (pt (fun i => (t i : ℂ)) z) n).prod =
      (∏ i, (t i : ℂ) ^ (((l.map fun n => (n (Fin.castAdd 1 i) : ℚ)).sum : ℚ) : ℂ)) * (l.map fun n => z ^ n (Fin.last N)).prod := by
  induction l with
  | nil => simp
  | cons n l ih =>
    simp only [List.map_cons, List.prod_cons, List.sum_cons]
    rw [ih, mono_pt]
    have : ∏ i, (t i : ℂ) ^ (((n (Fin.castAdd 1 i) : ℚ) + (l.map fun n => (n (Fin.castAdd 1 i) : ℚ)).sum : ℚ) : ℂ) =
        (∏ i, (t i : ℂ) ^ n (Fin.castAdd 1 i)) * ∏ i, (t i : ℂ) ^ (((l.map fun n => (n (Fin.castAdd 1 i) : ℚ)).sum : ℚ) : ℂ) := by
      rw [← Finset.prod_mul_distrib]
      refine Finset.prod_congr rfl fun i _ => ?_
      have h0 : (t i : ℂ) ≠ 0 := by exact_mod_cast (mem_oc.1 ht i).1.ne'
      rw [Rat.cast_add, Complex.cpow_add _ _ h0, Rat.cast_intCast, Complex.cpow_intCast]
    rw [this]; ring

theorem cast_prod {l : List (Factor (N + 1) K 1 F)} (hl : ∀ f ∈ l, OnlyParameters f.mono) {t : Fin N → ℝ} (ht : t ∈ oc N) (z : ℂ) :
    (l.map fun f => monoValue f.mono (fun i => (t i : ℂ)) ^ exponentAt f.exponent z *
      restValue φ f (fun i => (t i : ℂ)) ^ exponentAt f.exponent z).prod =
      (∏ i, (t i : ℂ) ^ (l.map fun f => (f.mono (Fin.castAdd K (Fin.castAdd 1 i)) : ℂ) * exponentAt f.exponent z).sum) *
        (l.map fun f => restValue φ f (fun i => (t i : ℂ)) ^ exponentAt f.exponent z).prod := by
  induction l with
  | nil => simp
  | cons f l ih =>
    simp only [List.map_cons, List.prod_cons, List.sum_cons]
    rw [ih fun g hg => hl g (by simp [hg])]
    have h1 : monoValue f.mono (fun i => (t i : ℂ)) ^ exponentAt f.exponent z =
        ∏ i, (t i : ℂ) ^ (exponentAt f.exponent z * (f.mono (Fin.castAdd K (Fin.castAdd 1 i)) : ℂ)) := by
      rw [monoValue_eq (hl f (by simp)), ← prod_zpow_cpow (fun i => (mem_oc.1 ht i).1) (fun i => f.mono (Fin.castAdd K (Fin.castAdd 1 i)))]
      push_cast
      rfl
    rw [h1]
    have h2 : ∏ i, (t i : ℂ) ^ ((f.mono (Fin.castAdd K (Fin.castAdd 1 i)) : ℂ) * exponentAt f.exponent z +
          (l.map fun f => (f.mono (Fin.castAdd K (Fin.castAdd 1 i)) : ℂ) * exponentAt f.exponent z).sum) =
        (∏ i, (t i : ℂ) ^ (exponentAt f.exponent z * (f.mono (Fin.castAdd K (Fin.castAdd 1 i)) : ℂ))) *
          ∏ i, (t i : ℂ) ^ (l.map fun f => (f.mono (Fin.castAdd K (Fin.castAdd 1 i)) : ℂ) * exponentAt f.exponent z).sum := by
      rw [← Finset.prod_mul_distrib]
      refine Finset.prod_congr rfl fun i _ => ?_
      have h0 : (t i : ℂ) ≠ 0 := by exact_mod_cast (mem_oc.1 ht i).1.ne'
      rw [Complex.cpow_add _ _ h0, mul_comm (exponentAt _ _)]
    rw [h2]; ring

/-- The integrand inside the cube. -/
theorem integrand_eq {s : Sector (N + 1) K 1 F} (hs : Valid φ s) {ns : List (Expo (N + 1) × Poly (N + 1) F)} {z : ℂ} {t : Fin N → ℝ}
    (ht : t ∈ oc N)
    (hns : (s.other.map fun q => polyValue φ q (point (fun i => (t i : ℂ)) z (nameValue φ s fun i => (t i : ℂ)))).prod =
        (ns.map fun n => Poly.mono (pt (fun i => (t i : ℂ)) z) n.1).prod * (ns.map fun n => pev φ (pt (fun i => (t i : ℂ)) z) n.2).prod) :
    integrand φ s z t = (ns.map fun n => z ^ n.1 (Fin.last N)).prod *
      ((∏ i, (t i : ℂ) ^ (powerAt s i z + (((ns.map fun n => (n.1 (Fin.castAdd 1 i) : ℚ)).sum : ℚ) : ℂ))) *
        regular φ s ns (fun i => (t i : ℂ)) z) := by
  unfold integrand
  rw [hns, cast_prod (fun f hf => (hs.mono f hf).1) ht, monoValue_eq hs.prim, monoValue_eq hs.jac]
  have h := prod_list_cpow (l := ns.map Prod.fst) ht z
  simp only [List.map_map, Function.comp_def] at h
  rw [h]
  unfold regular powerAt
  have h2 : ∏ i, (t i : ℂ) ^ (((s.prim (Fin.castAdd K (Fin.castAdd 1 i)) + s.jac (Fin.castAdd K (Fin.castAdd 1 i)) : ℤ) : ℂ) +
      (s.cast.map fun f => (f.mono (Fin.castAdd K (Fin.castAdd 1 i)) : ℂ) * exponentAt f.exponent z).sum +
        (((ns.map fun n => (n.1 (Fin.castAdd 1 i) : ℚ)).sum : ℚ) : ℂ)) =
      (∏ i, (t i : ℂ) ^ s.prim (Fin.castAdd K (Fin.castAdd 1 i))) * (∏ i, (t i : ℂ) ^ s.jac (Fin.castAdd K (Fin.castAdd 1 i))) *
      (∏ i, (t i : ℂ) ^ (s.cast.map fun f => (f.mono (Fin.castAdd K (Fin.castAdd 1 i)) : ℂ) * exponentAt f.exponent z).sum) *
      ∏ i, (t i : ℂ) ^ (((ns.map fun n => (n.1 (Fin.castAdd 1 i) : ℚ)).sum : ℚ) : ℂ) := by
    rw [← Finset.prod_mul_distrib, ← Finset.prod_mul_distrib, ← Finset.prod_mul_distrib]
    refine Finset.prod_congr rfl fun i _ => ?_
    have h0 : (t i : ℂ) ≠ 0 := by exact_mod_cast (mem_oc.1 ht i).1.ne'
    rw [Complex.cpow_add _ _ h0, Complex.cpow_add _ _ h0, Complex.cpow_intCast, zpow_add₀ h0]
  rw [h2]
  ring

theorem scale_cubeIntegral (c : ℂ) (f : (Fin N → ℝ) → ℂ) : Decomp.cubeIntegral (fun t => c * f t) = c * Decomp.cubeIntegral f := by
  rw [AnalyticReg.cubeIntegral_oc, AnalyticReg.cubeIntegral_oc, MeasureTheory.integral_const_mul]

/-- A constant factor of a regulated integral. -/
theorem regulated_scale {c v : ℂ} {f : (Fin N → ℝ) → ℂ} (hf : Regulated f v) : Regulated (fun t => c * f t) (c * v) := by
  obtain ⟨δ, b, E, H, h1, h2, h3, h4, h5, h6, h7, h8⟩ := hf
  have e : ∀ s : ℂ, (fun t : Fin N → ℝ => (∏ i, (t i : ℂ) ^ s) * (c * f t)) = fun t => c * ((∏ i, (t i : ℂ) ^ s) * f t) := by
    intro s; funext t; ring
  refine ⟨δ, b, E, fun s => c * H s, h1, h2, h3, h4, h5.const_mul c, fun s hs => ?_, fun s hs hE => ?_, congrArg (c * ·) h8⟩
  · rw [e]
    exact MeasureTheory.Integrable.const_mul (h6 s hs) c
  · rw [e, scale_cubeIntegral, ← h7 s hs hE]

theorem sum_cast (l : List (Expo (N + 1) × Poly (N + 1) F)) (i : Fin (N + 1)) :
    (l.map fun n => (n.1 i : ℚ)).sum = ((l.map fun n => n.1 i).sum : ℤ) := by
  induction l with
  | nil => simp
  | cons n l ih => simp only [List.map_cons, List.sum_cons]; rw [ih, Int.cast_add]

theorem prod_zpow (l : List (Expo (N + 1) × Poly (N + 1) F)) (i : Fin (N + 1)) {z : ℂ} (hz : z ≠ 0) :
    (l.map fun n => z ^ n.1 i).prod = z ^ (l.map fun n => n.1 i).sum := by
  induction l with
  | nil => simp
  | cons n l ih => simp only [List.map_cons, List.prod_cons, List.sum_cons]; rw [ih, zpow_add₀ hz]

theorem divergences_eq {nvars : ℕ} (hN : N ≤ nvars) (e : Fin (N + 1) → ℚ) {l : ℤ} (hl : e (Fin.last N) = l) (h0 : 0 ≤ l) :
    ∃ l' : ℤ, 0 ≤ l' ∧ divergences nvars e = ((((List.finRange N).filter fun i => e (Fin.castAdd 1 i) < 0).length + l' : ℤ) : ℚ) := by
  have hfr : List.finRange (N + 1) = (List.finRange N).map (Fin.castAdd 1) ++ [Fin.last N] := List.finRange_succ_last
  have hlast : ¬ e (Fin.last N) < 0 := by
    rw [hl]; push Not; exact_mod_cast h0
  have h1 : ((List.finRange (N + 1)).filter fun i => decide (i.val < nvars ∧ e i < 0)).length =
      ((List.finRange N).filter fun i => e (Fin.castAdd 1 i) < 0).length := by
    rw [hfr, List.filter_append, List.filter_map, List.length_append, List.length_map]
    have h2 : (List.filter (fun i : Fin (N + 1) => decide (i.val < nvars ∧ e i < 0)) [Fin.last N]).length = 0 := by
      rw [List.filter_cons_of_neg (by simp only [decide_eq_true_eq]; exact fun h => hlast h.2)]; rfl
    rw [h2, add_zero]
    congr 1
    refine List.filter_congr fun i _ => ?_
    simp only [Function.comp, Fin.val_castAdd]
    have : i.val < nvars := by omega
    simp [this]
  have h3 : (((List.finRange (N + 1)).filter fun i => decide (nvars ≤ i.val)).map e).sum = if nvars ≤ N then (l : ℚ) else 0 := by
    rw [hfr, List.filter_append, List.map_append, List.sum_append]
    have h4 : List.filter (fun i : Fin (N + 1) => decide (nvars ≤ i.val)) ((List.finRange N).map (Fin.castAdd 1)) = [] := by
      rw [List.filter_eq_nil_iff]
      intro i hi
      obtain ⟨j, -, rfl⟩ := List.mem_map.1 hi
      simp only [Fin.val_castAdd, decide_eq_true_eq]
      omega
    rw [h4]
    by_cases h : nvars ≤ N
    · rw [if_pos h, List.filter_cons_of_pos (by simpa using h)]
      simp [hl]
    · rw [if_neg h, List.filter_cons_of_neg (by simpa using h)]
      simp
  unfold divergences
  rw [h1, h3]
  by_cases h : nvars ≤ N
  · exact ⟨l, h0, by rw [if_pos h]; push_cast; rfl⟩
  · exact ⟨0, le_rfl, by rw [if_neg h]; push_cast; rfl⟩

/-- The order of the pole of a sector. -/
theorem sector_order {s : Sector (N + 1) K 1 F} (hs : Valid φ s) {nvars : ℕ} (hN : N ≤ nvars) {d : ℚ}
    (hd : sectorDivergences nvars false s = some d) {J : ℂ → ℂ}
    (hJ : ∀ᶠ z in 𝓝[≠] (0 : ℂ), Regulated (integrand φ s z) (J z)) :
    ∃ n : ℤ, d = n ∧ ∃ κ, AnalyticAt ℂ κ 0 ∧ ∀ᶠ z in 𝓝[≠] (0 : ℂ), J z = z ^ (-n) * κ z := by
  unfold sectorDivergences at hd
  split at hd
  · cases hd
  split at hd
  · cases hd
  rename_i hK
  have hK : K ≤ s.cast.length := by omega
  dsimp only at hd
  obtain ⟨ms, hms, rfl⟩ := Option.map_eq_some_iff.1 hd
  obtain ⟨ns, rfl, hns, hval⟩ := numerators hs hK hms
  clear hd hms
  set a : Fin N → ℚ := fun i => powers s (Fin.castAdd K (Fin.castAdd 1 i)) + (ns.map fun n => (n.1 (Fin.castAdd 1 i) : ℚ)).sum with ha
  set c : Fin N → ℚ := fun i => (s.cast.map fun f => (f.mono (Fin.castAdd K (Fin.castAdd 1 i)) : ℚ) * slope f.exponent).sum with hc
  set l : ℤ := (ns.map fun n => n.1 (Fin.last N)).sum with hl
  have hl0 : 0 ≤ l := List.sum_nonneg fun x hx => by
    obtain ⟨n, hn, rfl⟩ := List.mem_map.1 hx
    exact (hns n hn).2 _
  have hpow : ∀ i z, powerAt s i z + (((ns.map fun n => (n.1 (Fin.castAdd 1 i) : ℚ)).sum : ℚ) : ℂ) = ((a i : ℝ) : ℂ) + (c i : ℂ) * z := by
    intro i z
    rw [powerAt_eq hs.affine]
    simp only [ha, hc, Complex.ofReal_ratCast]
    rw [Rat.cast_add]
    ring
  have hreg : ∀ i, ∀ k : ℕ, ((a i : ℚ) : ℝ) + k + 1 = 0 → ((c i : ℚ) : ℂ) ≠ 0 := by
    intro i k h
    have h' : a i + k + 1 = 0 := by exact_mod_cast h
    set M : ℤ := (ns.map fun n => n.1 (Fin.castAdd 1 i)).sum with hM
    have hM0 : 0 ≤ M := List.sum_nonneg fun x hx => by
      obtain ⟨n, hn, rfl⟩ := List.mem_map.1 hx
      exact (hns n hn).2 _
    obtain ⟨m, hm⟩ := Int.eq_ofNat_of_zero_le hM0
    have hp : powers s (Fin.castAdd K (Fin.castAdd 1 i)) = -(((k + m : ℕ) : ℚ) + 1) := by
      simp only [ha, sum_cast] at h'
      rw [← hM, hm] at h'
      push_cast at h' ⊢
      linarith
    obtain ⟨z, hz⟩ := hs.regulated i ⟨k + m, by
      rw [powerAt_eq hs.affine, hp, mul_zero, add_zero]; push_cast; rfl⟩
    intro hc0
    apply hz
    rw [powerAt_eq hs.affine, powerAt_eq hs.affine]
    have : ((c i : ℚ) : ℂ) = (((s.cast.map fun f => (f.mono (Fin.castAdd K (Fin.castAdd 1 i)) : ℚ) * slope f.exponent).sum : ℚ) : ℂ) := rfl
    rw [← this, hc0]
    ring
  have hJ' : ∀ᶠ z in 𝓝[≠] (0 : ℂ), Regulated (fun t => (∏ i, (t i : ℂ) ^ (((a i : ℝ) : ℂ) + (c i : ℂ) * z)) *
      regular φ s ns (fun i => (t i : ℂ)) z) (z ^ (-l) * J z) := by
    filter_upwards [hJ, self_mem_nhdsWithin] with z hz hz0
    have hz0' : z ≠ 0 := hz0
    refine regulated_congr ?_ (regulated_scale (c := z ^ (-l)) hz)
    intro t ht
    rw [integrand_eq hs ht (hval _ _), prod_zpow _ _ hz0', ← hl, ← mul_assoc, ← zpow_add₀ hz0', neg_add_cancel, zpow_zero, one_mul]
    congr 1
    refine Finset.prod_congr rfl fun i _ => ?_
    rw [hpow]
  obtain ⟨κ, hκ, hκ2⟩ := AnalyticReg.regulated_order (regular_ana hs fun n hn => (hns n hn).1) isOpen_univ trivial
    (fun i => (a i : ℝ)) (fun i => (c i : ℂ)) hreg hJ'
  have hpl : powers s (Fin.castAdd K (Fin.last N)) = 0 := by
    unfold powers
    rw [hs.prim _ (by simp), hs.jac _ (by simp)]
    have : (s.cast.map fun f => (f.mono (Fin.castAdd K (Fin.last N)) : ℚ) * atZero f.exponent).sum = 0 := by
      refine List.sum_eq_zero fun x hx => ?_
      obtain ⟨f, hf, rfl⟩ := List.mem_map.1 hx
      rw [(hs.mono f hf).1 _ (by simp)]; simp
    rw [this]; simp
  obtain ⟨l', hl', hdiv⟩ := divergences_eq hN (fun i => powers s (Fin.castAdd K i) + ((ns.map Prod.fst).map fun m => (m i : ℚ)).sum)
    (l := l) (by
      beta_reduce
      rw [hpl, zero_add, List.map_map, hl, ← sum_cast]; rfl) hl0
  refine ⟨_, hdiv, fun z => z ^ (l + l').toNat * κ z, (analyticAt_id.pow _).mul hκ, ?_⟩
  filter_upwards [hκ2, self_mem_nhdsWithin] with z hz hz0
  have hz0' : z ≠ 0 := hz0
  have hcount : ((List.finRange N).filter fun i => ((a i : ℚ) : ℝ) < 0).length = ((List.finRange N).filter fun i =>
      powers s (Fin.castAdd K (Fin.castAdd 1 i)) + ((ns.map Prod.fst).map fun m => (m (Fin.castAdd 1 i) : ℚ)).sum < 0).length := by
    congr 1
    refine List.filter_congr fun i _ => ?_
    simp only [List.map_map, Function.comp_def]
    have : ((a i : ℚ) : ℝ) < 0 ↔ a i < 0 := by exact_mod_cast Iff.rfl
    exact decide_eq_decide.2 this
  rw [hcount] at hz
  generalize List.length _ = n0 at hz ⊢
  have e1 : z ^ (l + l').toNat = z ^ (l + l') := by rw [← zpow_natCast, Int.toNat_of_nonneg (by omega)]
  have e2 : J z = z ^ l * (z ^ (-l) * J z) := by rw [← mul_assoc, ← zpow_add₀ hz0', add_neg_cancel, zpow_zero, one_mul]
  rw [e2, hz, e1, ← mul_assoc, ← mul_assoc, ← zpow_add₀ hz0', ← zpow_add₀ hz0']
  congr 2
  ring

end LeadingOrder
end SecDec
