import Verif.Proof.RefineWall
import Verif.Spec.Refine
/-
C40: refinement of the integrals in amplitude.hpp.
-/
namespace SecDec
namespace Refine
open Unc
variable {ι : Type} [DecidableEq ι] [Fintype ι]

/-- The error mode by its name. -/
def ErrorMode.spec : ErrorMode → ErrMode
  | .abs => .abs
  | .all => .all
  | .largest => .largest
  | .real => .real
  | .imag => .imag

/-- The settings of a sum make sense: nonnegative goals of which one is positive, a lower limit for errors, and the numbers of
evaluations may at least double in one round. -/
structure Sum.Sane (S : Sum ι) : Prop where
  epsrel : 0 ≤ S.epsrel
  epsabs : 0 ≤ S.epsabs
  goal : 0 < S.epsrel ∨ 0 < S.epsabs
  maxEpsabs : 0 < S.maxEpsabs
  maxeval : S.maxeval ≤ llongMax
  maxincreasefac : 2 ≤ S.maxincreasefac

/-- The integral of the term `t` is not refined any further: the integrator cannot, or the largest number of evaluations is
reached, or its own error is smaller than the smallest one asked for. -/
def Final (S : Sum ι) (m : ℂ → ℝ) (s : State ι) (t : ι × ℂ) : Prop :=
  (s t.1).allowRefine = false ∨ S.maxeval ≤ (s t.1).n ∨ m ((s t.1).result.uncertainty * t.2) < S.maxEpsabs ∨
    ((s t.1).result.value * t.2 ≠ 0 ∧ m ((s t.1).result.uncertainty * t.2) / ‖(s t.1).result.value * t.2‖ < S.maxEpsrel)

omit [Fintype ι] in
theorem effEpsrel_eq {S : Sum ι} (h : S.Sane) : S.effEpsrel = S.epsrel := by
  unfold Sum.effEpsrel
  rw [if_neg]
  rintro ⟨h1, h2⟩
  rcases h.goal with h' | h' <;> linarith

omit [Fintype ι] in
/-- One sum in a round in which nothing is planned. -/
theorem goal_met {kind : ι → Kind} {cfg : Config} (hlim : cfg.wallClockLimit = none) {env : Env ι} {mode : ErrorMode} {s : State ι}
    (hs : Settled s) (hn : ∀ i, 1 ≤ (s i).n) (htime : ∀ i, 0 < (s i).time) {S : Sum ι} (hS : S.Sane)
    (hq : (ensureErrorGoal kind cfg env mode (s, false) S).2 = false)
    (hcoef : mode = .abs ∨ ∀ t ∈ S.summands, t.2.im = 0) :
    (partOf mode (computeSum s S).uncertainty).apply (computeSum s S).uncertainty ≤ errorGoal mode S (computeSum s S) ∨
    (∃ t ∈ S.summands, (partOf mode (computeSum s S).uncertainty).apply (computeSum s S).uncertainty ≤
      errorGoal mode S (computeSum s S) * (1 + 1 / ((s t.1).n : ℝ)) ^ (kind t.1).scaleexpo) ∨
    ∃ t ∈ S.summands, Final S (partOf mode (computeSum s S).uncertainty).apply s t := by
  classical
  obtain ⟨-, hq⟩ := ensureErrorGoal_quiet hs S hq
  set e := (computeSum s S).uncertainty with he
  set p := partOf mode e with hp
  set goal := errorGoal mode S (computeSum s S) with hgoal
  rcases hq with hq | hq
  · exact Or.inl hq.le
  by_cases hfin : ∃ t ∈ S.summands, Final S p.apply s t
  · exact Or.inr (Or.inr hfin)
  push Not at hfin
  have hp' : p = .abs ∨ ∀ t ∈ S.summands.map (fun t => (t.2, (s t.1).result)), t.1.im = 0 := by
    rcases hcoef with rfl | h
    · exact Or.inl rfl
    · refine Or.inr fun t ht => ?_
      obtain ⟨t', ht', rfl⟩ := List.mem_map.1 ht
      exact h t' ht'
  have hvar := weighted_var p _ hp'
  have hvar' : p.apply e ^ 2 = ((S.summands.map (termData kind p S s)).map (·.absvar)).sum := by
    rw [he, computeSum, hvar, List.map_map, List.map_map]
    rfl
  set l := S.summands.map (termData kind p S s) with hl
  have herr : ∀ t ∈ S.summands, S.maxEpsabs ≤ p.apply ((s t.1).result.uncertainty * t.2) := by
    intro t ht
    have := hfin t ht
    unfold Final at this
    push Not at this
    exact this.2.2.1
  have hc : ∀ t ∈ S.summands, 0 < cOf p S (s t.1) t.2 := by
    intro t ht
    have hf := hfin t ht
    unfold Final at hf
    push Not at hf
    unfold cOf
    dsimp only
    rw [if_neg]
    · exact div_pos (Real.sqrt_pos.2 (htime _)) (lt_of_lt_of_le hS.maxEpsabs (herr t ht))
    · rintro (h1 | h1 | h1)
      · exact hf.1 h1
      · exact absurd h1.2 (not_lt.2 (hf.2.2.2 h1.1))
      · linarith [herr t ht]
  have hpos : ∀ d ∈ l, Pos d := by
    intro d hd
    obtain ⟨t, ht, rfl⟩ := List.mem_map.1 hd
    have h1 := herr t ht
    have h2 := hS.maxEpsabs
    exact ⟨hc t ht, by show 0 < _ * _; nlinarith, scaleexpo_pos _⟩
  by_cases hempty : S.summands = []
  · left
    have h0 : p.apply e ^ 2 = 0 := by rw [hvar', hl, hempty]; simp
    have h1 : p.apply e = 0 := by simpa using h0
    rw [h1, hgoal, errorGoal]
    exact le_max_of_le_right hS.epsabs
  have hlne : l ≠ [] := by simpa [hl] using hempty
  have hepos : 0 < p.apply e := by
    have : 0 < p.apply e ^ 2 := by
      rw [hvar']
      refine List.sum_pos _ ?_ (by simpa using hlne)
      intro x hx
      obtain ⟨d, hd, rfl⟩ := List.mem_map.1 hx
      exact (hpos d hd).2.1
    exact lt_of_le_of_ne (part_nonneg p e) (fun h => by rw [← h] at this; simp at this)
  have hgpos : 0 < goal := by
    rw [hgoal, errorGoal, effEpsrel_eq hS]
    rcases hS.goal with h | h
    · exact lt_max_of_lt_left (lt_max_of_lt_right (mul_pos hepos h))
    · exact lt_max_of_lt_right h
  have hfac := facLoop_spec hpos hlne (mul_pos hgpos hgpos) env.facPasses
  have hfo : facOf cfg env l goal = facLoop l (goal * goal) env.facPasses true 1 := by
    unfold facOf; simp [hlim]
  rw [hfo] at hq
  set f := facLoop l (goal * goal) env.facPasses true 1 with hf
  have hgrow : ∀ t ∈ S.summands, growth (termData kind p S s t) f ≤ 1 + 1 / ((s t.1).n : ℝ) := by
    intro t ht
    have h1 := hq t ht (hc t ht)
    have hfin' := hfin t ht
    unfold Final at hfin'
    push Not at hfin'
    have hlt := hfin'.2.1
    unfold proposedN at h1
    have hnp : (0 : ℝ) < (s t.1).n := by exact_mod_cast hn t.1
    have h2 : ⌊min ((s t.1).n * (termData kind p S s t).c ^ (-beta (kind t.1).scaleexpo) * f ^ (0.5 / (kind t.1).scaleexpo)) (llongMax : ℝ)⌋₊
        ≤ (s t.1).n := by
      rcases min_le_iff.1 h1 with h | h
      · omega
      · exact (le_max_right _ _).trans h
    have h3 := Nat.lt_of_floor_lt (Nat.lt_succ_of_le h2)
    have h4 : (((s t.1).n + 1 : ℕ) : ℝ) ≤ (llongMax : ℝ) := by
      have := hS.maxeval
      exact_mod_cast (by omega : (s t.1).n + 1 ≤ llongMax)
    have h5 : ((s t.1).n : ℝ) * growth (termData kind p S s t) f < (s t.1).n + 1 := by
      rcases min_lt_iff.1 h3 with h | h
      · have e : ((s t.1).n : ℝ) * growth (termData kind p S s t) f =
            (s t.1).n * (termData kind p S s t).c ^ (-beta (kind t.1).scaleexpo) * f ^ (0.5 / (kind t.1).scaleexpo) := by
          simp only [growth, termData]; ring
        rw [e]; simpa using h
      · exfalso
        simp only [Nat.succ_eq_add_one] at h
        linarith
    have e : (1 : ℝ) + 1 / (s t.1).n = ((s t.1).n + 1) / (s t.1).n := by field_simp
    rw [e, le_div_iff₀ hnp]
    linarith
  let R : ι × ℂ → ℝ := fun t => (1 + 1 / ((s t.1).n : ℝ)) ^ (2 * (kind t.1).scaleexpo)
  obtain ⟨t0, ht0, hmax⟩ := S.summands.toFinset.exists_max_image R (by
    rw [List.toFinset_nonempty_iff]; exact hempty)
  have ht0' : t0 ∈ S.summands := by simpa using ht0
  have hbase : ∀ t : ι × ℂ, (1 : ℝ) ≤ 1 + 1 / ((s t.1).n : ℝ) := fun t => by
    have : (0 : ℝ) ≤ 1 / ((s t.1).n : ℝ) := by positivity
    linarith
  have htot := total_le hpos hfac.1 hfac.2 (R := R t0)
    (Real.one_le_rpow (hbase t0) (by have := scaleexpo_pos (kind t0.1); positivity)) (by
    intro d hd
    obtain ⟨t, ht, rfl⟩ := List.mem_map.1 hd
    refine le_trans ?_ (hmax t (by simpa using ht))
    exact Real.rpow_le_rpow (growth_pos (hpos _ hd) hfac.1).le (hgrow t ht) (by
      have := scaleexpo_pos (kind t.1); show 0 ≤ 2 * (kind t.1).scaleexpo; positivity))
  refine Or.inr (Or.inl ⟨t0, ht0', ?_⟩)
  rw [← hvar'] at htot
  have hR : R t0 = ((1 + 1 / ((s t0.1).n : ℝ)) ^ (kind t0.1).scaleexpo) ^ 2 := by
    show (1 + 1 / ((s t0.1).n : ℝ)) ^ (2 * (kind t0.1).scaleexpo) = _
    rw [mul_comm, Real.rpow_mul (by linarith [hbase t0]), Real.rpow_two]
  have hr0 : 0 ≤ (1 + 1 / ((s t0.1).n : ℝ)) ^ (kind t0.1).scaleexpo := Real.rpow_nonneg (by linarith [hbase t0]) _
  rw [hR] at htot
  refine le_of_sq_le_sq ?_ (mul_nonneg hgpos.le hr0)
  nlinarith [htot]

omit [Fintype ι] in
theorem errorGoal_eq {S : Sum ι} (h : S.Sane) (mode : ErrorMode) (hmode : mode ≠ .all) (r : CDev) :
    errorGoal mode S r = goalOf mode.spec (partOf mode r.uncertainty).apply S.epsrel S.epsabs r.value r.uncertainty := by
  have key : ∀ a b : ℝ, max (max (S.epsrel * a) (b * S.epsrel)) S.epsabs = max (S.epsrel * max a b) S.epsabs := fun a b => by
    rw [mul_comm b, mul_max_of_nonneg _ _ h.epsrel]
  unfold errorGoal goalOf
  rw [effEpsrel_eq h]
  cases mode <;> simp_all [ErrorMode.spec, ErrMode.scale]

/-- C40: when the refinement ends (without a time limit), the error of every sum has reached its goal, up to the rounding of one
function evaluation, or one of its integrals cannot be refined any further. -/
theorem C40_goal_met (kind : ι → Kind) (cfg : Config) (sums : List (Sum ι)) (env0 : Env ι) (env1 env2 : ℕ → Env ι) (fuel : ℕ)
    (next : ι → ℕ) (hlim : cfg.wallClockLimit = none) (hpct : 0 ≤ cfg.decreaseToPercentage) (hsane : ∀ S ∈ sums, S.Sane)
    (he0 : Honest kind env0) (he1 : ∀ k, Honest kind (env1 k)) (he2 : ∀ k, Honest kind (env2 k))
    (ht0 : PosTime env0) (ht1 : ∀ k, PosTime (env1 k)) (ht2 : ∀ k, PosTime (env2 k)) {s : State ι}
    (h : refineIntegrals kind cfg sums env0 env1 env2 fuel (initial next) = some s) {S : Sum ι} (hS : S ∈ sums)
    (hcoef : cfg.errormode = .abs ∨ ∀ t ∈ S.summands, t.2.im = 0)
    {m : ℂ → ℝ} (hm : m ∈ cfg.errormode.spec.measures (computeSum s S).uncertainty) {goal : ℝ}
    (hg : goal = goalOf cfg.errormode.spec m S.epsrel S.epsabs (computeSum s S).value (computeSum s S).uncertainty) :
    m (computeSum s S).uncertainty ≤ goal ∨
    (∃ t ∈ S.summands, m (computeSum s S).uncertainty ≤ goal * (1 + 1 / ((s t.1).n : ℝ)) ^ (kind t.1).scaleexpo) ∨
    ∃ t ∈ S.summands, Final S m s t := by
  obtain ⟨s1, h1, h⟩ := Option.bind_eq_some_iff.1 h
  obtain ⟨s2, h2, h⟩ := Option.bind_eq_some_iff.1 h
  obtain ⟨B, hB⟩ : ∃ B, ∀ S ∈ sums, S.maxeval ≤ B :=
    ⟨(sums.map (·.maxeval)).sum, fun S hS => List.single_le_sum (by simp) _ (List.mem_map_of_mem hS)⟩
  have hinc : ∀ S ∈ sums, 2 ≤ S.maxincreasefac := fun S hS => (hsane S hS).maxincreasefac
  have r1 := ready_start he0 ht0 h1
  have hr1 : ∀ k s, Ready s → Ready (precRound kind cfg sums (env1 k) s).1 := fun k s hs => by
    obtain ⟨p, hp, hp'⟩ := precRound_inv (kind := kind) hpct hB hinc (env1 k) hs.settled hs.computed
    rw [hp']; exact (ready_evaluate (he1 k) (ht1 k) hs hp).1
  have hr2 : ∀ k s, Ready s → Ready (goalRound kind cfg sums (env2 k) s).1 := fun k s hs => by
    obtain ⟨p, hp, hp'⟩ := goalRound_inv (kind := kind) (cfg := cfg) hB hinc (env2 k) hs.settled hs.computed
    rw [hp']; exact (ready_evaluate (he2 k) (ht2 k) hs hp).1
  obtain ⟨k, s', r', hlast⟩ := doWhile_last Ready hr1 fuel r1 h2
  have r2 : Ready s2 := by have := hr1 k s' r'; rw [hlast] at this; exact this
  obtain ⟨k, s', r', hlast⟩ := doWhile_last Ready hr2 fuel r2 h
  obtain ⟨rfl, hq⟩ := goalRound_quiet hlim r'.settled hlast
  have main : ∀ mode ∈ (if cfg.errormode = .all then [ErrorMode.real, .imag] else [cfg.errormode]),
      m = (partOf mode (computeSum s S).uncertainty).apply → goal = errorGoal mode S (computeSum s S) → _ := fun mode hmode e1 e2 => by
    have := goal_met hlim r'.settled r'.computed r'.time (hsane S hS) (hq S hS mode hmode) (by
      rcases hcoef with hc | hc
      · left
        rw [hc] at hmode
        simpa using hmode
      · exact Or.inr hc)
    rw [← e1, ← e2] at this
    exact this
  have hsane' := hsane S hS
  rcases hmode : cfg.errormode with _ | _ | _ | _ | _ <;> rw [hmode] at hm hg main <;>
    simp only [ErrorMode.spec, ErrMode.measures, List.mem_cons, List.not_mem_nil, or_false] at hm
  · refine main .abs (by simp) hm ?_
    rw [hg, errorGoal_eq hsane' _ (by simp), hm]; rfl
  · rcases hm with hm | hm
    · refine main .real (by simp) hm ?_
      rw [hg, errorGoal_eq hsane' _ (by simp), hm]; rfl
    · refine main .imag (by simp) hm ?_
      rw [hg, errorGoal_eq hsane' _ (by simp), hm]; rfl
  · have hm' : m = (partOf .largest (computeSum s S).uncertainty).apply := by
      unfold partOf
      simp only [gt_iff_lt]
      split
      · rename_i h1
        rw [if_pos h1] at hm
        simp only [List.mem_cons, List.not_mem_nil, or_false] at hm
        rw [hm]; rfl
      · rename_i h1
        rw [if_neg h1] at hm
        simp only [List.mem_cons, List.not_mem_nil, or_false] at hm
        rw [hm]; rfl
    refine main .largest (by simp) hm' ?_
    rw [hg, errorGoal_eq hsane' _ (by simp), ← hm']
  · refine main .real (by simp) hm ?_
    rw [hg, errorGoal_eq hsane' _ (by simp), hm]; rfl
  · refine main .imag (by simp) hm ?_
    rw [hg, errorGoal_eq hsane' _ (by simp), hm]; rfl

/-- C40: the refinement ends, with or without a time limit, whatever the integrators return. -/
theorem C40_terminates (kind : ι → Kind) (cfg : Config) (sums : List (Sum ι)) (env0 : Env ι) (env1 env2 : ℕ → Env ι)
    (next : ι → ℕ) (hpct : 0 ≤ cfg.decreaseToPercentage) (hinc : ∀ S ∈ sums, 2 ≤ S.maxincreasefac)
    (he0 : Honest kind env0) (he1 : ∀ k, Honest kind (env1 k)) (he2 : ∀ k, Honest kind (env2 k))
    (hqmc : ∀ i g, kind i = .qmc g → ∀ m, 1 ≤ g m)
    (hmin : ∀ i, 1 ≤ next i ∨ ∃ S ∈ sums, 1 ≤ S.mineval ∧ ∃ c, (i, c) ∈ S.summands) :
    ∃ fuel s, refineIntegrals kind cfg sums env0 env1 env2 fuel (initial next) = some s := by
  obtain ⟨s1, h1⟩ := start_some (kind := kind) (sums := sums) he0 hqmc hmin
  have b1 : Base s1 := ⟨(start_spec he0 h1).1, (start_spec he0 h1).2⟩
  obtain ⟨B, hB⟩ : ∃ B, ∀ S ∈ sums, S.maxeval ≤ B :=
    ⟨(sums.map (·.maxeval)).sum, fun S hS => List.single_le_sum (by simp) _ (List.mem_map_of_mem hS)⟩
  obtain ⟨s2, h2, b2⟩ := doWhile_terminates (round := fun k => precRound kind cfg sums (env1 k)) (B := B) Base (fun k s hs => by
    obtain ⟨p, hp, hp'⟩ := precRound_inv (kind := kind) hpct hB hinc (env1 k) hs.settled hs.computed
    rw [hp']; exact base_evaluate (he1 k) hs hp) _ 0 s1 b1 le_rfl
  obtain ⟨s3, h3, -⟩ := doWhile_terminates (round := fun k => goalRound kind cfg sums (env2 k)) (B := B) Base (fun k s hs => by
    obtain ⟨p, hp, hp'⟩ := goalRound_inv (kind := kind) (cfg := cfg) hB hinc (env2 k) hs.settled hs.computed
    rw [hp']; exact base_evaluate (he2 k) hs hp) _ 0 s2 b2 le_rfl
  refine ⟨max (rank B s1 + 1) (rank B s2 + 1), s3, ?_⟩
  unfold refineIntegrals
  rw [h1, Option.bind_some, doWhile_more _ h2 _ (le_max_left _ _), Option.bind_some, doWhile_more _ h3 _ (le_max_right _ _)]

/-- C40: compared to the first evaluation, no integral is left with fewer evaluations, and no integral computed with the QMC with a
larger error. -/
theorem C40_error_never_grows (kind : ι → Kind) (cfg : Config) (sums : List (Sum ι)) (env0 : Env ι) (env1 env2 : ℕ → Env ι) (fuel : ℕ)
    (next : ι → ℕ) (hpct : 0 ≤ cfg.decreaseToPercentage) (hinc : ∀ S ∈ sums, 2 ≤ S.maxincreasefac)
    (he0 : Honest kind env0) (he1 : ∀ k, Honest kind (env1 k)) (he2 : ∀ k, Honest kind (env2 k)) {s : State ι}
    (h : refineIntegrals kind cfg sums env0 env1 env2 fuel (initial next) = some s) :
    ∃ s0, start kind sums env0 (initial next) = some s0 ∧ ∀ i, (s0 i).n ≤ (s i).n ∧
      ((∃ g, kind i = .qmc g) → ‖(s i).result.uncertainty‖ ≤ ‖(s0 i).result.uncertainty‖) := by
  obtain ⟨s1, h1, h⟩ := Option.bind_eq_some_iff.1 h
  obtain ⟨s2, h2, h⟩ := Option.bind_eq_some_iff.1 h
  have b1 : Base s1 := ⟨(start_spec he0 h1).1, (start_spec he0 h1).2⟩
  obtain ⟨B, hB⟩ : ∃ B, ∀ S ∈ sums, S.maxeval ≤ B :=
    ⟨(sums.map (·.maxeval)).sum, fun S hS => List.single_le_sum (by simp) _ (List.mem_map_of_mem hS)⟩
  obtain ⟨b2, t2⟩ := doWhile_rel Base (Better kind) (Better.refl kind) (fun _ _ _ => Better.trans) (fun k s hs => by
    obtain ⟨p, hp, hp'⟩ := precRound_inv (kind := kind) hpct hB hinc (env1 k) hs.settled hs.computed
    rw [hp']; exact ⟨(base_evaluate (he1 k) hs hp).1, better_evaluate (he1 k) hs hp⟩) _ b1 h2
  obtain ⟨b3, t3⟩ := doWhile_rel Base (Better kind) (Better.refl kind) (fun _ _ _ => Better.trans) (fun k s hs => by
    obtain ⟨p, hp, hp'⟩ := goalRound_inv (kind := kind) (cfg := cfg) hB hinc (env2 k) hs.settled hs.computed
    rw [hp']; exact ⟨(base_evaluate (he2 k) hs hp).1, better_evaluate (he2 k) hs hp⟩) _ b2 h
  exact ⟨s1, h1, t2.trans t3⟩

/-- C40: the time limit.  In every round the integrals are evaluated with numbers of points for which the estimated time, in proportion to
the previous evaluation, is at most the remaining time (in the first loop, `decrease_to_percentage` of it); when no time remains
no integral is evaluated and the loop ends. -/
theorem C40_wall_clock (kind : ι → Kind) (cfg : Config) (sums : List (Sum ι)) (env : Env ι) (hpct : 0 ≤ cfg.decreaseToPercentage)
    (hmd : 0 ≤ cfg.minDecreaseFactor) (hinc : ∀ S ∈ sums, 2 ≤ S.maxincreasefac) {limit : ℝ} (hl : cfg.wallClockLimit = some limit)
    {s : State ι} (hs : ∀ i, (s i).next = (s i).n) (hn : ∀ i, 1 ≤ (s i).n) (ht : ∀ i, 0 ≤ (s i).time) :
    (∃ plan : ι → ℕ, (∀ i, (s i).n ≤ plan i) ∧
      (precRound kind cfg sums env s).1 = evaluate kind env (fun i => { s i with next := plan i }) ∧
      (env.elapsed < limit → (∑ i, if (s i).n < plan i then (s i).time * (plan i / (s i).n) else 0) ≤
        (limit - env.elapsed) * cfg.decreaseToPercentage) ∧
      (limit ≤ env.elapsed → precRound kind cfg sums env s = (s, false))) ∧
    (∃ plan : ι → ℕ, (∀ i, (s i).n ≤ plan i) ∧
      (goalRound kind cfg sums env s).1 = evaluate kind env (fun i => { s i with next := plan i }) ∧
      (env.elapsed < limit → (∑ i, if (s i).n < plan i then (s i).time * (plan i / (s i).n) else 0) ≤ limit - env.elapsed) ∧
      (limit ≤ env.elapsed → goalRound kind cfg sums env s = (s, false))) := by
  obtain ⟨B, hB⟩ : ∃ B, ∀ S ∈ sums, S.maxeval ≤ B :=
    ⟨(sums.map (·.maxeval)).sum, fun S hS => List.single_le_sum (by simp) _ (List.mem_map_of_mem hS)⟩
  have hs' : Settled s := hs
  have main : ∀ (pct : ℝ) (st : State ι × Bool), 0 ≤ pct → PlanInv B s st →
      ∃ plan : ι → ℕ, (∀ i, (s i).n ≤ plan i) ∧
      evaluate kind env (ensureWallClock cfg pct env.elapsed st).1 = evaluate kind env (fun i => { s i with next := plan i }) ∧
      (env.elapsed < limit → (∑ i, if (s i).n < plan i then (s i).time * (plan i / (s i).n) else 0) ≤
        (limit - env.elapsed) * pct) ∧
      (limit ≤ env.elapsed → (evaluate kind env (ensureWallClock cfg pct env.elapsed st).1,
        (ensureWallClock cfg pct env.elapsed st).2) = (s, false)) := by
    intro pct st hp h
    obtain ⟨w1, w2, -⟩ := ensureWallClock_time (e := env.elapsed) hmd hl hp hn ht h
    have hinv := ensureWallClock_inv (cfg := cfg) (e := env.elapsed) hp hn h
    have heq : (ensureWallClock cfg pct env.elapsed st).1 =
        fun i => { s i with next := ((ensureWallClock cfg pct env.elapsed st).1 i).next } := by
      funext i
      obtain ⟨e1, e2, e3, e4⟩ := hinv.same i
      dsimp only
      rw [← e1, ← e2, ← e3, ← e4]
    set r := ensureWallClock cfg pct env.elapsed st with hr
    refine ⟨fun i => (r.1 i).next, fun i => ?_, by rw [← heq], fun h1 => ?_, fun h1 => ?_⟩
    · rw [← (hinv.same i).1]; exact (hinv.planned i).1
    · refine le_trans (le_of_eq ?_) (w1 h1)
      unfold timeNext
      refine Finset.sum_congr rfl fun i _ => ?_
      rw [(hinv.same i).1, (hinv.same i).2.2.2]
      simp [(hinv.same i).1]
    · obtain ⟨n1, n2⟩ := w2 h1
      have : r.1 = s := by
        rw [heq]
        funext i
        have e : (r.1 i).next = (s i).next := by rw [n1 i, (hinv.same i).1, hs i]
        rw [e]
      rw [n2, this, evaluate_settled hs']
  refine ⟨?_, ?_⟩
  · unfold precRound
    refine main _ _ hpct (maxinc_inv hn sums hinc ?_)
    refine foldl_inv (PlanInv B s) _ _ (fun st h S hS => ?_) _ ⟨Same.refl s, hs'.planned B, fun h => by simp at h⟩
    exact foldl_inv (PlanInv B s) _ _ (fun st h t _ => minPrecTerm_inv (hB S hS) h t) _ h
  · have h0 : PlanInv B s (s, false) := ⟨Same.refl s, hs'.planned B, fun h => by simp at h⟩
    have hfold : ∀ mode st, PlanInv B s st → PlanInv B s (sums.foldl (ensureErrorGoal kind cfg env mode) st) := fun mode st h =>
      foldl_inv (PlanInv B s) _ _ (fun st h S hS => ensureErrorGoal_inv (hB S hS) h) _ h
    have := main 1 (sums.foldl ensureMaxincreasefac (if cfg.errormode = .all then
      sums.foldl (ensureErrorGoal kind cfg env .imag) (sums.foldl (ensureErrorGoal kind cfg env .real) (s, false))
      else sums.foldl (ensureErrorGoal kind cfg env cfg.errormode) (s, false)).1, (if cfg.errormode = .all then
      sums.foldl (ensureErrorGoal kind cfg env .imag) (sums.foldl (ensureErrorGoal kind cfg env .real) (s, false))
      else sums.foldl (ensureErrorGoal kind cfg env cfg.errormode) (s, false)).2) zero_le_one (maxinc_inv hn sums hinc (by
        split
        · exact hfold _ _ (hfold _ _ h0)
        · exact hfold _ _ h0))
    rw [mul_one] at this
    exact this

/-- C40: the planned numbers of evaluations suffice.  If all terms can be refined and the errors of the integrals fall like
`n^(-scaleexpo)`, then with the numbers `max n (n c^(-beta) fac^(1/(2 scaleexpo)))` from `ensure_error_goal` the error of the sum
reaches the goal. -/
theorem C40_plan_meets_goal (l : List TermData) (hl : ∀ d ∈ l, 0 < d.c ∧ 0 < d.absvar ∧ 0 < d.scaleexpo) {goal : ℝ} (hg : 0 < goal)
    (passes : ℕ) (n : TermData → ℝ) (hn : ∀ d ∈ l, 0 < n d) {f : ℝ} (hf : f = facLoop l (goal * goal) passes true 1) :
    √(l.map fun d => (√d.absvar * (max (n d) (n d * d.c ^ (-beta d.scaleexpo) * f ^ (0.5 / d.scaleexpo)) / n d) ^ (-d.scaleexpo)) ^ 2).sum
      ≤ goal := by
  by_cases hne : l = []
  · subst hne; simp [hg.le]
  have hpos : ∀ d ∈ l, Pos d := hl
  obtain ⟨f0, f1⟩ := facLoop_spec hpos hne (mul_pos hg hg) passes
  rw [← hf] at f0 f1
  rw [Real.sqrt_le_left hg.le]
  have key : (l.map fun d => (√d.absvar * (max (n d) (n d * d.c ^ (-beta d.scaleexpo) * f ^ (0.5 / d.scaleexpo)) / n d) ^ (-d.scaleexpo)) ^ 2).sum
      ≤ hsum l f / f := by
    unfold hsum
    rw [div_eq_mul_inv, ← List.sum_map_mul_right]
    refine List.sum_le_sum fun d hd => ?_
    obtain ⟨hc, hv, hs⟩ := hl d hd
    have hnd := hn d hd
    have hgp := growth_pos (hpos d hd) f0
    have e1 : max (n d) (n d * d.c ^ (-beta d.scaleexpo) * f ^ (0.5 / d.scaleexpo)) / n d = max 1 (growth d f) := by
      have : n d * d.c ^ (-beta d.scaleexpo) * f ^ (0.5 / d.scaleexpo) = n d * growth d f := by unfold growth; ring
      rw [this, ← max_div_div_right hnd.le, div_self hnd.ne', mul_div_cancel_left₀ _ hnd.ne']
    have hmax : 0 < max 1 (growth d f) := lt_max_of_lt_left one_pos
    rw [e1, mul_pow, Real.sq_sqrt hv.le, mul_assoc]
    refine mul_le_mul_of_nonneg_left ?_ hv.le
    have e2 : (max 1 (growth d f) ^ (-d.scaleexpo)) ^ 2 = (max 1 (growth d f) ^ (2 * d.scaleexpo))⁻¹ := by
      rw [← Real.rpow_two, ← Real.rpow_mul hmax.le, ← Real.rpow_neg hmax.le]
      congr 1; ring
    rw [e2, min_mul_of_nonneg _ _ (inv_nonneg.2 f0.le), mul_inv_cancel₀ f0.ne']
    refine le_min ?_ ?_
    · have h1 : growth d f ^ (2 * d.scaleexpo) ≤ max 1 (growth d f) ^ (2 * d.scaleexpo) :=
        Real.rpow_le_rpow hgp.le (le_max_right _ _) (by positivity)
      rw [growth_rpow (hpos d hd) f0] at h1
      have hcc := cc_pos (hpos d hd)
      calc (max 1 (growth d f) ^ (2 * d.scaleexpo))⁻¹ ≤ (f / cc d)⁻¹ := inv_anti₀ (div_pos f0 hcc) h1
        _ = cc d * f⁻¹ := by rw [inv_div, div_eq_mul_inv]
    · exact inv_le_one_of_one_le₀ (Real.one_le_rpow (le_max_left _ _) (by positivity))
  refine key.trans ?_
  rw [div_le_iff₀ f0, sq]
  exact f1

omit [Fintype ι] in
/-- C40: sums and multiples of sums: `+=` and `*=` act on the values as they should, and no integral occurs twice. -/
theorem C40_merge (a b : List (ι × ℂ)) (c : ℂ) (v : ι → ℂ) :
    ((addTerms a b).map fun t => t.2 * v t.1).sum = (a.map fun t => t.2 * v t.1).sum + (b.map fun t => t.2 * v t.1).sum ∧
    ((mulTerms a c).map fun t => t.2 * v t.1).sum = c * (a.map fun t => t.2 * v t.1).sum ∧
    ((a.map Prod.fst).Nodup → ((addTerms a b).map Prod.fst).Nodup ∧ ((mulTerms a c).map Prod.fst).Nodup) := by
  refine ⟨?_, ?_, fun h => ⟨?_, ?_⟩⟩
  · unfold addTerms
    induction b generalizing a with
    | nil => simp
    | cons y b ih =>
      rw [List.foldl_cons, ih]
      have := addTerm_sum v a y
      simp only [smul_eq_mul] at this
      rw [this, List.map_cons, List.sum_cons]; ring
  · unfold mulTerms
    rw [List.map_map, ← List.sum_map_mul_left]
    congr 1
    refine List.map_congr_left fun t _ => ?_
    simp only [Function.comp]; ring
  · unfold addTerms
    refine foldl_inv (fun l : List (ι × ℂ) => (l.map Prod.fst).Nodup) addTerm b (fun l hl y _ => ?_) a h
    rw [addTerm_keys]
    split
    · exact hl
    · rename_i h2
      exact List.nodup_append.2 ⟨hl, by simp, fun x hx y' hy' e => by
        simp only [List.mem_cons, List.not_mem_nil, or_false] at hy'
        subst hy'; subst e; exact h2 hx⟩
  · unfold mulTerms
    rw [List.map_map]
    exact h

/-! ### where the claim fails -/

/-- The settings of the following examples. -/
noncomputable def demoCfg (mode : ErrorMode) : Config := ⟨mode, none, 0.7, 0.9⟩

/-- A sum with goal one for the absolute error. -/
noncomputable def demoSum {κ : Type} (l : List (κ × ℂ)) (maxincreasefac : ℝ) : Sum κ :=
  ⟨l, 0, 1, 1000, 1, maxincreasefac, 1, 1, 1 / 100, 1 / 100⟩

/-- C40 fails if the number of evaluations cannot grow: with `maxincreasefac = 1` the goal is not reached, the plan is always
cut back to the current number of evaluations, and the loop never ends. -/
theorem C40_maxincreasefac_defect (env : ℕ → Env Unit) (fuel : ℕ) :
    doWhile (fun k => goalRound (fun _ => Kind.cuba false) (demoCfg .abs) [demoSum [((), 1)] 1] (env k)) fuel 0
      (fun _ => ⟨100, 100, true, ⟨0, 2⟩, 4⟩) = none := by
  have hround : ∀ e : Env Unit, goalRound (fun _ => Kind.cuba false) (demoCfg .abs) [demoSum [((), 1)] 1] e
      (fun _ => ⟨100, 100, true, ⟨0, 2⟩, 4⟩) = ((fun _ => ⟨100, 100, true, ⟨0, 2⟩, 4⟩), true) := by
    intro e
    have hsum : (computeSum (fun _ : Unit => (⟨100, 100, true, ⟨0, 2⟩, 4⟩ : Integral)) (demoSum [((), 1)] 1)) = ⟨0, 2⟩ := by
      simp [computeSum, demoSum, CDev.weightedSum, CDev.mulNum, CDev.ofParts, CDev.re, CDev.im, Dev.mulNum, Dev.sub, Dev.add, CDev.add]
      constructor <;> apply Complex.ext <;> simp
    have hgoal : errorGoal .abs (demoSum [((), 1)] 1 : Sum Unit) ⟨0, 2⟩ = 1 := by
      simp [errorGoal, partOf, Part.apply, Sum.effEpsrel, demoSum]
    have hdata : termData (fun _ : Unit => Kind.cuba false) .abs (demoSum [((), 1)] 1) (fun _ => ⟨100, 100, true, ⟨0, 2⟩, 4⟩) ((), 1)
        = ⟨1, 4, 1 / 2, 4⟩ := by
      have h4 : √(4 : ℝ) = 2 := by rw [show (4 : ℝ) = 2 ^ 2 by norm_num]; exact Real.sqrt_sq (by norm_num)
      simp [termData, cOf, Part.apply, demoSum, Kind.scaleexpo, h4]
      norm_num
    have hfac : facLoop [⟨1, 4, 1 / 2, 4⟩] (1 * 1) e.facPasses true 1 = 4 := by
      have h1 : facPass [⟨1, 4, 1 / 2, 4⟩] (1 * 1) true 1 = 4 := by simp [facPass]
      cases e.facPasses <;> simp only [facLoop, h1]
      norm_num
    have hprop : proposedN (demoSum [((), 1)] 1 : Sum Unit) ⟨100, 100, true, ⟨0, 2⟩, 4⟩ 1 (1 / 2) 4 = 400 := by
      have h1 : ((100 : ℕ) : ℝ) * (1 : ℝ) ^ (-beta (1 / 2)) * (4 : ℝ) ^ ((0.5 : ℝ) / (1 / 2)) = (400 : ℕ) := by
        rw [Real.one_rpow, show (0.5 : ℝ) / (1 / 2) = 1 by norm_num, Real.rpow_one]; norm_num
      unfold proposedN
      simp only
      rw [h1]
      have h2 : min (((400 : ℕ) : ℝ)) ((llongMax : ℕ) : ℝ) = ((400 : ℕ) : ℝ) := min_eq_left (by unfold llongMax; norm_num)
      rw [h2, Nat.floor_natCast]
      simp [demoSum]
    have heg : ensureErrorGoal (fun _ : Unit => Kind.cuba false) (demoCfg .abs) e .abs ((fun _ => ⟨100, 100, true, ⟨0, 2⟩, 4⟩), false)
        (demoSum [((), 1)] 1) = ((fun _ => ⟨100, 400, true, ⟨0, 2⟩, 4⟩), true) := by
      unfold ensureErrorGoal
      simp only [hsum, hgoal]
      rw [if_neg (by simp [partOf, Part.apply])]
      have : (demoSum [((), 1)] 1 : Sum Unit).summands = [((), 1)] := rfl
      simp only [this, List.map_cons, List.map_nil, List.foldl_cons, List.foldl_nil, partOf, hdata]
      unfold storeTerm facOf
      simp only [demoCfg, hfac, hprop]
      simp only [gt_iff_lt, one_pos, if_true, Integral.setNext]
      refine Prod.ext (funext fun u => ?_) (by simp)
      cases u
      simp
    have hmax : ensureMaxincreasefac (fun _ : Unit => (⟨100, 400, true, ⟨0, 2⟩, 4⟩ : Integral)) (demoSum [((), 1)] 1)
        = fun _ => ⟨100, 100, true, ⟨0, 2⟩, 4⟩ := by
      unfold ensureMaxincreasefac
      have : (demoSum [((), 1)] 1 : Sum Unit).summands = [((), 1)] := rfl
      simp only [this, List.foldl_cons, List.foldl_nil]
      have h1 : ⌊((100 : ℕ) : ℝ) * (demoSum [((), 1)] 1 : Sum Unit).maxincreasefac⌋₊ = 100 := by
        simp only [demoSum, mul_one]; exact Nat.floor_natCast 100
      rw [h1]
      simp only [gt_iff_lt, Nat.reduceLT, if_true, Integral.setNext]
      funext u; cases u; simp
    unfold goalRound
    have hm : (demoCfg .abs).errormode = .abs := rfl
    simp only [hm, reduceCtorEq, if_false, List.foldl_cons, List.foldl_nil, heg, hmax]
    have hw : ∀ st : State Unit × Bool, ensureWallClock (demoCfg .abs) 1 e.elapsed st = st := fun st => rfl
    rw [hw]
    exact Prod.ext (evaluate_settled (kind := fun _ => Kind.cuba false) (env := e) (s := fun _ : Unit => (⟨100, 100, true, ⟨0, 2⟩, 4⟩ : Integral)) fun _ => rfl) rfl
  have : ∀ k, doWhile (fun k => goalRound (fun _ => Kind.cuba false) (demoCfg .abs) [demoSum [((), 1)] 1] (env k)) fuel k
      (fun _ => ⟨100, 100, true, ⟨0, 2⟩, 4⟩) = none := by
    induction fuel with
    | zero => intro k; rfl
    | succ n ih =>
      intro k
      unfold doWhile
      simp only [hround, if_true]
      exact ih (k+1)
  exact this 0

/-- C40 says nothing if one term of the sum cannot be refined, and indeed the goal may then be missed although it can be reached: the
first integral can be refined, with twice as many evaluations its error (which falls like `1/√n`) would be small enough, but
nothing is done.  The reason: `fac` is determined as if the error of the second integral would fall with `fac`. -/
theorem C40_unrefinable_defect (env : Env Bool) (maxincreasefac : ℝ) :
    let s : State Bool := fun b => if b then ⟨100, 100, true, ⟨0, 0.5⟩, 25⟩ else ⟨100, 100, false, ⟨0, 0.9⟩, 1⟩
    let S : Sum Bool := demoSum [(true, 1), (false, 1)] maxincreasefac
    goalRound (fun b => .cuba (!b)) (demoCfg .abs) [S] env s = (s, false) ∧
    goalOf .abs (fun z => ‖z‖) S.epsrel S.epsabs (computeSum s S).value (computeSum s S).uncertainty = 1 ∧
    ‖(computeSum s S).uncertainty‖ ^ 2 = 0.5 ^ 2 + 0.9 ^ 2 ∧ 1 < ‖(computeSum s S).uncertainty‖ ∧
    (0.5 / √2) ^ 2 + 0.9 ^ 2 < (1 : ℝ) ^ 2 := by
  intro s S
  have hs : Settled s := fun b => by cases b <;> rfl
  have hsum : ‖(computeSum s S).uncertainty‖ ^ 2 = 0.5 ^ 2 + 0.9 ^ 2 := by
    have := weighted_var .abs (S.summands.map fun t => (t.2, (s t.1).result)) (Or.inl rfl)
    refine Eq.trans this ?_
    simp [S, s, demoSum, Part.apply]
    norm_num
  have hgt : 1 < ‖(computeSum s S).uncertainty‖ := by
    by_contra hc
    push Not at hc
    have h0 := norm_nonneg (computeSum s S).uncertainty
    have h1 : ‖(computeSum s S).uncertainty‖ ^ 2 ≤ 1 := by nlinarith
    rw [hsum] at h1
    norm_num at h1
  have hgoal : errorGoal .abs S (computeSum s S) = 1 := by
    simp [errorGoal, partOf, Part.apply, Sum.effEpsrel, S, demoSum]
  refine ⟨?_, ?_, hsum, hgt, ?_⟩
  · have h25 : √(25 : ℝ) = 5 := by rw [show (25 : ℝ) = 5 ^ 2 by norm_num]; exact Real.sqrt_sq (by norm_num)
    have hd1 : termData (fun b => .cuba (!b)) .abs S s (true, 1) = ⟨10, 0.25, 1 / 2, 25⟩ := by
      simp [termData, cOf, Part.apply, S, s, demoSum, Kind.scaleexpo, h25]
      norm_num
    have hd2 : termData (fun b => .cuba (!b)) .abs S s (false, 1) = ⟨-1, 0.81, 1 / 2, 1⟩ := by
      simp [termData, cOf, Part.apply, S, s, demoSum, Kind.scaleexpo]
      norm_num
    have hfac : facLoop [⟨10, 0.25, 1 / 2, 25⟩, ⟨-1, 0.81, 1 / 2, 1⟩] (1 * 1) env.facPasses true 1 = 3.31 := by
      have h1 : facPass [⟨10, 0.25, 1 / 2, 25⟩, ⟨-1, 0.81, 1 / 2, 1⟩] (1 * 1) true 1 = 3.31 := by
        have : (2 : ℝ) * (beta (1 / 2) * (1 / 2)) = 1 := by unfold beta; norm_num
        simp only [facPass, List.map_cons, List.map_nil, List.sum_cons, List.sum_nil, this, Real.rpow_one]
        norm_num
      cases env.facPasses <;> simp only [facLoop, h1]
      norm_num
    have hprop : proposedN S (s true) 10 (1 / 2) 3.31 = 100 := by
      have h1 : (((s true).n : ℕ) : ℝ) * (10 : ℝ) ^ (-beta (1 / 2)) * (3.31 : ℝ) ^ ((0.5 : ℝ) / (1 / 2)) = 33.1 := by
        have e : -beta (1 / 2) = -1 := by unfold beta; norm_num
        rw [e, show (0.5 : ℝ) / (1 / 2) = 1 by norm_num, Real.rpow_one, Real.rpow_neg_one]
        simp [s]; norm_num
      unfold proposedN
      have h2 : min (33.1 : ℝ) ((llongMax : ℕ) : ℝ) = 33.1 := min_eq_left (by unfold llongMax; norm_num)
      rw [h1, h2]
      have : ⌊(33.1 : ℝ)⌋₊ = 33 := by rw [Nat.floor_eq_iff (by norm_num)]; norm_num
      rw [this]
      simp [S, s, demoSum]
    have heg : ensureErrorGoal (fun b => .cuba (!b)) (demoCfg .abs) env .abs (s, false) S = (s, false) := by
      unfold ensureErrorGoal
      simp only [hgoal]
      rw [if_neg (by simpa [partOf, Part.apply] using hgt.le)]
      have : S.summands = [(true, 1), (false, 1)] := rfl
      simp only [this, List.map_cons, List.map_nil, List.foldl_cons, List.foldl_nil, partOf, hd1, hd2]
      have hf : facOf (demoCfg .abs) env [⟨10, 0.25, 1 / 2, 25⟩, ⟨-1, 0.81, 1 / 2, 1⟩] 1 = 3.31 := hfac
      rw [hf]
      have e1 : storeTerm S 3.31 (s, false) (true, ⟨10, 0.25, 1 / 2, 25⟩) = (s, false) := by
        unfold storeTerm
        simp only [hprop]
        rw [if_pos (by norm_num), update_setNext hs _ _ (le_of_eq (by simp [s]))]
        simp [s]
      rw [e1]
      unfold storeTerm
      rw [if_neg (by norm_num)]
    unfold goalRound
    have hm : (demoCfg .abs).errormode = .abs := rfl
    simp only [hm, reduceCtorEq, if_false, List.foldl_cons, List.foldl_nil, heg]
    have hmi : ensureMaxincreasefac s S = s := maxinc_settled hs [S]
    rw [hmi]
    have hw : ∀ st : State Bool × Bool, ensureWallClock (demoCfg .abs) 1 env.elapsed st = st := fun st => rfl
    rw [hw]
    exact Prod.ext (evaluate_settled hs) rfl
  · simp [goalOf, ErrMode.scale, S, demoSum]
  · rw [div_pow, Real.sq_sqrt (by norm_num)]; norm_num

/-- C40 says nothing for complex coefficients with the error modes that look at the real or the imaginary part, and indeed the goal
may then be missed: here the real part of the error of the sum is `√2`, larger than the goal one, and the integral could be refined, but
nothing is done.  The reason: the contribution of a term is computed as the real part of the product of the error (which is no
complex number) with the coefficient, `(1+i)(1+i) = 2i`. -/
theorem C40_complex_coefficient_defect (env : Env Unit) (maxincreasefac : ℝ) :
    let s : State Unit := fun _ => ⟨100, 100, true, ⟨0, ⟨1, 1⟩⟩, 1⟩
    let S : Sum Unit := demoSum [((), ⟨1, 1⟩)] maxincreasefac
    goalRound (fun _ => .cuba false) (demoCfg .real) [S] env s = (s, false) ∧
    goalOf .real (fun z => |z.re|) S.epsrel S.epsabs (computeSum s S).value (computeSum s S).uncertainty = 1 ∧
    |(computeSum s S).uncertainty.re| = √2 ∧ (s ()).allowRefine = true ∧ (s ()).n < S.maxeval := by
  intro s S
  have hs : Settled s := fun b => by cases b; rfl
  have hsum : (computeSum s S).uncertainty.re = √2 := by
    simp [computeSum, S, s, demoSum, CDev.weightedSum, CDev.mulNum, CDev.ofParts, CDev.re, CDev.im, Dev.mulNum, Dev.sub, Dev.add, CDev.add]
    norm_num
  have hgoal : errorGoal .real S (computeSum s S) = 1 := by
    simp [errorGoal, partOf, Part.apply, Sum.effEpsrel, S, demoSum]
  have habs : |(computeSum s S).uncertainty.re| = √2 := by rw [hsum, abs_of_nonneg (Real.sqrt_nonneg 2)]
  have h2 : (1 : ℝ) ≤ √2 := by rw [Real.one_le_sqrt]; norm_num
  refine ⟨?_, by simp [goalOf, ErrMode.scale, S, demoSum], habs, rfl, by simp [S, s, demoSum]⟩
  have hc : cOf .real S (s ()) ⟨1, 1⟩ = -1 := by
    unfold cOf
    simp only
    rw [if_pos]
    right; right
    simp [s, Part.apply, S, demoSum]
  have heg : ensureErrorGoal (fun _ => .cuba false) (demoCfg .real) env .real (s, false) S = (s, false) := by
    unfold ensureErrorGoal
    simp only [hgoal]
    rw [if_neg (by simp only [partOf, Part.apply, habs]; linarith)]
    have : S.summands = [((), ⟨1, 1⟩)] := rfl
    simp only [this, List.map_cons, List.map_nil, List.foldl_cons, List.foldl_nil, partOf]
    unfold storeTerm
    rw [if_neg]
    simp only [termData, hc]; norm_num
  unfold goalRound
  have hm : (demoCfg .real).errormode = .real := rfl
  simp only [hm, reduceCtorEq, if_false, List.foldl_cons, List.foldl_nil, heg]
  have hmi : ensureMaxincreasefac s S = s := maxinc_settled hs [S]
  rw [hmi]
  have hw : ∀ st : State Unit × Bool, ensureWallClock (demoCfg .real) 1 env.elapsed st = st := fun st => rfl
  rw [hw]
  exact Prod.ext (evaluate_settled (kind := fun _ => Kind.cuba false) (env := env) hs) rfl

/-! ### the hypotheses can be met -/

/-- An integrator with error `1/√n` that takes one unit of time for an evaluation. -/
noncomputable def demoEnv (κ : Type) : Env κ := ⟨fun _ n => ⟨⟨1, ((1 / √n : ℝ) : ℂ)⟩, n + 1, n⟩, 1, 1, 10, 10⟩

example : Honest (fun _ : Bool => Kind.cuba false) (demoEnv Bool) ∧ PosTime (demoEnv Bool) :=
  ⟨fun _ _ _ _ => le_rfl, fun i m => by show (0 : ℝ) < m + 1; positivity⟩

example : (demoSum [(true, (1 : ℂ)), (false, 2)] 5).Sane :=
  ⟨le_rfl, by simp [demoSum], Or.inr (by simp [demoSum]), by simp [demoSum], by simp [demoSum, llongMax], by simp [demoSum]; norm_num⟩

/-- All hypotheses of `C40_goal_met` together. -/
example : ∃ fuel s, refineIntegrals (fun _ : Bool => Kind.cuba false) (demoCfg .all) [demoSum [(true, (1 : ℂ)), (false, 2)] 5]
    (demoEnv Bool) (fun _ => demoEnv Bool) (fun _ => demoEnv Bool) fuel (initial fun _ => 0) = some s := by
  have he : Honest (fun _ : Bool => Kind.cuba false) (demoEnv Bool) := fun _ _ _ _ => le_rfl
  refine C40_terminates _ _ _ _ _ _ _ (by simp [demoCfg]; norm_num) ?_ he (fun _ => he) (fun _ => he) (fun i g h => by simp at h) fun i => ?_
  · intro S hS
    simp only [List.mem_cons, List.not_mem_nil, or_false] at hS
    subst hS
    simp [demoSum]; norm_num
  · right
    refine ⟨_, List.mem_cons_self .., by simp [demoSum], ?_⟩
    cases i
    · exact ⟨2, by simp [demoSum]⟩
    · exact ⟨1, by simp [demoSum]⟩

example : ∀ d ∈ [(⟨10, 0.25, 1 / 2, 25⟩ : TermData), ⟨3, 0.81, 1, 1⟩], 0 < d.c ∧ 0 < d.absvar ∧ 0 < d.scaleexpo := by
  intro d hd
  simp only [List.mem_cons, List.not_mem_nil, or_false] at hd
  rcases hd with rfl | rfl <;> norm_num

example : ((([(true, (1 : ℂ)), (false, 2)]).map Prod.fst).Nodup) ∧
    addTerms [(true, (1 : ℂ)), (false, 2)] [(true, 3)] = [(true, 1 + 3), (false, 2)] := ⟨by decide, rfl⟩

end Refine
end SecDec
