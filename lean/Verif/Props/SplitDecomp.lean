import Verif.Proof.SplitDecomposer
import Verif.Props.Package
/-
C64: the option `split`.
-/
namespace SecDec.SplitDecomp
open SecDec SecDec.Squash SecDec.Splitting SecDec.Decomp SecDec.Package MeasureTheory
variable {n : Nat} {E : Type} {V : Type} [NormedAddCommGroup V] [NormedSpace ℝ V]

/-- C64: decomposition with splitting of one sector (`secondary_decomposition_with_splitting`), for the strategies which are admitted.  The polynomials of the sector are
simplified and common powers are pulled out; the random numbers lie between 1 and 19; `normaliz` works.  If the recursion ends, then in every sector returned each
polynomial has a constant term and is different from zero at every corner of the unit hypercube, the integrals of the sectors exist if the integral of the original
sector exists, and they add up to it. -/
theorem C64_split_decomposition {o : Options} (hn : 0 < n) (hm : o.method ≠ .geometric)
    (hz : ∀ s : Squash.Sector n ℝ (Poly 1 ℚ), Tidy s.cast → NormalizCorrect o s) {rng : Nat → Nat} (hrng : ∀ k, 1 ≤ rng k ∧ rng k ≤ 19) {fuel : Nat}
    {g : GSector n ℝ (Poly 1 ℚ)} (hg : Tidy g.cast) {out : List (GSector n ℝ (Poly 1 ℚ))}
    (h : splitDecomposition (secondary o) rng (List.finRange n) fuel g = some out) :
    (∀ d ∈ out, (∀ p ∈ d.cast, ∃ t ∈ p.poly.terms, ∀ i, t.1 i = 0) ∧ NoCornerZero d.cast) ∧
    ∀ F : List (ℝ × Option (Poly 1 ℚ)) → List (ℝ × Option (Poly 1 ℚ)) → V, CubeIntegrable (gIntegrand F g) →
      (∀ d ∈ out, CubeIntegrable (gIntegrand F d)) ∧ (out.map fun d => cubeIntegral (gIntegrand F d)).sum = cubeIntegral (gIntegrand F g) := by
  unfold splitDecomposition at h
  rw [Option.bind_eq_some_iff] at h
  obtain ⟨L, h1, h2⟩ := h
  have hsec := decomposer hn hm hz
  have hL := splitSingular_tidy hrng hg h1
  refine ⟨fun d hd => ?_, fun F hF => ?_⟩
  · have := splitAgain_done hsec hrng fuel hL h2 d hd
    exact ⟨this.const, this.corners⟩
  · obtain ⟨i1, i2⟩ := C18_split_singular_preserves_integral rng hrng g _ L h1 F hF
    obtain ⟨j1, j2⟩ := splitAgain_integral hsec hrng F fuel hL h2 i1
    exact ⟨j1, by rw [j2, i2]⟩

/-- The polynomials given by the user: some, none of them zero, no exponent vector twice. -/
def Given (polys : List (SPoly n ℝ E)) : Prop :=
  polys ≠ [] ∧ ∀ p ∈ polys, p.terms ≠ [] ∧ (p.terms.map (·.1)).Nodup ∧ ∀ t ∈ p.terms, t.2 ≠ 0

theorem mkSector_tidy {polys : List (SPoly (n + 1) ℝ (Poly 1 ℚ))} (hp : Given polys) {s : Squash.Sector (n + 1) ℝ (Poly 1 ℚ)} (h : mkSector polys [] = some s) :
    Tidy s.cast := by
  obtain ⟨h1, -, -, -⟩ := C16_constructor_refactorizes (Nat.succ_pos n) polys [] _ s h
  obtain ⟨h2, h3⟩ := mkSector_terms h
  refine Clean.tidy ⟨?_, fun q hq => ?_⟩ h1
  · intro h0
    rw [h0] at h2
    exact hp.1 (List.length_eq_zero_iff.1 h2.symm)
  · obtain ⟨p, hpp, k, e⟩ := h3 q hq
    obtain ⟨-, a, b⟩ := hp.2 p hpp
    rw [e]
    constructor
    · rw [List.map_map]
      have : ((fun t : Expo (n + 1) × ℝ => t.1) ∘ fun t : Expo (n + 1) × ℝ => (t.1 + k, t.2)) = (fun e => e + k) ∘ fun t : Expo (n + 1) × ℝ => t.1 := rfl
      rw [this, ← List.map_map]
      exact a.map (add_left_injective k)
    · intro t ht
      obtain ⟨u, hu, rfl⟩ := List.mem_map.1 ht
      exact b u hu

/-- C64: the sectors of a package with the option `split` (`iterative_no_primary` and `geometric_no_primary`).  Whatever function `F` of the polynomials is
integrated, if its integral over the unit hypercube exists, so do the integrals of the sectors, and they add up to it; and in the sectors no polynomial vanishes at
a corner. -/
theorem C64_split_sectors {o : Options} (hz : ∀ s : Squash.Sector (n + 1) ℝ (Poly 1 ℚ), Tidy s.cast → NormalizCorrect o s)
    {rng : Nat → Nat} (hrng : ∀ k, 1 ≤ rng k ∧ rng k ≤ 19) {fuel : Nat}
    {polys : List (SPoly (n + 1) ℝ (Poly 1 ℚ))} (hp : Given polys) {out : List (GSector (n + 1) ℝ (Poly 1 ℚ))} (h : splitSectors o rng fuel polys = some out) :
    (∀ d ∈ out, (∀ p ∈ d.cast, ∃ t ∈ p.poly.terms, ∀ i, t.1 i = 0) ∧ NoCornerZero d.cast) ∧
    ∀ F : List (ℝ × Option (Poly 1 ℚ)) → V, CubeIntegrable (fun x => F (polys.map fun p => (p.eval x, p.exponent))) →
      (∀ d ∈ out, CubeIntegrable (gIntegrand (fun c _ => F c) d)) ∧
      (out.map fun d => cubeIntegral (gIntegrand (fun c _ => F c) d)).sum = cubeIntegral fun x => F (polys.map fun p => (p.eval x, p.exponent)) := by
  have hm : o.method ≠ .geometric := by
    intro hm
    unfold splitSectors at h
    rw [hm] at h
    cases h
  have h : ((mkSector polys []).bind fun s => splitDecomposition (secondary o) rng (List.finRange (n + 1)) fuel (ofSector s)) = some out := by
    unfold splitSectors at h
    split at h
    · cases h
    · exact h
  rw [Option.bind_eq_some_iff] at h
  obtain ⟨s, h1, h2⟩ := h
  obtain ⟨a1, a2⟩ := C64_split_decomposition (V := V) (Nat.succ_pos n) hm hz hrng (g := ofSector s) (mkSector_tidy hp h1) h2
  refine ⟨a1, fun F hF => ?_⟩
  obtain ⟨-, b2, b3, b4⟩ := C16_constructor_refactorizes (Nat.succ_pos n) polys [] _ s h1
  have hEq : ∀ x ∈ oc (n + 1), gIntegrand (fun c _ => F c) (ofSector s) x = F (polys.map fun p => (p.eval x, p.exponent)) := by
    intro x hx
    have := b4 x fun i => (mem_oc.1 hx i).1.ne'
    unfold gIntegrand ofSector
    rw [← this]
    simp only [b2]
    simp [Poly.eval, Poly.mono, Squash.Sector.value]
  have hG : CubeIntegrable (gIntegrand (fun c _ => F c) (ofSector s)) := by
    rw [cubeIntegrable_iff, integrableOn_congr_fun hEq measurableSet_oc, ← cubeIntegrable_iff]; exact hF
  obtain ⟨c1, c2⟩ := a2 _ hG
  refine ⟨c1, ?_⟩
  rw [c2, cubeIntegral_eq, cubeIntegral_eq, setIntegral_congr_fun measurableSet_oc hEq]

/-! ### an example: a polynomial which vanishes at one -/

/-- `iterative_no_primary` -/
noncomputable def exOpts : Options := { exOptions 0 with method := .iterative }

/-- (1 - x)^(-1/2) -/
noncomputable def exPoly : List (SPoly 1 ℝ (Poly 1 ℚ)) := [⟨[((fun _ => 0), 1), ((fun _ => 1), -1)], some ⟨[((fun _ => 0), -1/2)]⟩⟩]

theorem ex_given : Given exPoly := by
  refine ⟨by simp [exPoly], fun p hp => ?_⟩
  simp only [exPoly, List.mem_singleton] at hp
  subst hp
  refine ⟨by simp, ?_, by simp⟩
  simp only [List.map_cons, List.map_nil, List.nodup_cons, List.mem_singleton, List.not_mem_nil, not_false_eq_true, List.nodup_nil, and_true]
  intro h
  simpa using congrFun h 0

/-- The initial sector. -/
noncomputable def exStart : Squash.Sector 1 ℝ (Poly 1 ℚ) := (mkSector exPoly []).getD ⟨(fun _ => 0, 1), [], []⟩

theorem ex_start : mkSector exPoly [] = some exStart := rfl

/-- In one variable the iterative decomposition leaves a sector as it is. -/
theorem one_secondary {s : Squash.Sector 1 ℝ (Poly 1 ℚ)} (hs : Tidy s.cast) : secondary exOpts s = some [s] := by
  have h : iterationStep s (List.finRange 1) = .error .endOfDecomposition := by
    cases hS : iterationStep s (List.finRange 1) with
    | error e => rw [(step_error (List.nodup_finRange 1) hs.refactorized hS).1]
    | ok subs =>
      unfold iterationStep at hS
      cases hS' : findSingularSet s (List.finRange 1) with
      | error e => simp [hS', Except.bind] at hS
      | ok S =>
        obtain ⟨h1, h2, -⟩ := findSingularSet_ok hS'
        have := h1.length_le
        simp at this
        omega
  have h2 : iterativeDecomposition (List.finRange 1) 1 s = some (.ok [s]) := by
    rw [iterativeDecomposition, h]
  unfold secondary
  have hm : exOpts.method = .iterative := rfl
  have hd : exOpts.depth = 1 := rfl
  simp only [hm, hd, h2]

theorem one_decompose {g : GSector 1 ℝ (Poly 1 ℚ)} (hg : Tidy g.cast) : ∃ d, decompose (secondary exOpts) g = some [d] ∧ d.cast = g.cast := by
  unfold decompose
  rw [one_secondary (s := toSector g) hg]
  exact ⟨_, rfl, rfl⟩

theorem one_no_singular {g : GSector 1 ℝ (Poly 1 ℚ)} (h : ∀ p ∈ g.cast, p.poly.eval (fun _ => 1) ≠ 0) :
    singularParameters g (List.finRange 1) = [] := by
  rw [List.eq_nil_iff_forall_not_mem]
  intro i hi
  obtain ⟨-, p, hp, S, hS, hiS⟩ := ((C18_split_singular_variables g (List.finRange 1)).2 i).1 hi
  rw [C18_find_singular_sets_at_one] at hS
  obtain ⟨-, -, h0⟩ := hS
  apply h p hp
  refine Eq.trans ?_ h0
  have : (fun _ : Fin 1 => (1 : ℝ)) = fun i => if i ∈ S then 1 else 0 := by
    funext j
    rw [if_pos]
    rwa [Subsingleton.elim j i]
  rw [this]; rfl

theorem one_again {rng : Nat → Nat} {L : List (GSector 1 ℝ (Poly 1 ℚ))} (hL : ∀ g ∈ L, Tidy g.cast)
    (h : ∀ g ∈ L, ∀ p ∈ g.cast, p.poly.eval (fun _ => 1) ≠ 0) :
    ∃ out, splitAgain (secondary exOpts) rng (List.finRange 1) 1 L = some out ∧ out.length = L.length := by
  rw [splitAgain]
  have key : ∀ g ∈ L, ∃ d, ((decompose (secondary exOpts) g).bind fun decomposed => (decomposed.mapM fun d =>
      (splitSingular rng d (List.finRange 1)).bind fun parts =>
        if parts.length = 1 then some [d] else splitAgain (secondary exOpts) rng (List.finRange 1) 0 parts).map List.flatten) = some [d] := by
    intro g hg
    obtain ⟨d, h1, h2⟩ := one_decompose (hL g hg)
    refine ⟨d, ?_⟩
    rw [h1]
    have h3 : splitSingular rng d (List.finRange 1) = some [d] := by
      unfold splitSingular
      rw [one_no_singular (by rw [h2]; exact h g hg)]
      rfl
    simp [h3]
  clear h hL
  induction L with
  | nil => exact ⟨[], rfl, rfl⟩
  | cons g L ih =>
    obtain ⟨out, h1, h2⟩ := ih fun g hg => key g (by simp [hg])
    obtain ⟨d, h3⟩ := key g (by simp)
    rw [Option.map_eq_some_iff] at h1
    obtain ⟨rs, h1, rfl⟩ := h1
    refine ⟨d :: rs.flatten, ?_, by simpa using h2⟩
    rw [List.mapM_cons, h3, h1]
    rfl

theorem rescale_value (i : Fin n) (c : ℝ) (hc : c ≠ 0) (g : GSector n ℝ E) : ∀ q ∈ (rescale i c g).cast, ∃ p ∈ g.cast,
    ∀ x, q.poly.eval x = p.poly.eval (Function.update x i (c * x i)) := by
  intro q hq
  obtain ⟨p, hp, rfl⟩ := List.mem_map.1 hq
  exact ⟨p, hp, fun x => multiplyBy_eval p.poly.terms c hc i x⟩

/-- The polynomial 1 - x is split once; the result consists of two sectors. -/
theorem ex_split (rng : Nat → Nat) (hrng : ∀ k, 1 ≤ rng k ∧ rng k ≤ 19) : ∃ out, splitSectors exOpts rng 1 exPoly = some out ∧ out.length = 2 := by
  have hcast : ∀ p, p ∈ exStart.cast ↔ p = ⟨(fun _ => 0, 1), ⟨[((fun _ => 0), 1), ((fun _ => 1), -1)], some ⟨[((fun _ => 0), -1/2)]⟩⟩⟩ := by
    intro p
    have : exStart.cast = [⟨(fun _ => 0, 1), ⟨[((fun _ => 0), 1), ((fun _ => 1), -1)], some ⟨[((fun _ => 0), -1/2)]⟩⟩⟩] := by
      unfold exStart mkSector exPoly
      have hupd : ∀ v : ℤ, Function.update (fun _ : Fin 1 => (0 : ℤ)) 0 v = fun _ => v := fun v => by funext i; rw [Subsingleton.elim i 0]; simp
      have hfin : List.finRange 1 = [0] := rfl
      have hupd1 : ∀ v : ℤ, Function.update (fun _ : Fin 1 => (1 : ℤ)) 0 v = fun _ => v := fun v => by funext i; rw [Subsingleton.elim i 0]; simp
      have hmin : (⟨[((fun _ => 0), 1), ((fun _ => 1), -1)]⟩ : Poly 1 ℝ).minPower 0 = some 0 := by rfl
      simp [refactorizeAll, Poly.refactorizeMethod, Poly.refactorize, hfin, Poly.refactorizeOne, hmin, Poly.shiftPower, hupd, hupd1]
    rw [this, List.mem_singleton]
  have heval : ∀ x : Fin 1 → ℝ, ∀ p ∈ exStart.cast, p.poly.eval x = 1 - x 0 ∧ p.mono = (fun _ => 0, 1) := by
    intro x p hp
    rw [hcast] at hp
    subst hp
    refine ⟨?_, rfl⟩
    simp [SPoly.eval, Poly.eval, Poly.mono, sub_eq_add_neg]
  set c : ℝ := ((rng 0 : Nat) : ℝ) / 20 with hc
  obtain ⟨hc0, hc1⟩ : 0 < c ∧ c < 1 := by
    obtain ⟨a, b⟩ := hrng 0
    have a' : (1 : ℝ) ≤ rng 0 := by exact_mod_cast a
    have b' : (rng 0 : ℝ) ≤ 19 := by exact_mod_cast b
    rw [hc]; constructor
    · positivity
    · linarith
  have hsing : singularParameters (ofSector exStart) (List.finRange 1) = [0] := by
    have h0 : (0 : Fin 1) ∈ singularParameters (ofSector exStart) (List.finRange 1) := by
      refine ((C18_split_singular_variables (ofSector exStart) (List.finRange 1)).2 0).2 ⟨Or.inr (by simp), _, (hcast _).2 rfl, [0], ?_, by simp⟩
      rw [C18_find_singular_sets_at_one]
      refine ⟨by simp, fun i _ => ⟨_, List.mem_cons_of_mem _ (List.mem_singleton_self _), by simp⟩, by simp [Poly.eval, Poly.mono]⟩
    have h1 := (C18_split_singular_variables (ofSector exStart) (List.finRange 1)).1
    revert h0 h1
    generalize singularParameters (ofSector exStart) (List.finRange 1) = l
    intro h0 h1
    cases l with
    | nil => cases h0
    | cons a l =>
      cases l with
      | nil => rw [Subsingleton.elim a 0]
      | cons b l =>
        have := (List.pairwise_cons.1 h1).1 b (by simp)
        rw [Subsingleton.elim a b] at this
        exact absurd this (lt_irrefl _)
  obtain ⟨s1, hs1, -⟩ := remapSector_nonneg 0 (ofSector exStart) (by
    refine ⟨?_, ?_, ?_⟩
    · intro t ht i
      rw [show t = (fun _ => 0, 1) from List.mem_singleton.1 ht]
    · intro p hp
      rw [(hcast p).1 hp]
      refine ⟨fun i => le_refl _, fun t ht i => ?_⟩
      simp only [List.mem_cons, List.not_mem_nil, or_false] at ht
      rcases ht with rfl | rfl <;> simp
    · intro p hp
      exact absurd hp (by intro h; cases h))
  have hsplit : splitSingular rng (ofSector exStart) (List.finRange 1) = some [rescale 0 c (ofSector exStart), rescale 0 (1 - c) s1] := by
    unfold splitSingular
    rw [hsing]
    unfold split
    simp only [List.zipIdx_cons, List.zipIdx_nil, List.map_cons, List.map_nil]
    rw [splitRec, hs1]
    rfl
  have hv1 : ∀ q ∈ s1.cast, q.poly.eval (fun _ => 1 - c) ≠ 0 := by
    intro q hq h0
    unfold remapSector at hs1
    rw [Option.bind_eq_some_iff] at hs1
    obtain ⟨cast, h1, h2⟩ := hs1
    rw [Option.bind_eq_some_iff] at h2
    obtain ⟨other, h2, h3⟩ := h2
    rw [Option.map_eq_some_iff] at h3
    obtain ⟨jac, h3, rfl⟩ := h3
    have hq : q ∈ cast := hq
    have h1 := mapM_option_forall₂ h1
    obtain ⟨k, hk, rfl⟩ := List.mem_iff_getElem.1 hq
    have hl := h1.length_eq
    have h4 := List.forall₂_iff_get.1 h1 |>.2 k (by omega) hk
    have h5 := congrArg Prod.fst (remapCast_value 0 _ _ h4 (fun _ => 1 - c) (fun _ => by linarith) (by linarith))
    obtain ⟨h6, h7⟩ := heval (Function.update (fun _ => 1 - c) 0 (1 - (1 - c))) _ (List.getElem_mem (l := exStart.cast) (n := k) (by show k < (ofSector exStart).cast.length; omega))
    simp only [List.get_eq_getElem] at h5
    rw [h0, mul_zero] at h5
    have h8 : (ofSector exStart).cast = exStart.cast := rfl
    simp only [h8, h6, h7] at h5
    simp [Poly.mono] at h5
    linarith
  obtain ⟨out, h1, h2⟩ := one_again (rng := rng) (L := [rescale 0 c (ofSector exStart), rescale 0 (1 - c) s1]) (splitSingular_tidy hrng (mkSector_tidy ex_given ex_start) hsplit) (by
    intro g hg p hp
    simp only [List.mem_cons, List.not_mem_nil, or_false] at hg
    rcases hg with rfl | rfl
    · obtain ⟨q, hq, h⟩ := rescale_value 0 c hc0.ne' _ p hp
      rw [h, (heval _ q hq).1]
      simp; linarith
    · obtain ⟨q, hq, h⟩ := rescale_value 0 (1 - c) (by linarith) _ p hp
      rw [h]
      have : (Function.update (fun _ : Fin 1 => (1 : ℝ)) 0 ((1 - c) * 1)) = fun _ => 1 - c := by
        funext i; rw [Subsingleton.elim i 0]; simp
      rw [this]
      exact hv1 q hq)
  refine ⟨out, ?_, h2⟩
  show ((mkSector exPoly []).bind fun s => splitDecomposition (secondary exOpts) rng (List.finRange 1) 1 (ofSector s)) = some out
  rw [ex_start]
  show splitDecomposition (secondary exOpts) rng (List.finRange 1) 1 (ofSector exStart) = some out
  unfold splitDecomposition
  rw [hsplit]
  exact h1

example (rng : Nat → Nat) (hrng : ∀ k, 1 ≤ rng k ∧ rng k ≤ 19) : ∃ out, splitSectors exOpts rng 1 exPoly = some out ∧ out.length = 2 ∧
    ∀ d ∈ out, (∀ p ∈ d.cast, ∃ t ∈ p.poly.terms, ∀ i, t.1 i = 0) ∧ NoCornerZero d.cast := by
  obtain ⟨out, h1, h2⟩ := ex_split rng hrng
  exact ⟨out, h1, h2, (C64_split_sectors (V := ℝ) (o := exOpts) (fun _ _ => trivial) hrng ex_given h1).1⟩

end SecDec.SplitDecomp
