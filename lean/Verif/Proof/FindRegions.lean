import Verif.Model.FindRegions
import Verif.Spec.FindRegions
import Verif.Proof.Hull
import Mathlib.LinearAlgebra.LinearIndependent.Lemmas
/-
Proofs about `find_regions`.
-/
namespace SecDec
namespace FindRegions
open Geometric
variable {n : ℕ}

theorem pair_comm (e f : Expo n) : pair e (point f) = pair f (point e) := by
  unfold pair point
  exact Finset.sum_congr rfl fun i _ => mul_comm _ _

theorem pair_smul (e : Expo n) (c : ℝ) (w : Fin n → ℝ) : pair e (c • w) = c * pair e w := by
  rw [pair_eq_dotR, dotR_smul, ← pair_eq_dotR]

theorem pair_add (e : Expo n) (v w : Fin n → ℝ) : pair e (v + w) = pair e v + pair e w := by
  rw [pair_eq_dotR, dotR_add, ← pair_eq_dotR, ← pair_eq_dotR]

theorem leading_exists {S : List (Expo n)} (hS : S ≠ []) (w : Fin n → ℝ) : ∃ s, s ∈ Leading S w := by
  obtain ⟨s, hs, h⟩ := Finset.exists_min_image S.toFinset (fun s => pair s w) (by simpa using hS)
  exact ⟨s, by simpa using hs, fun s' hs' => h s' (by simpa using hs')⟩

theorem mem_hull {S : List (Expo n)} {s : Expo n} (hs : s ∈ S) : point s ∈ convexHull ℝ (point '' {e | e ∈ S}) :=
  subset_convexHull ℝ _ ⟨s, hs, rfl⟩

/-- all facets which contain no common point of the leading terms leave room to go down -/
theorem facet_of_leading {S : List (Expo n)} (hS : S ≠ []) {P : PolytopeData n} (hP : FacetsOf S P) (he : P.equations = []) {w : Fin n → ℝ} (hw : w ≠ 0) :
    ∃ f ∈ P.facets, ∀ s ∈ Leading S w, pair f.1 (point s) + (f.2 : ℝ) = 0 := by
  classical
  by_contra hno
  push Not at hno
  obtain ⟨s0, hs0⟩ := leading_exists hS w
  set L : Finset (Expo n) := S.toFinset.filter (fun s => pair s w = pair s0 w) with hL
  have hmem : ∀ s, s ∈ L ↔ s ∈ Leading S w := by
    intro s
    simp only [hL, Finset.mem_filter, List.mem_toFinset]
    constructor
    · rintro ⟨h1, h2⟩
      exact ⟨h1, fun s' hs' => h2 ▸ hs0.2 s' hs'⟩
    · rintro ⟨h1, h2⟩
      exact ⟨h1, le_antisymm (h2 s0 hs0.1) (hs0.2 s h1)⟩
  have hne : L.Nonempty := ⟨s0, (hmem s0).2 hs0⟩
  have hcard : (0 : ℝ) < L.card := by exact_mod_cast hne.card_pos
  set z0 : Fin n → ℝ := ∑ s ∈ L, ((L.card : ℝ)⁻¹) • point s with hz0
  have hin : ∀ s ∈ L, s ∈ S := fun s hs => ((hmem s).1 hs).1
  have hz0mem : z0 ∈ convexHull ℝ (point '' {e | e ∈ S}) := by
    refine (convex_convexHull ℝ _).sum_mem (fun _ _ => (inv_pos.2 hcard).le) ?_ fun s hs => mem_hull (hin s hs)
    rw [Finset.sum_const, nsmul_eq_mul, mul_inv_cancel₀ hcard.ne']
  have hdot : ∀ y : Fin n → ℝ, dotR y z0 = ∑ s ∈ L, (L.card : ℝ)⁻¹ * dotR y (point s) := by
    intro y
    unfold dotR
    rw [hz0]
    simp only [Finset.sum_apply, Pi.smul_apply, smul_eq_mul, Finset.mul_sum]
    rw [Finset.sum_comm]
    refine Finset.sum_congr rfl fun s _ => Finset.sum_congr rfl fun i _ => by ring
  have hslack : ∀ f ∈ P.facets, 0 < pair f.1 z0 + (f.2 : ℝ) := by
    intro f hf
    obtain ⟨s1, hs1, hne1⟩ := hno f hf
    have hc : (f.2 : ℝ) = ∑ s ∈ L, (L.card : ℝ)⁻¹ * (f.2 : ℝ) := by
      rw [Finset.sum_const, nsmul_eq_mul, ← mul_assoc, mul_inv_cancel₀ hcard.ne', one_mul]
    rw [pair_eq_dotR, hdot, hc, ← Finset.sum_add_distrib]
    refine Finset.sum_pos' (fun s hs => ?_) ⟨s1, (hmem s1).2 hs1, ?_⟩
    · have := ((hP.hull _).1 (mem_hull (hin s hs))).1 f hf
      rw [← mul_add]
      rw [pair_eq_dotR] at this
      exact mul_nonneg (inv_pos.2 hcard).le this
    · have := ((hP.hull _).1 (mem_hull hs1.1)).1 f hf
      rw [← mul_add]
      rw [pair_eq_dotR] at this hne1
      exact mul_pos (inv_pos.2 hcard) (lt_of_le_of_ne this (Ne.symm hne1))
  -- a little step down stays in the polytope
  have hev : ∀ᶠ t : ℝ in nhds 0, ∀ f ∈ P.facets, 0 < pair f.1 (z0 + (-t) • w) + (f.2 : ℝ) := by
    have h1 : ∀ f ∈ P.facets.toFinset, ∀ᶠ t : ℝ in nhds 0, 0 < pair f.1 (z0 + (-t) • w) + (f.2 : ℝ) := by
      intro f hf
      have hc : Continuous fun t : ℝ => pair f.1 (z0 + (-t) • w) + (f.2 : ℝ) := by
        simp only [pair_add, pair_smul]
        fun_prop
      refine hc.continuousAt.eventually (isOpen_Ioi.mem_nhds ?_)
      simpa using hslack f (by simpa using hf)
    have h2 := (Filter.eventually_all_finset P.facets.toFinset).2 h1
    filter_upwards [h2] with t ht f hf
    exact ht f (by simpa using hf)
  obtain ⟨t, ht, hpos⟩ : ∃ t : ℝ, (∀ f ∈ P.facets, 0 < pair f.1 (z0 + (-t) • w) + (f.2 : ℝ)) ∧ 0 < t := by
    have h3 := (hev.filter_mono nhdsWithin_le_nhds).and (self_mem_nhdsWithin : ∀ᶠ t in nhdsWithin (0 : ℝ) (Set.Ioi 0), t ∈ Set.Ioi (0 : ℝ))
    obtain ⟨t, h4, h5⟩ := h3.exists
    exact ⟨t, h4, h5⟩
  have hmem' : z0 + (-t) • w ∈ convexHull ℝ (point '' {e | e ∈ S}) :=
    (hP.hull _).2 ⟨fun f hf => (ht f hf).le, by rw [he]; simp⟩
  have hge := hull_ge (y := w) (m := pair s0 w) (fun s hs => hs0.2 s hs) hmem'
  have hm : dotR w z0 = pair s0 w := by
    rw [hdot]
    have : ∀ s ∈ L, (L.card : ℝ)⁻¹ * dotR w (point s) = (L.card : ℝ)⁻¹ * pair s0 w := by
      intro s hs
      rw [dotR_point]
      rw [hL, Finset.mem_filter] at hs
      rw [hs.2]
    rw [Finset.sum_congr rfl this, Finset.sum_const, nsmul_eq_mul, ← mul_assoc, mul_inv_cancel₀ hcard.ne', one_mul]
  rw [dotR_add, dotR_smul, hm] at hge
  have hww : 0 < dotR w w := by
    unfold dotR
    obtain ⟨i, hi⟩ := Function.ne_iff.1 hw
    exact Finset.sum_pos' (fun i _ => mul_self_nonneg _) ⟨i, Finset.mem_univ _, mul_self_pos.2 hi⟩
  nlinarith

theorem mem_span_singleton' {u v : Fin n → ℝ} (h : u ∈ Submodule.span ℝ ({v} : Set (Fin n → ℝ))) : ∃ c : ℝ, u = c • v := by
  obtain ⟨c, hc⟩ := Submodule.mem_span_singleton.1 h
  exact ⟨c, hc.symm⟩

/-- without equations: the regions are the facets -/
theorem core_complete {S : List (Expo n)} (hS : S ≠ []) {P : PolytopeData n} (hP : FacetsOf S P) (he : P.equations = []) {w : Fin n → ℝ} (hw : w ≠ 0)
    (hns : ¬ ∃ u, Homogeneous (Leading S w) u ∧ ¬ ∃ c : ℝ, u = c • w) : ∃ f ∈ P.facets, ∃ c : ℝ, 0 < c ∧ w = c • point f.1 := by
  obtain ⟨f, hf, h0⟩ := facet_of_leading hS hP he hw
  refine ⟨f, hf, ?_⟩
  have hh : Homogeneous (Leading S w) (point f.1) := by
    intro s hs s' hs'
    have h1 := h0 s hs
    have h2 := h0 s' hs'
    rw [pair_comm] at h1 h2
    linarith
  have hc : ∃ c : ℝ, point f.1 = c • w := by
    by_contra hc
    exact hns ⟨_, hh, hc⟩
  obtain ⟨c, hc⟩ := hc
  obtain ⟨s1, hs1, hne1⟩ := hP.proper f hf
  obtain ⟨s0, hs0⟩ := leading_exists hS w
  have e0 := h0 s0 hs0
  have g1 := ((hP.hull _).1 (mem_hull hs1)).1 f hf
  rw [pair_comm, hc, pair_smul] at e0 hne1 g1
  have hle := hs0.2 s1 hs1
  rcases lt_trichotomy c 0 with hc0 | hc0 | hc0
  · exfalso
    apply hne1
    nlinarith
  · exfalso
    subst hc0
    apply hne1
    simp only [zero_mul] at e0 ⊢
    exact e0
  · refine ⟨c⁻¹, inv_pos.2 hc0, ?_⟩
    rw [hc, smul_smul, inv_mul_cancel₀ hc0.ne', one_smul]

theorem core_sound {S : List (Expo n)} {P : PolytopeData n} (hP : FacetsOf S P) (he : P.equations = []) {f : Expo n × ℤ} (hf : f ∈ P.facets)
    {u : Fin n → ℝ} (hu : Homogeneous (Leading S (point f.1)) u) : ∃ c : ℝ, u = c • point f.1 := by
  obtain ⟨s0, hs0, h0⟩ := hP.touch f hf
  have h1 := hP.dimension f hf u (by
    intro s hs s' hs'
    refine hu s ?_ s' ?_
    · refine ⟨hs.1, fun t ht => ?_⟩
      have h2 := ((hP.hull _).1 (mem_hull ht)).1 f hf
      have h3 := hs.2
      rw [pair_comm] at h2 h3
      linarith
    · refine ⟨hs'.1, fun t ht => ?_⟩
      have h2 := ((hP.hull _).1 (mem_hull ht)).1 f hf
      have h3 := hs'.2
      rw [pair_comm] at h2 h3
      linarith)
  rw [he] at h1
  simp only [List.map_nil, List.mem_cons, List.not_mem_nil, or_false, Set.ofPred_eq_eq_singleton, Set.image_singleton] at h1
  exact mem_span_singleton' h1

theorem equation_homogeneous {S : List (Expo n)} {P : PolytopeData n} (hP : FacetsOf S P) {e : Expo n × ℤ} (he : e ∈ P.equations) :
    Homogeneous {s | s ∈ S} (point e.1) := by
  intro s hs s' hs'
  have h1 := ((hP.hull _).1 (mem_hull hs)).2 e he
  have h2 := ((hP.hull _).1 (mem_hull hs')).2 e he
  rw [pair_comm] at h1 h2
  linarith

theorem homogeneous_neg {A : Set (Expo n)} {u : Fin n → ℝ} (h : Homogeneous A u) : Homogeneous A (-u) := by
  intro s hs s' hs'
  have := h s hs s' hs'
  have e : ∀ s : Expo n, pair s (-u) = -pair s u := by
    intro s
    have := pair_smul s (-1) u
    simpa using this
  rw [e, e, this]

theorem leading_of_homogeneous {S : List (Expo n)} {u : Fin n → ℝ} (h : Homogeneous {s | s ∈ S} u) : Leading S u = {s | s ∈ S} := by
  ext s
  exact ⟨fun hs => hs.1, fun hs => ⟨hs, fun s' hs' => (h s hs s' hs').le⟩⟩

theorem point_neg (e : Expo n) : point (-e) = -point e := by
  funext i
  simp [point]

/-- with two equations, or one which does not contain the parameter, everything is scaleless -/
theorem two_equations {S : List (Expo n)} {P : PolytopeData n} (hP : FacetsOf S P) (h2 : 2 ≤ P.equations.length) (w : Fin n → ℝ) :
    ∃ u, Homogeneous (Leading S w) u ∧ ¬ ∃ c : ℝ, u = c • w := by
  by_contra hno
  push Not at hno
  have key : ∀ j : Fin P.equations.length, ∃ c : ℝ, point (P.equations.get j).1 = c • w := by
    intro j
    refine hno _ ?_
    intro s hs s' hs'
    exact equation_homogeneous hP (List.get_mem _ _) s hs.1 s' hs'.1
  have hli := hP.independent
  obtain ⟨c0, h0⟩ := key ⟨0, by omega⟩
  obtain ⟨c1, h1⟩ := key ⟨1, by omega⟩
  have hp : LinearIndependent ℝ ![point (P.equations.get ⟨0, by omega⟩).1, point (P.equations.get ⟨1, by omega⟩).1] := by
    have hinj : Function.Injective (![⟨0, by omega⟩, ⟨1, by omega⟩] : Fin 2 → Fin P.equations.length) := by
      intro a b hab
      fin_cases a <;> fin_cases b <;> simp at hab <;> rfl
    convert hli.comp _ hinj using 1
    funext i
    fin_cases i <;> rfl
  rw [LinearIndependent.pair_iff] at hp
  have h3 := hp c1 (-c0) (by rw [h0, h1, smul_smul, smul_smul, ← add_smul]; rw [show c1 * c0 + -c0 * c1 = 0 by ring, zero_smul])
  have hz := hli.ne_zero ⟨0, by omega⟩
  apply hz
  show point (P.equations.get ⟨0, by omega⟩).1 = 0
  rw [h0, show c0 = 0 by linarith [h3.2], zero_smul]

/-! ### the rows of the polytope -/

theorem pyIndex_nat {len : ℕ} (k : Fin len) : pyIndex len (k : ℤ) = some k := by
  unfold pyIndex
  rw [dif_pos ⟨by omega, by omega⟩]
  simp

theorem row_castSucc (e : Expo n × ℤ) (k : Fin n) : row e k.castSucc = e.1 k := by simp [row]

theorem regionsOf_nil {P : PolytopeData n} (he : P.equations = []) (k : Fin n) :
    regionsOf P (k : ℤ) = some ((P.facets.map (·.1)).filter (fun v => decide (0 < v k))) := by
  unfold regionsOf candidates
  rw [he]
  simp [pyIndex_nat]

theorem regionsOf_one {P : PolytopeData n} {e : Expo n × ℤ} (he : P.equations = [e]) (k : Fin n) :
    regionsOf P (k : ℤ) = if 0 < e.1 k then some [e.1] else if e.1 k < 0 then some [-e.1] else none := by
  unfold regionsOf candidates
  rw [he]
  have h1 : pyIndex (n + 1) (k : ℤ) = some k.castSucc := pyIndex_nat k.castSucc
  simp only [h1, Option.bind_eq_bind, Option.bind_some, row_castSucc, pyIndex_nat]
  split_ifs with h2 h3
  · simp [h2]
  · simp [h3]
  · rfl

theorem regionsOf_two {P : PolytopeData n} (he : 2 ≤ P.equations.length) (i : ℤ) : regionsOf P i = none := by
  unfold regionsOf candidates
  match h : P.equations with
  | [] => simp [h] at he
  | [e] => simp [h] at he
  | _ :: _ :: _ => rfl

theorem cases_equations (P : PolytopeData n) : P.equations = [] ∨ (∃ e, P.equations = [e]) ∨ 2 ≤ P.equations.length := by
  match P.equations with
  | [] => exact Or.inl rfl
  | [e] => exact Or.inr (Or.inl ⟨e, rfl⟩)
  | _ :: _ :: _ => exact Or.inr (Or.inr (by simp))

theorem one_equation_span {S : List (Expo n)} {P : PolytopeData n} (hP : FacetsOf S P) {e : Expo n × ℤ} (he : P.equations = [e])
    {u : Fin n → ℝ} (hu : Homogeneous {s | s ∈ S} u) : ∃ c : ℝ, u = c • point e.1 := by
  have h1 := hP.affine u hu
  rw [he] at h1
  simp only [List.map_cons, List.map_nil, List.mem_cons, List.not_mem_nil, or_false, Set.ofPred_eq_eq_singleton, Set.image_singleton] at h1
  exact mem_span_singleton' h1

theorem regionsOf_one_spec {S : List (Expo n)} {P : PolytopeData n} (hP : FacetsOf S P) {e : Expo n × ℤ} (he : P.equations = [e])
    {k : Fin n} {v : Expo n} (hv : v = e.1 ∨ v = -e.1) (hk : 0 < v k) :
    (∀ u, Homogeneous (Leading S (point v)) u → ∃ c : ℝ, u = c • point v) ∧
    ∀ w : Fin n → ℝ, 0 < w k → (∀ u, Homogeneous (Leading S w) u → ∃ c : ℝ, u = c • w) → ∃ c : ℝ, 0 < c ∧ w = c • point v := by
  have hh : Homogeneous {s | s ∈ S} (point v) := by
    have := equation_homogeneous hP (e := e) (by rw [he]; simp)
    rcases hv with rfl | rfl
    · exact this
    · rw [point_neg]
      exact homogeneous_neg this
  constructor
  · intro u hu
    rw [leading_of_homogeneous hh] at hu
    obtain ⟨c, hc⟩ := one_equation_span hP he hu
    rcases hv with rfl | rfl
    · exact ⟨c, hc⟩
    · refine ⟨-c, ?_⟩
      rw [hc, point_neg, smul_neg, neg_smul, neg_neg]
  · intro w hw h
    obtain ⟨c, hc⟩ := h (point v) fun s hs s' hs' => hh s hs.1 s' hs'.1
    have h1 : (v k : ℝ) = c * w k := congrFun hc k
    have h2 : (0 : ℝ) < v k := by exact_mod_cast hk
    have hc0 : 0 < c := by
      rw [h1] at h2
      exact pos_of_mul_pos_left h2 hw.le
    refine ⟨c⁻¹, inv_pos.2 hc0, ?_⟩
    rw [hc, smul_smul, inv_mul_cancel₀ hc0.ne', one_smul]

/-- `find_regions` without `indices` -/
theorem regionsOf_spec {S : List (Expo n)} (hS : S ≠ []) {P : PolytopeData n} (hP : FacetsOf S P) {k : Fin n} {R : List (Expo n)}
    (h : regionsOf P (k : ℤ) = some R) :
    (∀ v ∈ R, 0 < v k ∧ ∀ u, Homogeneous (Leading S (point v)) u → ∃ c : ℝ, u = c • point v) ∧
    (∀ w : Fin n → ℝ, 0 < w k → (∀ u, Homogeneous (Leading S w) u → ∃ c : ℝ, u = c • w) → ∃ v ∈ R, ∃ c : ℝ, 0 < c ∧ w = c • point v) ∧
    R.Pairwise (fun v v' => ¬ ∃ c : ℝ, 0 < c ∧ point v = c • point v') := by
  rcases cases_equations P with he | ⟨e, he⟩ | he
  · rw [regionsOf_nil he, Option.some.injEq] at h
    subst h
    refine ⟨?_, ?_, ?_⟩
    · intro v hv
      obtain ⟨h1, h2⟩ := List.mem_filter.1 hv
      obtain ⟨f, hf, rfl⟩ := List.mem_map.1 h1
      exact ⟨by simpa using h2, fun u hu => core_sound hP he hf hu⟩
    · intro w hw hu
      obtain ⟨f, hf, c, hc, rfl⟩ := core_complete hS hP he (w := w) (by rintro rfl; simp at hw) (by
        rintro ⟨u, h1, h2⟩
        exact h2 (hu u h1))
      refine ⟨f.1, List.mem_filter.2 ⟨List.mem_map.2 ⟨f, hf, rfl⟩, ?_⟩, c, hc, rfl⟩
      have : 0 < c * (f.1 k : ℝ) := hw
      have h3 : (0 : ℝ) < f.1 k := pos_of_mul_pos_right this hc.le
      simpa using h3
    · refine List.Pairwise.filter _ ?_
      rw [List.pairwise_map]
      exact hP.distinct
  · rw [regionsOf_one he] at h
    have key : ∀ v, (v = e.1 ∨ v = -e.1) → 0 < v k → R = [v] → _ := fun v hv hk hR => by
      have := regionsOf_one_spec hP he hv hk
      refine (show (∀ v ∈ R, 0 < v k ∧ ∀ u, Homogeneous (Leading S (point v)) u → ∃ c : ℝ, u = c • point v) ∧
        (∀ w : Fin n → ℝ, 0 < w k → (∀ u, Homogeneous (Leading S w) u → ∃ c : ℝ, u = c • w) → ∃ v ∈ R, ∃ c : ℝ, 0 < c ∧ w = c • point v) ∧
        R.Pairwise (fun v v' => ¬ ∃ c : ℝ, 0 < c ∧ point v = c • point v') from ?_)
      subst hR
      refine ⟨?_, ?_, by simp⟩
      · intro v' hv'
        rw [List.mem_singleton.1 hv']
        exact ⟨hk, this.1⟩
      · intro w hw hu
        exact ⟨v, by simp, this.2 w hw hu⟩
    split_ifs at h with h1 h2
    · exact key _ (Or.inl rfl) h1 (Option.some.inj h).symm
    · exact key _ (Or.inr rfl) (by simpa using h2) (Option.some.inj h).symm
  · rw [regionsOf_two he] at h
    exact absurd h (by simp)

theorem regionsOf_none {S : List (Expo n)} {P : PolytopeData n} (hP : FacetsOf S P) {k : Fin n} (h : regionsOf P (k : ℤ) = none) {w : Fin n → ℝ}
    (hw : 0 < w k) : ∃ u, Homogeneous (Leading S w) u ∧ ¬ ∃ c : ℝ, u = c • w := by
  rcases cases_equations P with he | ⟨e, he⟩ | he
  · rw [regionsOf_nil he] at h
    exact absurd h (by simp)
  · rw [regionsOf_one he] at h
    split_ifs at h with h1 h2
    have h0 : e.1 k = 0 := by omega
    refine ⟨point e.1, fun s hs s' hs' => equation_homogeneous hP (by rw [he]; simp) s hs.1 s' hs'.1, ?_⟩
    rintro ⟨c, hc⟩
    have h3 : (e.1 k : ℝ) = c * w k := congrFun hc k
    rw [h0] at h3
    have hc0 : c = 0 := by
      rcases mul_eq_zero.1 (show c * w k = 0 by rw [← h3]; simp) with h4 | h4
      · exact h4
      · exact absurd h4 hw.ne'
    have hli := hP.independent.ne_zero ⟨0, by rw [he]; simp⟩
    apply hli
    have e1 : P.equations.get ⟨0, by rw [he]; simp⟩ = e := by simp [he]
    rw [e1, hc, hc0, zero_smul]
  · exact two_equations hP he w

/-! ### the parameter `indices` -/

theorem filter_sorted {idx : List (Fin n)} (h : idx.Pairwise (· < ·)) : (List.finRange n).filter (fun k => decide (k ∈ idx)) = idx := by
  have h1 : ((List.finRange n).filter (fun k => decide (k ∈ idx))).Pairwise (· < ·) := (List.pairwise_lt_finRange n).filter _
  have nd1 := h1.imp (fun {a b} h => ne_of_lt h)
  have nd2 := h.imp (fun {a b} h => ne_of_lt h)
  refine List.Perm.eq_of_pairwise (fun a b _ _ h1 h2 => absurd h1 (lt_asymm h2)) h1 h ?_
  rw [List.perm_ext_iff_of_nodup nd1 nd2]
  intro a
  simp

theorem spread_get {A : Type} [Zero A] {idx : List (Fin n)} (h : idx.Pairwise (· < ·)) (r : Fin idx.length → A) (j : Fin idx.length) :
    spread idx r (idx.get j) = r j := by
  unfold spread
  rw [if_pos (List.get_mem _ _)]
  have nd : idx.Nodup := h.imp (fun {a b} h => ne_of_lt h)
  have : idx.idxOf (idx.get j) = j := List.get_idxOf nd j
  simp only [filter_sorted h, this]
  rw [dif_pos j.2]

theorem project_spread {A : Type} [Zero A] {idx : List (Fin n)} (h : idx.Pairwise (· < ·)) (r : Fin idx.length → A) : project idx (spread idx r) = r :=
  funext fun j => spread_get h r j

theorem spread_not_mem {A : Type} [Zero A] {idx : List (Fin n)} (r : Fin idx.length → A) {k : Fin n} (hk : k ∉ idx) : spread idx r k = 0 := by
  unfold spread
  rw [if_neg hk]

theorem spread_project {idx : List (Fin n)} (h : idx.Pairwise (· < ·)) {w : Fin n → ℝ} (hw : SupportedOn idx w) : spread idx (project idx w) = w := by
  funext k
  by_cases hk : k ∈ idx
  · obtain ⟨j, hj, rfl⟩ := List.getElem_of_mem hk
    exact spread_get h _ ⟨j, hj⟩
  · rw [spread_not_mem _ hk, hw k hk]

theorem pair_project {idx : List (Fin n)} (h : idx.Pairwise (· < ·)) (e : Expo n) {w : Fin n → ℝ} (hw : SupportedOn idx w) :
    pair (project idx e) (project idx w) = pair e w := by
  have nd : idx.Nodup := h.imp (fun {a b} h => ne_of_lt h)
  unfold pair project
  have h1 : ∑ j : Fin idx.length, ((e (idx.get j) : ℤ) : ℝ) * w (idx.get j) = (idx.map fun k => (e k : ℝ) * w k).sum := by
    rw [← List.sum_ofFn]
    congr 1
    exact List.ofFn_getElem_eq_map idx fun k => (e k : ℝ) * w k
  rw [h1, ← List.sum_toFinset _ nd]
  refine Finset.sum_subset (Finset.subset_univ _) fun k _ hk => ?_
  rw [hw k (by simpa using hk), mul_zero]

theorem leading_project {idx : List (Fin n)} (h : idx.Pairwise (· < ·)) (S : List (Expo n)) {w : Fin n → ℝ} (hw : SupportedOn idx w) :
    Leading (S.map (project idx)) (project idx w) = project idx '' Leading S w := by
  ext s
  constructor
  · rintro ⟨h1, h2⟩
    obtain ⟨s, hs, rfl⟩ := List.mem_map.1 h1
    refine ⟨s, ⟨hs, fun s' hs' => ?_⟩, rfl⟩
    have := h2 _ (List.mem_map.2 ⟨s', hs', rfl⟩)
    rwa [pair_project h _ hw, pair_project h _ hw] at this
  · rintro ⟨s, hs, rfl⟩
    refine ⟨List.mem_map.2 ⟨s, hs.1, rfl⟩, fun s' hs' => ?_⟩
    obtain ⟨t, ht, rfl⟩ := List.mem_map.1 hs'
    rw [pair_project h _ hw, pair_project h _ hw]
    exact hs.2 t ht

theorem supported_spread {idx : List (Fin n)} (u : Fin idx.length → ℝ) : SupportedOn idx (spread idx u) := fun _ hk => spread_not_mem u hk

theorem homogeneous_project {idx : List (Fin n)} (h : idx.Pairwise (· < ·)) (A : Set (Expo n)) {u : Fin n → ℝ} (hu : SupportedOn idx u) :
    Homogeneous (project idx '' A) (project idx u) ↔ Homogeneous A u := by
  constructor
  · intro h1 s hs s' hs'
    have := h1 _ ⟨s, hs, rfl⟩ _ ⟨s', hs', rfl⟩
    rwa [pair_project h _ hu, pair_project h _ hu] at this
  · rintro h1 _ ⟨s, hs, rfl⟩ _ ⟨s', hs', rfl⟩
    rw [pair_project h _ hu, pair_project h _ hu]
    exact h1 s hs s' hs'

theorem scaleless_project {idx : List (Fin n)} (h : idx.Pairwise (· < ·)) (S : List (Expo n)) {w : Fin n → ℝ} (hw : SupportedOn idx w) :
    Scaleless idx S w ↔ ∃ u, Homogeneous (Leading (S.map (project idx)) (project idx w)) u ∧ ¬ ∃ c : ℝ, u = c • project idx w := by
  rw [leading_project h S hw]
  constructor
  · rintro ⟨u, h1, h2, h3⟩
    refine ⟨project idx u, (homogeneous_project h _ h1).2 h2, ?_⟩
    rintro ⟨c, hc⟩
    refine h3 ⟨c, ?_⟩
    rw [← spread_project h h1, hc]
    have : SupportedOn idx (c • w) := fun k hk => by simp [hw k hk]
    rw [← spread_project h this]
    rfl
  · rintro ⟨u, h1, h2⟩
    refine ⟨spread idx u, supported_spread u, ?_, ?_⟩
    · rw [← homogeneous_project h _ (supported_spread u), project_spread h]
      exact h1
    · rintro ⟨c, hc⟩
      refine h2 ⟨c, ?_⟩
      rw [← project_spread h u, hc]
      rfl

theorem point_spread {idx : List (Fin n)} (v : Expo idx.length) : point (spread idx v) = spread idx (point v) := by
  funext k
  unfold point spread
  dsimp only
  split_ifs <;> simp

theorem point_project {idx : List (Fin n)} (v : Expo n) : point (project idx v) = project idx (point v) := rfl


end FindRegions
end SecDec
