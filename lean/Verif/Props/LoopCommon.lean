import Verif.Proof.LoopCommon
import Verif.Props.FromGraph
/-
C32: propagator powers that are not positive.
-/
set_option linter.unusedSectionVars false
namespace SecDec
namespace LoopCommon
open Poly
open Subtraction (pev NonNeg)
variable {K : Type} [Field K] [DecidableEq K] {φ : K →+* ℂ} {P : Nat}

/-- **C32.** The number of derivatives: none if the power is at least one, otherwise the smallest number that makes an integer power
zero, and a number that brings any other power between one and two. -/
theorem C32_derivatives (c : ℚ) :
    (1 ≤ c → derivs c = 0) ∧
    (∀ z : ℤ, c = z → c < 1 → c + derivs c = 0) ∧
    ((∀ z : ℤ, c ≠ z) → c < 1 → 1 < c + derivs c ∧ c + derivs c < 2) := by
  refine ⟨fun h => if_pos h, ?_, ?_⟩
  · intro z hz h
    unfold derivs
    have hi : c.isInt := by rw [hz]; rfl
    rw [if_neg (by linarith), if_pos hi, hz]
    have hz0 : z ≤ 0 := by
      rw [hz] at h
      have : z < 1 := by exact_mod_cast h
      omega
    have : ((z : ℚ).num.natAbs : ℤ) = -z := by rw [Rat.num_intCast]; omega
    have h2 : (((z : ℚ).num.natAbs : ℤ) : ℚ) = ((-z : ℤ) : ℚ) := by rw [this]
    rw [Int.cast_natCast] at h2
    rw [h2]; simp
  · intro hz h
    unfold derivs
    have hi : ¬ c.isInt := by
      intro h1
      refine hz c.num ?_
      rw [Rat.isInt, beq_iff_eq] at h1
      exact (Rat.den_eq_one_iff c).1 h1 |>.symm
    rw [if_neg (by linarith), if_neg hi]
    have hf0 : ⌊c⌋ ≤ 0 := by
      have : ⌊c⌋ < 1 := Int.floor_lt.2 (by simpa using h)
      omega
    have h1 : ((⌊c⌋.natAbs : ℤ) : ℚ) = -(⌊c⌋ : ℚ) := by
      have : (⌊c⌋.natAbs : ℤ) = -⌊c⌋ := by omega
      rw [this]; simp
    rw [Int.cast_natCast] at h1
    rw [Nat.cast_add, h1]
    have h2 := Int.floor_le c
    have h3 := Int.lt_floor_add_one c
    have h4 : (⌊c⌋ : ℚ) ≠ c := fun h' => hz _ h'.symm
    have h5 : (⌊c⌋ : ℚ) < c := lt_of_le_of_ne h2 h4
    push_cast
    constructor <;> linarith

example : derivs (1/2) = 1 ∧ derivs (-3/2) = 3 ∧ derivs (-2) = 2 ∧ derivs 0 = 0 ∧ derivs 3 = 0 := by
  refine ⟨?_, ?_, ?_, ?_, ?_⟩ <;> norm_num [derivs, Rat.isInt] <;> decide +kernel

/-- **C32.** The parameters that `U`, `F` and `integration_variables` drop are those that `numerator` and `measure` drop. -/
theorem C32_same_parameters {R : Type} [AddCommGroup R] [DecidableEq R] (p : Power R) : nonposInt p = newPowerZero p := by
  have key : (p.const.isInt = true ∧ p.const ≤ 0) ↔ p.const + derivs p.const = 0 := by
    obtain ⟨h1, h2, h3⟩ := C32_derivatives p.const
    constructor
    · rintro ⟨hi, hle⟩
      refine h2 p.const.num ?_ (by linarith)
      rw [Rat.isInt, beq_iff_eq] at hi
      exact ((Rat.den_eq_one_iff _).1 hi).symm
    · intro h
      have hlt : p.const < 1 := by
        by_contra hc
        rw [h1 (by linarith)] at h
        simp at h; linarith
      by_cases hz : ∃ z : ℤ, p.const = z
      · obtain ⟨z, hz⟩ := hz
        refine ⟨by rw [hz]; rfl, ?_⟩
        have : (0 : ℚ) ≤ derivs p.const := by positivity
        linarith
      · push Not at hz
        have := (h3 hz hlt).1
        linarith
  unfold nonposInt newPowerZero effPower
  rw [Bool.eq_iff_iff, Bool.and_eq_true, Bool.and_eq_true, decide_eq_true_eq, decide_eq_true_eq, decide_eq_true_eq, key,
    Power.mk.injEq, and_comm]

example : nonposInt (⟨-2, 0⟩ : Power ℤ) = true ∧ nonposInt (⟨-2, 1⟩ : Power ℤ) = false := by decide +kernel

theorem initial (U F : Poly P K) (hU : NonNeg U) (hF : NonNeg F) (hd : (U.terms.map (·.1)).Nodup) (Nu : Poly (P+2) K) (hNu : NonNeg Nu)
    (n m : K) (ks : Nat → Nat) (zeros : Nat → Bool) :
    Inv φ U F (fun x => pev φ x U ^ φ n * pev φ x F ^ (- φ m) * pev φ (Fin.append x ![pev φ x U, pev φ x F]) Nu) n m ks zeros P
      ⟨P, extend U, extend F, symbol (iU P), symbol (iF P), Nu, n, m⟩ id := by
  have hext : ∀ (p : Poly P K) (x : Fin P → ℂ) c, pev φ (Fin.append x c) (extend p) = pev φ x p := by
    intro p x c
    unfold extend pev
    simp only [List.map_map]
    congr 1
    refine List.map_congr_left fun t _ => ?_
    simp only [Function.comp_apply]
    congr 1
    unfold mono
    rw [Fin.prod_univ_add]
    simp only [Fin.append_left, Fin.append_right, Fin.prod_univ_two]
    simp
  have hnn : ∀ (p : Poly P K), NonNeg p → NonNeg (extend p) := by
    intro p hp t ht i
    unfold extend at ht
    simp only [List.mem_map] at ht
    obtain ⟨r, hr, rfl⟩ := ht
    refine Fin.addCases (fun j => ?_) (fun j => ?_) i
    · simp only [Fin.append_left]; exact hp r hr j
    · simp only [Fin.append_right]; fin_cases j <;> simp
  have hsym : ∀ (c : Fin (P+2)) (y : Fin (P+2) → ℂ), pev φ y (symbol c) = y c := by
    intro c y
    unfold symbol pev mono
    simp only [List.map_cons, List.map_nil, List.sum_cons, List.sum_nil, map_one, one_mul, add_zero]
    rw [Finset.prod_eq_single c]
    · simp
    · intro j _ hj; simp [hj]
    · intro h; exact absurd (Finset.mem_univ c) h
  have hnsym : ∀ (c : Fin (P+2)), NonNeg (symbol c : Poly (P+2) K) := by
    intro c t ht i
    simp only [symbol, List.mem_singleton] at ht
    subst ht
    simp only
    split <;> omega
  have hz2 : (![0, 0] : Fin 2 → Int) = 0 := by funext j; fin_cases j <;> rfl
  constructor
  · exact strictMono_id
  · intro j; simp
  · intro j hj; exact ⟨hj, rfl⟩
  · exact hnn U hU
  · exact hnn F hF
  · exact hnsym _
  · exact hnsym _
  · exact hNu
  · intro y c; rw [hext, hext]
  · intro y c; rw [hext, hext]
  · intro y c; rw [hsym]; exact Fin.append_right _ _ _
  · intro y c; rw [hsym]; exact Fin.append_right _ _ _
  · intro x _; exact hext U x 0
  · intro x _; exact hext F x 0
  · intro x _ _ _
    have hm : ∀ (ks : Fin P → Nat) (f : (Fin P → ℂ) → ℂ), mixedFrom ks f P = f := by
      intro ks f
      unfold mixedFrom
      rw [List.drop_eq_nil_of_le (by simp)]; rfl
    rw [hm]
    unfold G
    simp only [Function.comp_id, hext]
  · intro e _
    show coeffOf (extend U) (Fin.append e 0) = _
    unfold coeffOf extend
    rw [List.filter_map, List.map_map]
    have : (fun t : Expo P × K => decide (Fin.append t.1 ![0, 0] = Fin.append e 0)) = fun t => decide (t.1 = e) := by
      funext t
      congr 1
      rw [hz2, eq_iff_iff]
      constructor
      · intro h
        funext j
        have := congrFun h (j.castAdd 2)
        rwa [Fin.append_left, Fin.append_left] at this
      · intro h; rw [h]
    rw [show ((fun t : Expo (P+2) × K => decide (t.1 = Fin.append e 0)) ∘ fun t : Expo P × K => (Fin.append t.1 ![0, 0], t.2)) =
      (fun t : Expo P × K => decide (Fin.append t.1 ![0, 0] = Fin.append e 0)) from rfl, this]
    rfl
  · intro e he
    obtain ⟨t, ht, rfl, -⟩ := coeffOf_ne_zero he
    simp only [extend, List.mem_map] at ht
    obtain ⟨r, -, rfl⟩ := ht
    exact ⟨r.1, by rw [hz2]⟩
  · unfold Distinct extend
    rw [List.map_map]
    have : ((fun x : Expo (P+2) × K => x.1) ∘ fun t : Expo P × K => (Fin.append t.1 ![0, 0], t.2)) = (fun e : Expo P => Fin.append e ![0, 0]) ∘ (·.1) := rfl
    rw [this, ← List.map_map]
    refine hd.map ?_
    intro e1 e2 h
    funext j
    have := congrFun h (j.castAdd 2)
    simpa only [Fin.append_left] using this
  · unfold lowered
    rw [List.drop_eq_nil_of_le (by simp)]; simp
  · unfold total
    rw [List.drop_eq_nil_of_le (by simp)]; simp

open Classical in
theorem numerator_spec [CharZero K] (U F : Poly P K) (hU : NonNeg U) (hF : NonNeg F) (hd : (U.terms.map (·.1)).Nodup)
    (Nu : Poly (P+2) K) (hNu : NonNeg Nu) (n m : K) (ks : Nat → Nat) (zeros : Nat → Bool) :
    ∃ s U' F', numerator U F Nu n m ks zeros = some s ∧ restrict U zeros = some U' ∧ restrict F zeros = some F' ∧
      s.n = n - (∑ j : Fin P, if Alive U zeros j then (ks j : K) else 0) ∧ s.m = m + ∑ j : Fin P, (ks j : K) ∧
      ∃ (σ : Fin s.N → Fin P) (τ : Fin U'.1 → Fin P) (ρ : Fin F'.1 → Fin P),
        Numbering zeros σ ∧ Numbering zeros τ ∧ Numbering zeros ρ ∧
        ∀ x : Fin P → ℂ, (∀ j : Fin P, zeros j = true → x j = 0) → pev φ x U ∈ Complex.slitPlane → pev φ x F ∈ Complex.slitPlane →
          pev φ (x ∘ τ) U'.2 ^ φ s.n * pev φ (x ∘ ρ) F'.2 ^ (- φ s.m) *
              pev φ (Fin.append (x ∘ σ) ![pev φ (x ∘ τ) U'.2, pev φ (x ∘ ρ) F'.2]) s.Nu =
            mixed (fun j => ks j) (fun x => pev φ x U ^ φ n * pev φ x F ^ (- φ m) *
              pev φ (Fin.append x ![pev φ x U, pev φ x F]) Nu) x := by
  obtain ⟨s, σ, hs, hinv⟩ := inv_loop hU hF P le_rfl _ _ (initial (φ := φ) U F hU hF hd Nu hNu n m ks zeros)
  have hr : ∀ (p : Poly P K), NonNeg p → ∃ s' σ', restrict p zeros = some s' ∧ Numbering zeros σ' ∧ NonNeg s'.2 ∧
      ∀ x, Off σ' x → pev φ (x ∘ σ') s'.2 = pev φ x p := by
    intro p hp
    exact restrict_loop P le_rfl ⟨P, p⟩ id strictMono_id (fun j => by simp) (fun j hj => ⟨hj, rfl⟩) hp (fun x _ => rfl)
  obtain ⟨U', τ, hU', hτ, -, hτv⟩ := hr U hU
  obtain ⟨F', ρ, hF', hρ, -, hρv⟩ := hr F hF
  have hσ : Numbering zeros σ := ⟨hinv.mono, fun j => by rw [hinv.range]; simp⟩
  have hoff : ∀ {N : Nat} {σ : Fin N → Fin P}, Numbering zeros σ → ∀ x : Fin P → ℂ, (∀ j : Fin P, zeros j = true → x j = 0) → Off σ x := by
    intro N σ h x hx j hj
    exact hx j (by have := mt (h.2 j).2 hj; simpa using this)
  refine ⟨s, U', F', hs, hU', hF', ?_, ?_, σ, τ, ρ, hσ, hτ, hρ, ?_⟩
  · have := hinv.en
    rw [← this]
    unfold lowered
    simp only [List.drop_zero]
    rw [eq_sub_iff_add_eq, ← List.ofFn_eq_map, List.sum_ofFn]
    push_cast
    rfl
  · have := hinv.em
    rw [this]
    unfold total
    simp only [List.drop_zero]
    rw [← List.ofFn_eq_map, List.sum_ofFn]
    push_cast
    rfl
  · intro x hx hxU hxF
    have := hinv.val x (hoff hσ x hx) hxU hxF
    rw [hτv x (hoff hτ x hx), hρv x (hoff hρ x hx)]
    unfold G at this
    rw [hinv.vU x (hoff hσ x hx), hinv.vF x (hoff hσ x hx)] at this
    exact this

theorem numberOfDerivatives_eq (ks : Nat → Nat) (P : Nat) : numberOfDerivatives ks P = ∑ j : Fin P, ks j := by
  unfold numberOfDerivatives
  rw [← Finset.sum_range (fun j => ks j)]
  rfl

open Classical in
/-- **C32.** If `U_derivatives` is the number of derivatives with respect to parameters on which U depends, then the integrand
`U^exponent_U * F^exponent_F * numerator`, a function of the parameters that are left, is the derivative (with respect to every
parameter as often as `derivativelist` says) of the integrand with the given powers, with the parameters that are not left
set to zero. -/
theorem C32_integrand [CharZero K] (U F : Poly P K) (hU : NonNeg U) (hF : NonNeg F) (hd : (U.terms.map (·.1)).Nodup)
    (Nu : Poly (P+2) K) (hNu : NonNeg Nu) (Nnu D : K) (L rank : Nat) (ks : Nat → Nat) (zeros : Nat → Bool)
    (Ud : Int) (hUd : Ud = ∑ j : Fin P, if Alive U zeros j then (ks j : Int) else 0) :
    ∃ s U' F', numerator U F Nu (startN Nnu D L rank) (startM Nnu D L) ks zeros = some s ∧
      restrict U zeros = some U' ∧ restrict F zeros = some F' ∧
      ∃ (σ : Fin s.N → Fin P) (τ : Fin U'.1 → Fin P) (ρ : Fin F'.1 → Fin P),
        Numbering zeros σ ∧ Numbering zeros τ ∧ Numbering zeros ρ ∧
        ∀ x : Fin P → ℂ, (∀ j : Fin P, zeros j = true → x j = 0) → pev φ x U ∈ Complex.slitPlane → pev φ x F ∈ Complex.slitPlane →
          pev φ (x ∘ τ) U'.2 ^ φ (exponentU Nnu D L rank Ud) *
              pev φ (x ∘ ρ) F'.2 ^ φ (exponentF Nnu D L (numberOfDerivatives ks P)) *
              pev φ (Fin.append (x ∘ σ) ![pev φ (x ∘ τ) U'.2, pev φ (x ∘ ρ) F'.2]) s.Nu =
            mixed (fun j => ks j) (fun x => pev φ x U ^ φ (startN Nnu D L rank) * pev φ x F ^ (- φ (startM Nnu D L)) *
              pev φ (Fin.append x ![pev φ x U, pev φ x F]) Nu) x := by
  obtain ⟨s, U', F', h1, h2, h3, hn, hm, σ, τ, ρ, h4, h5, h6, h7⟩ :=
    numerator_spec (φ := φ) U F hU hF hd Nu hNu (startN Nnu D L rank) (startM Nnu D L) ks zeros
  refine ⟨s, U', F', h1, h2, h3, σ, τ, ρ, h4, h5, h6, ?_⟩
  intro x hx hxU hxF
  rw [← h7 x hx hxU hxF]
  have e1 : exponentU Nnu D L rank Ud = s.n := by
    rw [hn, hUd]
    unfold exponentU startN
    push_cast
    ring
  have e2 : exponentF Nnu D L (numberOfDerivatives ks P) = - s.m := by
    rw [hm, numberOfDerivatives_eq]
    unfold exponentF startM
    push_cast
    ring
  rw [e1, e2, map_neg]

open Classical in
/-- **C32.** For a graph, where `U_derivatives` is the number of all derivatives, the exponent of U is the right one (the one that
belongs to the numerator) exactly if for every line with derivatives there is a spanning tree without that line that contains the
lines behind it whose parameters are set to zero. -/
theorem C32_graph_exponent [CharZero K] (φ : K →+* ℂ) {V E : Nat} (g : FromGraph.Graph V P E) (hL : 0 < FromGraph.loops g) (F : Poly P K) (hF : NonNeg F)
    (Nu : Poly (P+2) K) (hNu : NonNeg Nu) (Nnu D : K) (L : Nat) (ks : Nat → Nat) (zeros : Nat → Bool) :
    ∃ s, numerator (FromGraph.preliminaryU g) F Nu (startN Nnu D L 0) (startM Nnu D L) ks zeros = some s ∧
      (exponentU Nnu D L 0 (numberOfDerivatives ks P) = s.n ↔
        ∀ j : Fin P, ks j ≠ 0 → ∃ T, FromGraph.SpanningTree g T ∧ j ∉ T ∧ ∀ l : Fin P, j < l → zeros l = true → l ∈ T) := by
  obtain ⟨hnd, hterms⟩ := FromGraph.C31_U_terms (F := K) g hL
  have hU : NonNeg (FromGraph.preliminaryU (F := K) g) := by
    rintro ⟨e, c⟩ ht i
    obtain ⟨-, T, -, rfl⟩ := (hterms e c).1 ht
    simp only
    split <;> omega
  have hd : ((FromGraph.preliminaryU (F := K) g).terms.map (·.1)).Nodup := by
    refine List.Nodup.map_on ?_ hnd
    rintro ⟨e1, c1⟩ h1 ⟨e2, c2⟩ h2 h
    have := ((hterms _ _).1 h1).1
    have := ((hterms _ _).1 h2).1
    simp_all
  have halive : ∀ j, Alive (FromGraph.preliminaryU (F := K) g) zeros j ↔
      ∃ T, FromGraph.SpanningTree g T ∧ j ∉ T ∧ ∀ l : Fin P, j < l → zeros l = true → l ∈ T := by
    intro j
    constructor
    · rintro ⟨e, he, hc, hl⟩
      obtain ⟨⟨e', c⟩, ht, rfl, -⟩ := coeffOf_ne_zero hc
      obtain ⟨-, T, hT, rfl⟩ := (hterms _ _).1 ht
      refine ⟨T, hT, by simpa using he, fun l h1 h2 => ?_⟩
      have := hl l h1 h2
      by_contra h3
      simp [h3] at this
    · rintro ⟨T, hT, hj, hl⟩
      have hm := (hterms (fun i => if i ∈ T then 0 else 1) 1).2 ⟨rfl, T, hT, rfl⟩
      refine ⟨fun i => if i ∈ T then 0 else 1, ?_, ?_, ?_⟩
      · simp [hj]
      · have := coeffOf_distinct hd hm
        simp only at this
        rw [this]; exact one_ne_zero
      · intro l h1 h2; simp [hl l h1 h2]
  obtain ⟨s, U', F', h1, -, -, hn, -, -⟩ :=
    numerator_spec (φ := φ) (FromGraph.preliminaryU g) F hU hF hd Nu hNu (startN Nnu D L 0) (startM Nnu D L) ks zeros
  refine ⟨s, h1, ?_⟩
  have hdiff : exponentU Nnu D L 0 (numberOfDerivatives ks P) = s.n ↔
      ∑ j : Fin P, (if Alive (FromGraph.preliminaryU (F := K) g) zeros j then 0 else ks j) = 0 := by
    rw [hn, numberOfDerivatives_eq]
    unfold exponentU startN
    have : (∑ j : Fin P, (ks j : K)) = (∑ j : Fin P, if Alive (FromGraph.preliminaryU (F := K) g) zeros j then (ks j : K) else 0) +
        ((∑ j : Fin P, (if Alive (FromGraph.preliminaryU (F := K) g) zeros j then 0 else ks j) : Nat) : K) := by
      push_cast
      rw [← Finset.sum_add_distrib]
      refine Finset.sum_congr rfl fun j _ => ?_
      split <;> simp
    push_cast at this ⊢
    rw [this]
    constructor
    · intro h
      have h2 : ((∑ j : Fin P, (if Alive (FromGraph.preliminaryU (F := K) g) zeros j then 0 else ks j) : Nat) : K) = 0 := by
        push_cast
        linear_combination -h
      exact_mod_cast h2
    · intro h
      have h2 : ((∑ j : Fin P, (if Alive (FromGraph.preliminaryU (F := K) g) zeros j then 0 else ks j) : Nat) : K) = 0 := by
        rw [h]; simp
      push_cast at h2
      linear_combination -h2
  rw [hdiff, Finset.sum_eq_zero_iff]
  refine forall_congr' fun j => ?_
  rw [← halive]
  simp only [Finset.mem_univ, true_implies]
  by_cases ha : Alive (FromGraph.preliminaryU (F := K) g) zeros j <;> simp [ha]

/-! ### a line that is in every spanning tree -/

/-- two lines between the vertices 0 and 1, and one between 1 and 2 -/
def bubbleWithBridge : FromGraph.Graph 2 3 2 := ⟨![(0,1), (0,1), (1,2)], ![0, 2]⟩

/-- **C32 (defect).** For a graph with a line that is in every spanning tree and has the power `-1`, the exponent of U is not the
one that belongs to the numerator. -/
theorem C32_bridge_defect (F : Poly 3 ℂ) (hF : NonNeg F) (Nnu D : ℂ) :
    ∃ s, numerator (FromGraph.preliminaryU bubbleWithBridge) F ⟨[(0, 1)]⟩ (startN Nnu D 1 0) (startM Nnu D 1)
        (fun i => if i = 2 then 1 else 0) (fun i => i == 2) = some s ∧
      exponentU Nnu D 1 0 (numberOfDerivatives (fun i => if i = 2 then 1 else 0) 3) ≠ s.n := by
  obtain ⟨s, h1, h2⟩ := C32_graph_exponent (RingHom.id ℂ) bubbleWithBridge (by decide) F hF ⟨[(0, 1)]⟩
    (by intro t ht i; simp at ht; simp [ht]) Nnu D 1 (fun i => if i = 2 then 1 else 0) (fun i => i == 2)
  refine ⟨s, h1, fun h => ?_⟩
  obtain ⟨T, hT, hj, -⟩ := h2.1 h 2 (by simp)
  -- without the line, the vertex 2 is isolated
  obtain ⟨p⟩ := hT.1.1.preconnected (2 : Fin 3) 0
  cases p with
  | cons hadj _ =>
    obtain ⟨-, i, hi, h'⟩ := hadj
    fin_cases i
    · simp [bubbleWithBridge] at h'
    · simp [bubbleWithBridge] at h'
    · exact hj hi

/-- the hypotheses hold for the bubble: the exponent is right -/
example : ∀ j : Fin 2, ∃ T, FromGraph.SpanningTree (⟨![(0,1), (0,1)], ![0, 1]⟩ : FromGraph.Graph 1 2 2) T ∧ j ∉ T := by
  intro j
  refine ⟨{1 - j}, ?_, by fin_cases j <;> decide⟩
  refine (FromGraph.spanningTree_iff _ _).2 ⟨?_, by simp⟩
  have h01 : (FromGraph.sub (⟨![(0,1), (0,1)], ![0, 1]⟩ : FromGraph.Graph 1 2 2) {1 - j}).Adj 0 1 :=
    ⟨by decide, 1 - j, by simp, by fin_cases j <;> simp⟩
  refine ⟨fun a b => ?_⟩
  fin_cases a <;> fin_cases b
  · exact SimpleGraph.Reachable.refl _
  · exact h01.reachable
  · exact h01.symm.reachable
  · exact SimpleGraph.Reachable.refl _

/-- a case with a derivative for `C32_integrand`: `U = x0 + x1`, `F = x0^2 + x0*x1`, the second power is `-1` -/
example : NonNeg (⟨[(![1,0], 1), (![0,1], 1)]⟩ : Poly 2 ℂ) ∧ NonNeg (⟨[(![2,0], 1), (![1,1], 1)]⟩ : Poly 2 ℂ) ∧
    ((⟨[(![1,0], 1), (![0,1], 1)]⟩ : Poly 2 ℂ).terms.map (·.1)).Nodup ∧
    Alive (⟨[(![1,0], 1), (![0,1], 1)]⟩ : Poly 2 ℂ) (fun i => i == 1) 1 ∧
    pev (RingHom.id ℂ) ![1, 0] (⟨[(![1,0], 1), (![0,1], 1)]⟩ : Poly 2 ℂ) ∈ Complex.slitPlane ∧
    pev (RingHom.id ℂ) ![1, 0] (⟨[(![2,0], 1), (![1,1], 1)]⟩ : Poly 2 ℂ) ∈ Complex.slitPlane := by
  refine ⟨?_, ?_, ?_, ⟨![0,1], by simp, ?_, ?_⟩, ?_, ?_⟩
  · intro t ht i
    simp at ht
    rcases ht with rfl | rfl <;> fin_cases i <;> simp
  · intro t ht i
    simp at ht
    rcases ht with rfl | rfl <;> fin_cases i <;> simp
  · simp
  · simp [coeffOf]
  · intro l hl hz
    fin_cases l <;> simp at hl
  · simp [pev, mono, Fin.prod_univ_two]
  · simp [pev, mono, Fin.prod_univ_two]

end LoopCommon
end SecDec
