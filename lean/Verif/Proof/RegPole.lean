import Verif.Proof.RegAlgebra
/-
The pole part of the subtraction preserves the regulated integral, also where the integral diverges.
-/
set_option linter.unusedSectionVars false
namespace SecDec.Subtraction
open Expr Set Decomp MeasureTheory

variable {N R : Nat} {F : Type} [Field F] [DecidableEq F] {φ : F →+* ℂ} {ε : Fin R → ℂ}

/-- The sum of the regulated integrals of a list is `v`. -/
def RegSum (φ : F →+* ℂ) (ε : Fin R → ℂ) : List (PolyProd (N + R) F) → ℂ → Prop
  | [], v => v = 0
  | Q :: l, v => ∃ a b, Regulated (value φ ε Q) a ∧ RegSum φ ε l b ∧ a + b = v

theorem RegSum.append : ∀ {l l' : List (PolyProd (N + R) F)} {v : ℂ}, RegSum φ ε (l ++ l') v →
    ∃ a b, RegSum φ ε l a ∧ RegSum φ ε l' b ∧ a + b = v
  | [], l', v, h => ⟨0, v, rfl, h, zero_add v⟩
  | Q :: l, l', v, ⟨a, b, h1, h2, h3⟩ => by
    obtain ⟨c, d, h4, h5, h6⟩ := RegSum.append h2
    exact ⟨a + c, d, ⟨a, c, h1, h4, rfl⟩, h5, by rw [add_assoc, h6, h3]⟩

theorem RegSum.single {Q : PolyProd (N + R) F} {v : ℂ} (h : RegSum φ ε [Q] v) : Regulated (value φ ε Q) v := by
  obtain ⟨a, b, h1, h2, h3⟩ := h
  have : b = 0 := h2
  rw [← h3, this, add_zero]
  exact h1

theorem RegSum.of {J : PolyProd (N + R) F → ℂ} : ∀ {l : List (PolyProd (N + R) F)}, (∀ Q ∈ l, Regulated (value φ ε Q) (J Q)) →
    RegSum φ ε l (l.map J).sum
  | [], _ => rfl
  | Q :: _, h => ⟨J Q, _, h Q (by simp), RegSum.of fun Q' hQ' => h Q' (by simp [hQ']), by simp⟩

/-- One pole term. -/
theorem pole_regulated {P Q : PolyProd (N + R) F} (hW : WellFormed φ P) {j : Fin N} {p : ℕ} (hA : pw φ ε P.monos j + p + 1 ≠ 0)
    (hQ : IsPole φ ε P j p Q) {v : ℂ} (hv : Regulated (value φ ε Q) v) :
    Regulated (fun t => cst φ ε P * (∏ i, (t i : ℂ) ^ (pw φ ε P.monos i)) *
      ((t j : ℂ) ^ p / (p.factorial : ℂ) * zs (Fin.castAdd R j) ((pd (Fin.castAdd R j))^[p] (fI φ P)) (point ε t))) v := by
  obtain ⟨V, h, hV, h1, h2, h3, h4⟩ := hQ.fn
  set A := pw φ ε P.monos
  set Z := zs (Fin.castAdd R j) ((pd (Fin.castAdd R j))^[p] (fI φ P))
  let H : (Fin N → ℝ) → ℂ := fun t => cst φ ε P * ((p.factorial : ℂ))⁻¹ *
    (∏ i, (t i : ℂ) ^ (if i = j then 0 else A i)) * Z (point ε t)
  refine Reg.congr (f := fun t => (t j : ℂ) ^ (A j + p) * H t) (fun t ht => ?_) (Reg.power_out j hA ?_ (Reg.congr (fun t ht => ?_) hv))
  · have hne : (t j : ℂ) ≠ 0 := by exact_mod_cast (oc_pos ht j).ne'
    simp only [H]
    rw [prod_split t A j, Complex.cpow_add _ _ hne, Complex.cpow_natCast]
    ring
  · intro t ht s hs
    simp only [H]
    have e1 : ∏ i, ((Function.update t j s i : ℝ) : ℂ) ^ (if i = j then 0 else A i)
        = ∏ i, (t i : ℂ) ^ (if i = j then 0 else A i) := by
      refine Finset.prod_congr rfl fun i _ => ?_
      by_cases hij : i = j
      · simp [hij]
      · rw [Function.update_of_ne hij]
    have e2 : Z (point ε (Function.update t j s)) = Z (point ε t) := by
      simp only [Z, zs, point_update, Function.update_idem]
    rw [e1, e2]
  · rw [value_eq hQ.wf (oc_pos ht), hQ.monos, h1 _ (hV.covers t (oc_sub ht))]
    simp only [pw_setOne hW.wm, H]
    have := h4 t
    calc _ = (cst φ ε Q * h (point ε t)) * (∏ i, (t i : ℂ) ^ (if i = j then 0 else A i)) * Z (point ε t) := by ring
      _ = _ := by rw [this, mul_inv]; simp only [one_div]; ring

theorem poles_regulated {P : PolyProd (N + R) F} (hW : WellFormed φ P) {j : Fin N} (hA : ∀ p : ℕ, pw φ ε P.monos j + p + 1 ≠ 0)
    {l : List ℕ} {poles : List (PolyProd (N + R) F)} (h : List.Forall₂ (IsPole φ ε P j) l poles) : ∀ {v : ℂ}, RegSum φ ε poles v →
    Regulated (fun t => (l.map fun p => cst φ ε P * (∏ i, (t i : ℂ) ^ (pw φ ε P.monos i)) *
      ((t j : ℂ) ^ p / (p.factorial : ℂ) * zs (Fin.castAdd R j) ((pd (Fin.castAdd R j))^[p] (fI φ P)) (point ε t))).sum) v := by
  induction h with
  | nil => intro v hv; rw [show v = 0 from hv]; simpa using Reg.zero
  | cons h _ ih =>
    rintro v ⟨a, b, h1, h2, rfl⟩
    simp only [List.map_cons, List.sum_cons]
    exact Reg.add (pole_regulated hW (hA _) h h1) (ih h2)

/-- One index. -/
theorem single_regulated {P Q : PolyProd (N + R) F} (hW : WellFormed φ P) {j : Fin N} (hA : ∀ p : ℕ, pw φ ε P.monos j + p + 1 ≠ 0)
    {m : ℕ} {poles : List (PolyProd (N + R) F)}
    (hp : List.Forall₂ (IsPole φ ε P j) (List.range m) poles) (hQ : IsRem φ ε P j m Q) {v : ℂ} (hv : RegSum φ ε (poles ++ [Q]) v) :
    Regulated (value φ ε P) v := by
  obtain ⟨a, b, h1, h2, h3⟩ := hv.append
  have h4 := Reg.add (poles_regulated hW hA hp h1) h2.single
  rw [h3] at h4
  obtain ⟨V, hV, hfn⟩ := hQ.fn
  refine Reg.congr (fun t ht => ?_) h4
  rw [sum_map_range, value_eq hW (oc_pos ht), value_eq hQ.wf (oc_pos ht), hQ.monos, hQ.cst, hfn _ (hV.covers t (oc_sub ht))]
  simp only [rem, taylor, point_castAdd]
  rw [← Finset.mul_sum]; ring

/-- The conditions on a term: no pole at this value of the regulators. -/
structure NoPole (φ : F →+* ℂ) (ε : Fin R → ℂ) (js : List (Fin N)) (P : PolyProd (N + R) F) : Prop where
  wf : WellFormed φ P
  sm : ∃ U, On φ ε P U
  den : ∀ j ∈ js, ∀ p : ℕ, pw φ ε P.monos j + p + 1 ≠ 0

theorem poleSingle_regulated {js : List (Fin N)} {P : PolyProd (N + R) F} (h : NoPole φ ε js P) {j : Fin N} (hj : j ∈ js) {fuel : ℕ}
    {val : F → Option ℚ} {outs : List (PolyProd (N + R) F)} (ho : poleSingle fuel val P (Fin.castAdd R j) = .ok outs) :
    (∀ Q ∈ outs, NoPole φ ε js Q) ∧ ∀ v, RegSum φ ε outs v → Regulated (value φ ε P) v := by
  obtain ⟨U, hU⟩ := h.sm
  obtain ⟨q, _, ⟨_, rfl⟩ | ⟨_, poles, Q, rfl, h1, h2⟩⟩ := poleSingle_spec h.wf hU (fun p _ => h.den j hj p) ho
  · exact ⟨by simpa using h, fun v hv => hv.single⟩
  · refine ⟨?_, fun v hv => single_regulated h.wf (h.den j hj) h1 h2 hv⟩
    intro Q' hQ'
    rcases List.mem_append.1 hQ' with h' | h'
    · obtain ⟨p, _, hp⟩ := forall₂_right h1 Q' h'
      obtain ⟨V, _, hV, _⟩ := hp.fn
      refine ⟨hp.wf, ⟨V, hV⟩, fun i hi k => ?_⟩
      rw [hp.monos, pw_setOne h.wf.wm]
      split
      · rw [zero_add]; exact_mod_cast Nat.succ_ne_zero k
      · exact h.den i hi k
    · simp only [List.mem_singleton] at h'; subst h'
      obtain ⟨V, hV, _⟩ := h2.fn
      exact ⟨h2.wf, ⟨V, hV⟩, fun i hi k => by rw [h2.monos]; exact h.den i hi k⟩

theorem extendAll_regulated {f : PolyProd (N + R) F → Except Err (List (PolyProd (N + R) F))} {C C' : PolyProd (N + R) F → Prop}
    (hf : ∀ P outs, C P → f P = .ok outs → (∀ Q ∈ outs, C' Q) ∧ ∀ v, RegSum φ ε outs v → Regulated (value φ ε P) v) :
    ∀ (l outs : List (PolyProd (N + R) F)), (∀ P ∈ l, C P) → extendAll f l = .ok outs →
      (∀ Q ∈ outs, C' Q) ∧ ∀ v, RegSum φ ε outs v → RegSum φ ε l v := by
  intro l
  induction l with
  | nil => intro outs _ h; simp [extendAll] at h; subst h; simp
  | cons P l ih =>
    intro outs hl h
    simp only [extendAll] at h
    obtain ⟨a, ha, h⟩ := bind_ok h
    obtain ⟨b, hb, h⟩ := bind_ok h
    simp at h; subst h
    obtain ⟨a1, a2⟩ := hf P a (hl P (by simp)) ha
    obtain ⟨b1, b2⟩ := ih b (fun P hP => hl P (by simp [hP])) hb
    refine ⟨?_, fun v hv => ?_⟩
    · intro Q hQ
      rcases List.mem_append.1 hQ with h' | h'
      · exact a1 Q h'
      · exact b1 Q h'
    · obtain ⟨c, d, h1, h2, h3⟩ := hv.append
      exact ⟨c, d, a2 c h1, b2 d h2, h3⟩

theorem poleLoopIdx_regulated {fuel : ℕ} {val : F → Option ℚ} {ks : List (Fin N)} (js : List (Fin N)) :
    ∀ (l outs : List (PolyProd (N + R) F)), (∀ j ∈ js, j ∈ ks) → (∀ P ∈ l, NoPole φ ε ks P) →
      poleLoopIdx fuel val (js.map (Fin.castAdd R)) l = .ok outs → ∀ v, RegSum φ ε outs v → RegSum φ ε l v := by
  induction js with
  | nil => intro l outs _ hl h; simp [poleLoopIdx] at h; subst h; exact fun _ h => h
  | cons j js ih =>
    intro l outs hjs hl h v hv
    simp only [List.map_cons, poleLoopIdx] at h
    obtain ⟨l', hl', h⟩ := bind_ok h
    obtain ⟨a1, a2⟩ := extendAll_regulated (fun P outs hP ho => poleSingle_regulated hP (hjs j (by simp)) ho) l l' hl hl'
    exact a2 v (ih l' outs (fun i hi => hjs i (by simp [hi])) a1 h v hv)

/-- A convergent term is regulated. -/
theorem regulated_of_van {Q : PolyProd (N + R) F} (hW : WellFormed φ Q) {U : Set (Fin (N + R) → ℂ)}
    (hU : On φ ε Q U) (m : Fin N → ℕ) (hv : ∀ k, Van ε (fI φ Q) k (m k))
    (hA : ∀ i, -1 < (pw φ ε Q.monos i).re + m i) : Regulated (value φ ε Q) (cubeIntegral (value φ ε Q)) := by
  obtain ⟨C, _, hC⟩ := bound hU.isOpen hU.covers m Finset.univ (fI φ Q) hU.analytic (fun k _ => hv k)
  obtain ⟨δ, hδ, hδA⟩ : ∃ δ : ℝ, 0 < δ ∧ ∀ i, -1 < (pw φ ε Q.monos i).re - δ + m i := by
    have h1 : ∀ᶠ δ in nhdsWithin (0:ℝ) (Ioi 0), ∀ i, -1 < (pw φ ε Q.monos i).re - δ + m i := by
      rw [Filter.eventually_all]
      intro i
      refine nhdsWithin_le_nhds ?_
      have : ContinuousAt (fun δ : ℝ => (pw φ ε Q.monos i).re - δ + m i) 0 := by fun_prop
      refine this.eventually_const_lt ?_
      simpa using hA i
    obtain ⟨δ, h1, h2⟩ := (h1.and self_mem_nhdsWithin).exists
    exact ⟨δ, h2, h1⟩
  refine Reg.of_integrable hδ ?_
  have h : IntegrableOn _ (oc N) := Integrable.const_mul (integrableOn_powers (fun i => -(δ : ℂ) + pw φ ε Q.monos i) m (fun i => by
    have := hδA i
    simp only [Complex.add_re, Complex.neg_re, Complex.ofReal_re]; linarith) (fun t => fI φ Q (point ε t))
    (An.continuousOn_cube hU.covers hU.analytic.continuousOn) C hC) (cst φ ε Q)
  refine h.congr_fun (fun t ht => ?_) measurableSet_oc
  beta_reduce
  rw [value_eq hW (oc_pos ht)]
  have : ∏ i, (t i : ℂ) ^ (-(δ : ℂ) + pw φ ε Q.monos i) = (∏ i, (t i : ℂ) ^ (-(δ : ℂ))) * ∏ i, (t i : ℂ) ^ (pw φ ε Q.monos i) := by
    rw [← Finset.prod_mul_distrib]
    refine Finset.prod_congr rfl fun i _ => ?_
    have h0 : (t i : ℂ) ≠ 0 := by exact_mod_cast (oc_pos ht i).ne'
    rw [Complex.cpow_add _ _ h0]
  rw [this]; ring

end SecDec.Subtraction
