import Verif.Proof.PackageMain
/-
The processing of a sector succeeds.
-/
namespace SecDec
namespace Package
open Squash Decomp Sector Expansion Set Subtraction Expr LeadingOrder AnalyticReg Filter Topology MeasureTheory
variable {n : ℕ} {Q : Poly 1 ℚ → Prop} {m : ℕ} {s : Squash.Sector n ℝ (Poly 1 ℚ)}

theorem coeff_all (e : Poly 1 ℚ) (f : Expo 1) : (allSymbols (n := n) e).coeffOf (Fin.append (fun _ => 0) f) =
    (((e.terms.map fun t => if t.1 = f then t.2 else 0).sum : ℚ) : ℝ) := by
  unfold Poly.coeffOf allSymbols
  simp only
  induction e.terms with
  | nil => simp
  | cons t l ih =>
    have hiff : Fin.append (fun _ : Fin n => (0 : ℤ)) t.1 = Fin.append (fun _ => 0) f ↔ t.1 = f := by
      refine ⟨fun h => ?_, fun h => by rw [h]⟩
      funext i
      have := congrFun h (Fin.natAdd n i)
      simpa using this
    simp only [List.map_cons, List.filter_cons, List.sum_cons]
    by_cases h : t.1 = f
    · simp only [hiff, h, decide_true, if_true, List.map_cons, List.sum_cons, ih, Rat.cast_add]
    · simp only [hiff, h, decide_false, Bool.false_eq_true, if_false, ih, zero_add]

theorem coeff_one (e : Expo (n + 1)) : (⟨[((fun _ => 0), 1)]⟩ : Poly (n + 1) ℝ).coeffOf e = if e = (fun _ => 0) then 1 else 0 := by
  unfold Poly.coeffOf
  by_cases h : e = fun _ => 0
  · subst h; simp
  · have : ¬ (fun _ => (0 : ℤ)) = e := fun h' => h h'.symm
    simp [this, h]

theorem powerCoeff_init (i : Fin n) (f : Expo 1) : powerCoeff (initializer s) i (Fin.append (fun _ => 0) f) =
    (((if f = (fun _ => 0) then (s.jac.1 i : ℚ) else 0) +
      (s.cast.map fun p => ((exponentOf p.poly).terms.map fun t => if t.1 = f then t.2 else 0).sum * (p.mono.1 i : ℚ)).sum : ℚ) : ℝ) := by
  unfold powerCoeff initializer
  simp only [List.map_cons, List.sum_cons, List.map_map]
  rw [Rat.cast_add, coeff_one]
  have hiff : (Fin.append (fun _ : Fin n => (0 : ℤ)) f = fun _ => 0) ↔ f = fun _ => 0 := by
    refine ⟨fun h => ?_, fun h => ?_⟩
    · funext i
      have := congrFun h (Fin.natAdd n i)
      simpa using this
    · subst h
      funext i
      refine Fin.addCases (fun i => by simp) (fun i => by simp) i
  congr 1
  · by_cases h : f = fun _ => 0
    · rw [if_pos (hiff.2 h), if_pos h]; simp [withRegulator]
    · rw [if_neg fun h' => h (hiff.1 h'), if_neg h]; simp
  · have : ∀ l : List (SProd n ℝ (Poly 1 ℚ)), (l.map ((fun m : Subtraction.Monomial (n + 1) ℝ => m.exponent.coeffOf (Fin.append (fun _ => 0) f) * ((m.expo (Fin.castAdd 1 i) : Int) : ℝ)) ∘
        fun p => ⟨withRegulator p.mono.1, p.mono.2, allSymbols (exponentOf p.poly)⟩)).sum =
        (((l.map fun p => ((exponentOf p.poly).terms.map fun t => if t.1 = f then t.2 else 0).sum * (p.mono.1 i : ℚ)).sum : ℚ) : ℝ) := by
      intro l
      induction l with
      | nil => simp
      | cons p l ih =>
        simp only [List.map_cons, List.sum_cons]
        rw [ih, Rat.cast_add, Rat.cast_mul]
        congr 1
        simp only [Function.comp, coeff_all]
        simp [withRegulator]
    exact this s.cast

theorem powerCoeff_zero (i : Fin n) : powerCoeff (initializer s) i (fun _ => 0) = ((β0 s i : ℚ) : ℝ) := by
  have := powerCoeff_init (s := s) i fun _ => 0
  rw [show (Fin.append (fun _ : Fin n => (0 : ℤ)) fun _ : Fin 1 => 0) = fun _ => 0 by
    funext i; refine Fin.addCases (fun i => by simp) (fun i => by simp) i] at this
  rw [this, if_pos rfl]
  rfl

theorem powerCoeff_slope (i : Fin n) : powerCoeff (initializer s) i (Fin.append (fun _ => 0) fun _ => 1) = ((β1 s i : ℚ) : ℝ) := by
  rw [powerCoeff_init, if_neg (by intro h; have := congrFun h 0; simp at this), zero_add]
  have : ∀ t : Expo 1 × ℚ, (t.1 = fun _ => 1) = (t.1 0 = 1) := fun t => propext ⟨fun h => by rw [h], fun h => by
    funext i; rw [Subsingleton.elim i 0]; exact h⟩
  simp only [this]
  rfl

theorem init_complete : CompleteIntegrand (initializer s) := by
  have hp : ∀ l : List (Expo (n + 1) × ℝ), Complete (.poly (l.map fun t => (t.1, .num t.2)) : Expr (n + 1) ℝ) := by
    intro l
    refine Complete.poly _ fun t ht => ?_
    obtain ⟨u, _, rfl⟩ := List.mem_map.1 ht
    exact Complete.num _
  refine ⟨by simp [initializer], ?_, hp [((fun _ => 0), -1)]⟩
  intro e he
  rcases List.mem_cons.1 he with rfl | he
  · exact hp [((fun _ => 0), s.jac.2)]
  · obtain ⟨p, _, rfl⟩ := List.mem_map.1 he
    refine Complete.pow _ _ ?_ (hp _)
    have := hp (p.poly.terms.map fun t => (withRegulator t.1, t.2))
    rwa [List.map_map] at this

theorem expandTerm_length {F : Type} [Field F] [DecidableEq F] {k fuel : ℕ} {regs : List (Fin k × ℤ)} {P : PolyProd k F} {r : Summand k F × List ℤ}
    (h : expandTerm fuel regs P = .ok r) : r.2.length = regs.length := by
  unfold expandTerm at h
  obtain ⟨a, -, h⟩ := Expansion.ok_bind h
  obtain ⟨b, hb, h⟩ := Expansion.ok_bind h
  obtain ⟨c, -, h⟩ := Expansion.ok_bind h
  simp only [Except.ok.injEq] at h
  subst h
  exact (mapM_except_forall₂ hb).length_eq.symm

theorem expandAll_length {F : Type} [Field F] [DecidableEq F] {k fuel : ℕ} {regs : List (Fin k × ℤ)} : ∀ (l : List (PolyProd k F)) (h : Option (List ℤ))
    (r : List (Summand k F) × List ℤ), (∀ x, h = some x → x.length = regs.length) → expandAll fuel regs l h = .ok r → r.2.length = regs.length
  | [], none, r, _, h => by simp [expandAll] at h
  | [], some x, r, hx, h => by
    simp only [expandAll, Except.ok.injEq] at h
    subst h
    exact hx x rfl
  | P :: l, hh, r, hx, h => by
    rw [expandAll] at h
    obtain ⟨a, ha, h⟩ := Expansion.ok_bind h
    obtain ⟨b, hb, h⟩ := Expansion.ok_bind h
    simp only [Except.ok.injEq] at h
    subst h
    refine expandAll_length l _ b ?_ hb
    intro x hx'
    simp only [Option.some.injEq] at hx'
    subst hx'
    cases hh with
    | none => exact expandTerm_length ha
    | some y => simp [expandTerm_length ha, hx y rfl]

theorem exists_regular (h : Pos Q m s) (hQ : ∀ e, Q e → Affine e) (hi : Isolated s) : ∃ z, z ∉ poles s := by
  have := (poles_zero h hQ hi).exists
  exact this

theorem sector_succeeds (h : Pos Q m s) (hQ : ∀ e, Q e → Affine e)
    (hQc : ∀ e, Q e → (∀ t ∈ e.terms, t.1 = (fun _ => 0) ∧ t.2 = 1) → e.terms.length = 1) {o : Options}
    (hval : ∀ q : ℚ, o.val q = some q) (hval' : ∀ c q, o.val c = some q → c = (q : ℝ)) (hlen : o.goals.length = n)
    (hreg : ∀ i, powerAtZero s i < 0 → powerSlope s i ≠ 0) :
    ∃ r K, ∀ fuel, K ≤ fuel → processOne { o with fuel := fuel } s = some r := by
  have hi : Isolated s := by
    intro i k h0
    refine hreg i ?_
    have hk : (0 : ℚ) ≤ k := Nat.cast_nonneg k
    have h0' : powerAtZero s i + k + 1 = 0 := h0
    linarith
  obtain ⟨z, hz⟩ := exists_regular h hQ hi
  obtain ⟨r, K, hK⟩ := SectorExp.C46_sector_by_parts_succeeds (φ := φr) (val := o.val) (by simpa using hval 0)
    (fun c q hc => by
      have := hval (q + 1)
      rw [hval' c q hc]
      push_cast at this
      exact this) (init_wf h hQ) (init_clean h hQc) init_complete (by simp [initializer]) (List.nodup_finRange n) (goals := o.goals)
    (by simpa using hlen) o.order (β0 s) (fun i _ => by rw [powerCoeff_zero]; exact hval _)
    (fun i _ h0 hu => by
      have h1 := hu (Fin.append (fun _ => 0) fun _ => 1) (by
        intro h
        have := congrFun h (Fin.natAdd n 0)
        simp at this)
      rw [powerCoeff_slope] at h1
      exact hreg i h0 (by exact_mod_cast h1))
    ⟨z, by rw [init_pole]; exact one_ne_zero, fun i _ p h0 => hz ⟨i, p, by rw [← init_power]; exact h0⟩⟩
  have hr : ∃ p, r.2 = [p] := by
    obtain ⟨l, outs, -, -, h3⟩ := SectorExp.processSector_ok (hK K le_rfl)
    have := expandAll_length _ _ _ (by simp) h3
    exact List.length_eq_one_iff.1 this
  obtain ⟨p, hp⟩ := hr
  refine ⟨(r.1, p), K, fun fuel hf => ?_⟩
  unfold processOne
  simp only
  rw [hK fuel hf]
  obtain ⟨r1, r2⟩ := r
  simp only at hp
  subst hp
  rfl

end Package
end SecDec
