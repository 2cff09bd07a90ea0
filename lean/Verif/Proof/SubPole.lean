import Verif.Proof.SubIntegral
set_option linter.unusedSectionVars false
namespace SecDec.Subtraction
open Expr Set Decomp MeasureTheory

variable {N R : Nat} {F : Type} [Field F] [DecidableEq F] {φ : F →+* ℂ} {ε : Fin R → ℂ}

theorem lift_ok {α : Type} {o : Option α} {a : α} (h : lift o = .ok a) : o = some a := by
  cases o with
  | none => simp [lift] at h
  | some b => simp [lift] at h; rw [h]

theorem bind_ok {α β : Type} {x : Except Err α} {f : α → Except Err β} {b : β}
    (h : (x >>= f) = .ok b) : ∃ a, x = .ok a ∧ f a = .ok b := by
  cases x with
  | error e => simp [bind, Except.bind] at h
  | ok a => exact ⟨a, rfl, h⟩

/-- `cal_I` is admissible on the open set `U` containing the cube. -/
structure On (φ : F →+* ℂ) (ε : Fin R → ℂ) (P : PolyProd (N + R) F) (U : Set (Fin (N + R) → ℂ)) : Prop where
  isOpen : IsOpen U
  covers : Covers ε U
  adm : ∀ e ∈ P.calI, Adm (Mode.free φ) φ U e

theorem On.analytic {P : PolyProd (N + R) F} {U : Set (Fin (N + R) → ℂ)} (h : On φ ε P U) :
    AnalyticOnNhd ℂ (fI φ P) U := Adm.analytic (Adm.prod P.calI h.adm)

/-- The product `Q` is the pole term number `p` of `P` in the parameter `j`. -/
structure IsPole (φ : F →+* ℂ) (ε : Fin R → ℂ) (P : PolyProd (N + R) F) (j : Fin N) (p : ℕ)
    (Q : PolyProd (N + R) F) : Prop where
  wf : WellFormed φ Q
  monos : Q.monos = P.monos.map (Monomial.setOne (Fin.castAdd R j))
  fn : ∃ (V : Set (Fin (N + R) → ℂ)) (h : (Fin (N + R) → ℂ) → ℂ), On φ ε Q V ∧
    (∀ x ∈ V, fI φ Q x = zs (Fin.castAdd R j) ((pd (Fin.castAdd R j))^[p] (fI φ P)) x * h x) ∧
    (∀ x ∈ V, AnalyticAt ℂ h x) ∧ (∀ (k : Fin N) x s, h (Function.update x (Fin.castAdd R k) s) = h x) ∧
    ∀ t : Fin N → ℝ, cst φ ε Q * h (point ε t) = cst φ ε P * (((pw φ ε P.monos j + p + 1) * (p.factorial : ℂ))⁻¹)

/-- The product `Q` is the remainder of `P` in the parameter `j` after `m` terms. -/
structure IsRem (φ : F →+* ℂ) (ε : Fin R → ℂ) (P : PolyProd (N + R) F) (j : Fin N) (m : ℕ)
    (Q : PolyProd (N + R) F) : Prop where
  wf : WellFormed φ Q
  monos : Q.monos = P.monos
  cst : cst φ ε Q = cst φ ε P
  fn : ∃ V, On φ ε Q V ∧ ∀ x ∈ V, fI φ Q x = rem (Fin.castAdd R j) m (fI φ P) x

theorem poleTerm_spec {P : PolyProd (N + R) F} (hW : WellFormed φ P) {U : Set (Fin (N + R) → ℂ)}
    (hU : On φ ε P U) {j : Fin N} {a : F} {p fuel : ℕ}
    (hden : a + (p : F) + 1 ≠ 0 → pw φ ε P.monos j + p + 1 ≠ 0)
    {dp0 : Expr (N + R) F} (hA : Adm (Mode.free φ) φ (dom0 (Fin.castAdd R j) U) dp0)
    (hv : ∀ x ∈ dom0 (Fin.castAdd R j) U,
      Expr.eval φ x dp0 = zs (Fin.castAdd R j) ((pd (Fin.castAdd R j))^[p] (fI φ P)) x)
    {Q : PolyProd (N + R) F}
    (h : poleTerm fuel P (Fin.castAdd R j) (fullExponent (Fin.castAdd R j) P.monos) a p
      ((p.factorial : ℕ) : F) dp0 = .ok Q) : IsPole φ ε P j p Q := by
  obtain ⟨d1, d2⟩ := den_spec hW.wm j p
  unfold poleTerm at h
  simp only at h
  set den := ((fullExponent (Fin.castAdd R j) P.monos).addScalar ((p : F) + 1)).mulScalar ((p.factorial : ℕ) : F)
  have hm : ∀ m ∈ P.monos.map (Monomial.setOne (Fin.castAdd R j)), WM φ m := by
    intro m hm
    obtain ⟨m', hm', rfl⟩ := List.mem_map.1 hm
    exact setOne_wm (hW.wm m' hm') j
  have hV : IsOpen (dom0 (Fin.castAdd R j) U) := isOpen_dom0 hU.isOpen _
  have hC := hU.covers.dom0 j
  split at h
  · simp at h; subst h
    refine ⟨⟨fun m h' => (hm m h').coeff, fun m h' => (hm m h').monomial, fun m h' => (hm m h').exponent,
      hW.base.mul d1, hW.exp⟩, rfl, dom0 (Fin.castAdd R j) U, fun _ => 1, ⟨hV, hC, ?_⟩, ?_, ?_, ?_, ?_⟩
    · intro e he; simp at he; subst he; exact hA
    · intro x hx; simp only [fI, eval_prod]; simp [hv x hx, fI, eval_prod]
    · intro x _; exact analyticAt_const
    · intros; rfl
    · intro t
      simp only [cst]
      rw [kappa_setOne hW.wm, pev_mul _ hW.base.nonneg d1.nonneg, d2, mul_inv]; ring
  · rename_i hne
    obtain ⟨last, hl, h⟩ := bind_ok h
    simp at h; subst h
    have hl := lift_ok hl
    rw [hW.exp] at hl
    have hVo := hV.inter (isOpen_pev_ne (φ := φ) d1)
    have hres := simplify_last (U := dom0 (Fin.castAdd R j) U ∩ {x | pev φ x den ≠ 0})
      (hA.mono inter_subset_left) (adm_ofPoly d1 _) (neg_ne_zero.2 one_ne_zero)
      (fun x hx => by rw [eval_ofPoly]; exact hx.2) hl
    refine ⟨⟨fun m h' => (hm m h').coeff, fun m h' => (hm m h').monomial, fun m h' => (hm m h').exponent,
      hW.base, hW.exp⟩, rfl, _, fun x => (pev φ x den)⁻¹, ⟨hVo, ?_, ?_⟩, ?_, ?_, ?_, ?_⟩
    · intro t ht
      refine ⟨hC t ht, ?_⟩
      show pev φ (point ε t) den ≠ 0
      rw [pev_point d1, d2]
      exact mul_ne_zero (hden hne) (by exact_mod_cast p.factorial_ne_zero)
    · intro e he; simp at he; subst he; exact hres.1.1
    · intro x hx
      simp only [fI, eval_prod]
      simp only [List.map_cons, List.map_nil, List.prod_cons, List.prod_nil, mul_one]
      rw [hres.1.2 x hx]
      beta_reduce
      rw [hv x hx.1, eval_ofPoly]
    · intro x hx; exact (pev_analytic d1 x).inv hx.2
    · intro k x s; beta_reduce; rw [pev_update d1]
    · intro t
      simp only [cst]
      rw [kappa_setOne hW.wm, pev_point d1, d2]

theorem minusPower_spec (j : Fin N) (p : ℕ) {V : Set (Fin (N + R) → ℂ)} :
    Adm (Mode.free φ) φ V (minusPower (Fin.castAdd R j) p ((p.factorial : ℕ) : F)) ∧
    ∀ x : Fin (N + R) → ℂ, Expr.eval φ x (minusPower (Fin.castAdd R j) p ((p.factorial : ℕ) : F)) =
      -(x (Fin.castAdd R j) ^ p / (p.factorial : ℂ)) := by
  constructor
  · refine Adm.poly _ ?_ ?_ ?_ <;> intro t ht <;> simp at ht <;> subst ht
    · intro x _ i _
      by_cases h : i = Fin.castAdd R j
      · subst h; simp
      · simp [Function.update_of_ne h]
    · exact Adm.num _
    · exact ⟨_, rfl⟩
  · intro x
    rw [minusPower, eval_poly]
    simp only [List.map_cons, List.map_nil, List.sum_cons, List.sum_nil, add_zero, eval_num]
    have : Poly.mono x (Function.update (fun _ => 0) (Fin.castAdd R j) (p : ℤ)) = x (Fin.castAdd R j) ^ p := by
      unfold Poly.mono
      rw [Finset.prod_eq_single (Fin.castAdd R j)]
      · simp
      · intro b _ hb; simp [Function.update_of_ne hb]
      · simp
    rw [this]
    simp [div_eq_inv_mul]

theorem poleLoop_spec {P : PolyProd (N + R) F} (hW : WellFormed φ P) {U : Set (Fin (N + R) → ℂ)}
    (hU : On φ ε P U) {j : Fin N} {a : F} {fuel : ℕ}
    (hden : ∀ p : ℕ, a + (p : F) + 1 ≠ 0 → pw φ ε P.monos j + p + 1 ≠ 0) (count : ℕ) :
    ∀ (p : ℕ) (pf : F) (d : Expr (N + R) F) (outs : List (PolyProd (N + R) F)) (minus : List (Expr (N + R) F)),
    (p = 0 ∨ pf = (((p - 1).factorial : ℕ) : F)) → Adm (Mode.free φ) φ U d →
    EqOn (fun x => Expr.eval φ x d) ((pd (Fin.castAdd R j))^[p - 1] (fI φ P)) U →
    poleLoop fuel P (Fin.castAdd R j) (fullExponent (Fin.castAdd R j) P.monos) a count p pf d = .ok (outs, minus) →
    List.Forall₂ (IsPole φ ε P j) (List.range' p count) outs ∧
    (∀ e ∈ minus, Adm (Mode.free φ) φ (dom0 (Fin.castAdd R j) U) e) ∧
    ∀ x ∈ dom0 (Fin.castAdd R j) U, (minus.map (Expr.eval φ x)).sum =
      -∑ r ∈ Finset.range count, x (Fin.castAdd R j) ^ (p + r) / (((p + r).factorial : ℕ) : ℂ) *
        zs (Fin.castAdd R j) ((pd (Fin.castAdd R j))^[p + r] (fI φ P)) x := by
  induction count with
  | zero =>
    intro p pf d outs minus _ _ _ h
    simp [poleLoop] at h
    obtain ⟨rfl, rfl⟩ := h
    simp
  | succ count ih =>
    intro p pf d outs minus hpf hdA hdv h
    simp only [poleLoop] at h
    obtain ⟨d', hd', h⟩ := bind_ok h
    obtain ⟨dp0, hdp0, h⟩ := bind_ok h
    obtain ⟨term, ht, h⟩ := bind_ok h
    obtain ⟨rest, hr, h⟩ := bind_ok h
    simp at h
    obtain ⟨rfl, rfl⟩ := h
    replace hd' := lift_ok hd'
    have hdp0 := lift_ok hdp0
    -- the factorial
    have hpf' : (if p = 0 then 1 else pf * (p : F)) = ((p.factorial : ℕ) : F) := by
      split
      · rename_i h0; simp [h0]
      · rename_i h0
        rcases hpf with h1 | h1
        · exact absurd h1 h0
        · obtain ⟨q, rfl⟩ := Nat.exists_eq_succ_of_ne_zero h0
          rw [h1, Nat.succ_eq_add_one, Nat.factorial_succ]
          simp only [Nat.add_sub_cancel]
          push_cast; ring
    rw [hpf'] at ht hr ⊢
    -- the derivative
    have hdd : Adm (Mode.free φ) φ U d' ∧ EqOn (fun x => Expr.eval φ x d') ((pd (Fin.castAdd R j))^[p] (fI φ P)) U := by
      split at hd'
      · rename_i h0
        simp at hd'; subst hd'; subst h0
        exact ⟨hdA, hdv⟩
      · rename_i h0
        obtain ⟨q, rfl⟩ := Nat.exists_eq_succ_of_ne_zero h0
        obtain ⟨g1, g2⟩ := derive_pd hU.isOpen hdA hd'
        refine ⟨g1, fun x hx => ?_⟩
        rw [g2 hx, Nat.succ_eq_add_one, Function.iterate_succ_apply']
        exact pd_congr hU.isOpen hdv _ hx
    have hA0 := replace_zero_free (φ := φ) (U := U) (fun _ => 0) (Fin.castAdd R j) fuel _ _ hdd.1 hdp0
    have hv0 : ∀ x ∈ dom0 (Fin.castAdd R j) U,
        Expr.eval φ x dp0 = zs (Fin.castAdd R j) ((pd (Fin.castAdd R j))^[p] (fI φ P)) x := by
      intro x hx
      have := replace_val (M := (Mode.free φ)) (φ := φ) (U := U) 0 (fun _ => 0) (Fin.castAdd R j) (by simp)
        (fun _ c hc => hc) fuel _ _ hdd.1 hdp0 x
      rw [this, map_zero]
      exact hdd.2 hx
    have hterm := poleTerm_spec hW hU (hden p) hA0 hv0 ht
    obtain ⟨i1, i2, i3⟩ := ih (p + 1) _ d' rest.1 rest.2 (Or.inr (by simp)) hdd.1 (by simpa using hdd.2) hr
    obtain ⟨mA, mv⟩ := minusPower_spec (φ := φ) (F := F) j p (V := dom0 (Fin.castAdd R j) U)
    refine ⟨?_, ?_, ?_⟩
    · rw [List.range'_succ]; exact List.Forall₂.cons hterm i1
    · intro e he
      rcases List.mem_cons.1 he with rfl | he
      · refine Adm.prod _ ?_
        intro e he
        simp at he
        rcases he with rfl | rfl
        · exact mA
        · exact hA0
      · exact i2 e he
    · intro x hx
      rw [List.map_cons, List.sum_cons, i3 x hx, Finset.sum_range_succ', eval_prod]
      simp only [List.map_cons, List.map_nil, List.prod_cons, List.prod_nil, mul_one, add_zero]
      rw [mv, hv0 x hx]
      have : ∀ r, p + 1 + r = p + (r + 1) := fun r => by omega
      simp only [this]
      ring

/-- The result of `_integrate_pole_part_single_index`. -/
theorem poleSingle_spec {P : PolyProd (N + R) F} (hW : WellFormed φ P) {U : Set (Fin (N + R) → ℂ)}
    (hU : On φ ε P U) {j : Fin N} {fuel : ℕ} {val : F → Option ℚ} {outs : List (PolyProd (N + R) F)}
    (hden : ∀ p : ℕ, ect (Fin.castAdd R j) P.monos + (p : F) + 1 ≠ 0 → pw φ ε P.monos j + p + 1 ≠ 0)
    (h : poleSingle fuel val P (Fin.castAdd R j) = .ok outs) :
    ∃ q, val (ect (Fin.castAdd R j) P.monos) = some q ∧
      ((0 ≤ q ∧ outs = [P]) ∨ (q < 0 ∧ ∃ poles Q, outs = poles ++ [Q] ∧
        List.Forall₂ (IsPole φ ε P j) (List.range ⌊-q⌋.toNat) poles ∧ IsRem φ ε P j ⌊-q⌋.toNat Q)) := by
  unfold poleSingle at h
  simp only at h
  cases hv : val (ect (Fin.castAdd R j) P.monos) with
  | none => simp [hv] at h
  | some q =>
    simp only [hv] at h
    refine ⟨q, rfl, ?_⟩
    split at h
    · simp at h
    · split at h
      · rename_i hq
        simp at h; exact Or.inl ⟨hq, h.symm⟩
      · rename_i hq
        right
        refine ⟨not_le.1 hq, ?_⟩
        obtain ⟨r, hr, h⟩ := bind_ok h
        obtain ⟨s, hs, h⟩ := bind_ok h
        simp at h
        have hs := lift_ok hs
        obtain ⟨k1, k2, k3⟩ := poleLoop_spec hW hU hden _ 0 1 _ r.1 r.2 (Or.inl rfl) (Adm.prod _ hU.adm)
          (fun x _ => rfl) hr
        refine ⟨r.1, _, h.symm, by rw [List.range_eq_range']; exact k1, ?_⟩
        have hVo := hU.isOpen.inter (isOpen_dom0 hU.isOpen (Fin.castAdd R j))
        obtain ⟨⟨s1, s2⟩, _⟩ := (simplify_ok (M := (Mode.free φ)) (φ := φ)
          (U := U ∩ dom0 (Fin.castAdd R j) U) fuel).simp _ _ (Adm.sum _ (by
            intro e he
            rcases List.mem_cons.1 he with rfl | he
            · exact (Adm.prod _ hU.adm).mono inter_subset_left
            · exact (k2 e he).mono inter_subset_right)) hs
        refine ⟨⟨hW.coeff, hW.monomial, hW.exponent, hW.base, hW.exp⟩, rfl, rfl, _,
          ⟨hVo, hU.covers.inter (hU.covers.dom0 j), ?_⟩, ?_⟩
        · intro e he; simp at he; subst he; exact s1
        · intro x hx
          simp only [fI, eval_prod]
          simp only [List.map_cons, List.map_nil, List.prod_cons, List.prod_nil, mul_one]
          rw [s2 x hx]
          beta_reduce
          rw [eval_sum, List.map_cons, List.sum_cons, k3 x hx.2]
          simp only [zero_add, rem, taylor]
          rw [sub_eq_add_neg]
          simp only [fI, eval_prod]

end SecDec.Subtraction
