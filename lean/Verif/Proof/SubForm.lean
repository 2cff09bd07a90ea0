import Verif.Proof.SubExpr
import Verif.Proof.DecompIntegral
set_option linter.unusedSectionVars false
namespace SecDec.Subtraction
open Expr Set Decomp

variable {N R : Nat} {F : Type} [Field F] [DecidableEq F] {φ : F →+* ℂ} {ε : Fin R → ℂ}

/-- Exponent vectors of polynomials of the regulators. -/
def RE (e : Expo (N + R)) : Prop := (∀ i, 0 ≤ e i) ∧ ∀ i : Fin N, e (Fin.castAdd R i) = 0

theorem RE.zero : RE (N := N) (R := R) 0 := ⟨fun _ => le_refl _, fun _ => rfl⟩
theorem RE.zero' : RE (N := N) (R := R) (fun _ => 0) := ⟨fun _ => le_refl _, fun _ => rfl⟩
theorem RE.add {a b : Expo (N + R)} (ha : RE a) (hb : RE b) : RE (a + b) :=
  ⟨fun i => add_nonneg (ha.1 i) (hb.1 i), fun i => by simp [ha.2 i, hb.2 i]⟩

theorem regulatorPoly_iff {p : Poly (N + R) F} : RegulatorPoly p ↔ ∀ t ∈ p.terms, RE t.1 := Iff.rfl

theorem RegulatorPoly.simplify {p : Poly (N + R) F} (h : RegulatorPoly p) : RegulatorPoly p.simplify := by
  intro t ht
  rcases Poly.simplify_expo_subset p t ht with ⟨s, hs, e⟩ | e
  · rw [← e]; exact h s hs
  · rw [e]; exact RE.zero

theorem RegulatorPoly.zeroPoly : RegulatorPoly (Poly.zeroPoly : Poly (N + R) F) := by
  intro t ht; simp [Poly.zeroPoly] at ht; subst ht; exact RE.zero'

theorem RegulatorPoly.addScalar {p : Poly (N + R) F} (h : RegulatorPoly p) (c : F) :
    RegulatorPoly (p.addScalar c) := by
  apply RegulatorPoly.simplify
  intro t ht
  rcases List.mem_cons.1 ht with rfl | ht
  · exact RE.zero'
  · exact h t ht

theorem RegulatorPoly.add {p q : Poly (N + R) F} (hp : RegulatorPoly p) (hq : RegulatorPoly q) :
    RegulatorPoly (p.add q) := by
  apply RegulatorPoly.simplify
  intro t ht
  simp only at ht
  rcases List.mem_append.1 ht with ht | ht
  · exact hp t ht
  · obtain ⟨u, hu, rfl⟩ := List.mem_map.1 ht; exact hq u hu

theorem RegulatorPoly.mulScalar {p : Poly (N + R) F} (h : RegulatorPoly p) (c : F) :
    RegulatorPoly (p.mulScalar c) := by
  unfold Poly.mulScalar
  split
  · exact h
  · split
    · exact RegulatorPoly.zeroPoly
    · intro t ht
      obtain ⟨u, hu, rfl⟩ := List.mem_map.1 ht; exact h u hu

theorem RegulatorPoly.mul {p q : Poly (N + R) F} (hp : RegulatorPoly p) (hq : RegulatorPoly q) :
    RegulatorPoly (p.mul q) := by
  apply RegulatorPoly.simplify
  intro t ht
  obtain ⟨s, hs, ht⟩ := List.mem_flatMap.1 ht
  obtain ⟨u, hu, rfl⟩ := List.mem_map.1 ht
  exact RE.add (hq u hu) (hp s hs)

theorem RegulatorPoly.nonneg {p : Poly (N + R) F} (hp : RegulatorPoly p) : NonNeg p := fun t ht => (hp t ht).1

theorem RegulatorPoly.replace_eq {p : Poly (N + R) F} (hp : RegulatorPoly p) (j : Fin N) (v : F) :
    p.replace (Fin.castAdd R j) v = p := by
  unfold Poly.replace
  cases p with
  | mk terms =>
  congr 1
  refine (List.map_congr_left fun t ht => ?_).trans (List.map_id _)
  have h0 := (hp t ht).2 j
  have h1 : Function.update t.1 (Fin.castAdd R j) 0 = t.1 := by
    rw [← h0]; exact Function.update_eq_self _ _
  ext1
  · exact h1
  · simp only [Poly.replaceCoeff, h0]
    split
    · simp
    · split <;> simp

/-- The regulator point without Feynman parameters. -/
def rpt (N : Nat) (ε : Fin R → ℂ) : Fin (N + R) → ℂ := Fin.append (fun _ : Fin N => (0:ℂ)) ε

theorem mono_RE {e : Expo (N + R)} (he : RE e) {x y : Fin (N + R) → ℂ}
    (h : ∀ i : Fin R, x (Fin.natAdd N i) = y (Fin.natAdd N i)) : Poly.mono x e = Poly.mono y e := by
  unfold Poly.mono
  rw [Fin.prod_univ_add, Fin.prod_univ_add]
  simp [he.2, h]

theorem pev_reg {p : Poly (N + R) F} (hp : RegulatorPoly p) {x y : Fin (N + R) → ℂ}
    (h : ∀ i : Fin R, x (Fin.natAdd N i) = y (Fin.natAdd N i)) : pev φ x p = pev φ y p := by
  unfold pev
  congr 1
  refine List.map_congr_left fun t ht => ?_
  rw [mono_RE (hp t ht) h]

theorem pev_point {p : Poly (N + R) F} (hp : RegulatorPoly p) (t : Fin N → ℝ) :
    pev φ (point ε t) p = pev φ (rpt N ε) p :=
  pev_reg hp (fun i => by rw [point_natAdd]; simp [rpt])

theorem pev_update {p : Poly (N + R) F} (hp : RegulatorPoly p) (x : Fin (N + R) → ℂ) (j : Fin N) (s : ℂ) :
    pev φ (Function.update x (Fin.castAdd R j) s) p = pev φ x p :=
  pev_reg hp (fun i => by
    rw [Function.update_of_ne]
    intro hh
    have := congrArg Fin.val hh
    simp at this; omega)

theorem pev_analytic {p : Poly (N + R) F} (hp : RegulatorPoly p) (x : Fin (N + R) → ℂ) :
    AnalyticAt ℂ (fun x => pev φ x p) x :=
  analyticAt_list_sum _ _ (fun t ht => analyticAt_const.mul (analyticAt_mono t.1 (fun i _ => (hp t ht).1 i)))

theorem isOpen_pev_ne {p : Poly (N + R) F} (hp : RegulatorPoly p) : IsOpen {x : Fin (N + R) → ℂ | pev φ x p ≠ 0} := by
  have : Continuous fun x : Fin (N + R) → ℂ => pev φ x p :=
    continuous_iff_continuousAt.2 fun x => (pev_analytic hp x).continuousAt
  exact isOpen_ne.preimage this

theorem adm_ofPoly {p : Poly (N + R) F} (hp : RegulatorPoly p) (U : Set (Fin (N + R) → ℂ)) :
    Adm (Mode.free φ) φ U (.poly (p.terms.map (fun t => (t.1, .num t.2)))) := by
  refine Adm.poly _ ?_ ?_ ?_ <;> intro t ht <;> obtain ⟨u, hu, rfl⟩ := List.mem_map.1 ht
  · exact fun x _ i _ => (hp u hu).1 i
  · exact Adm.num _
  · exact ⟨_, rfl⟩

/-! ### Monomials -/

theorem mono_point {e : Expo (N + R)} (he : ∀ i : Fin R, e (Fin.natAdd N i) = 0) (t : Fin N → ℝ) :
    Poly.mono (point ε t) e = ((∏ i, t i ^ e (Fin.castAdd R i) : ℝ) : ℂ) := by
  unfold Poly.mono
  rw [Fin.prod_univ_add]
  simp [he, point_castAdd]

theorem real_cpow {a : ℝ} (ha : 0 < a) (w : ℂ) : (a : ℂ) ^ w = Complex.exp ((Real.log a : ℂ) * w) := by
  rw [Complex.cpow_def_of_ne_zero (by exact_mod_cast ha.ne'), Complex.ofReal_log ha.le]

theorem prod_zpow_cpow {t : Fin N → ℝ} (ht : ∀ i, 0 < t i) (e : Fin N → ℤ) (w : ℂ) :
    ((∏ i, t i ^ e i : ℝ) : ℂ) ^ w = ∏ i, (t i : ℂ) ^ (w * (e i : ℂ)) := by
  have hpos : ∀ i, 0 < t i ^ e i := fun i => zpow_pos (ht i) _
  rw [real_cpow (Finset.prod_pos fun i _ => hpos i), Real.log_prod (fun i _ => (hpos i).ne')]
  push_cast
  rw [Finset.sum_mul, Complex.exp_sum]
  refine Finset.prod_congr rfl fun i _ => ?_
  rw [real_cpow (ht i), Real.log_zpow]
  congr 1; push_cast; ring

/-- The constant factors of the monomials. -/
noncomputable def kappa (φ : F →+* ℂ) (ε : Fin R → ℂ) (ms : List (Monomial (N + R) F)) : ℂ :=
  (ms.map (fun m => (φ m.coeff) ^ (pev φ (rpt N ε) m.exponent))).prod

/-- The power of a Feynman parameter. -/
noncomputable def pw (φ : F →+* ℂ) (ε : Fin R → ℂ) (ms : List (Monomial (N + R) F)) (i : Fin N) : ℂ :=
  (ms.map (fun m => pev φ (rpt N ε) m.exponent * ((m.expo (Fin.castAdd R i) : Int) : ℂ))).sum

theorem power_eq (P : PolyProd (N + R) F) (i : Fin N) : power φ ε P i = pw φ ε P.monos i := by
  unfold power pw
  congr 1
  refine List.map_congr_left fun m _ => ?_
  rw [eval_ofPoly]; rfl

/-- Conditions on the monomials of a well-formed product. -/
structure WM (φ : F →+* ℂ) (m : Monomial (N + R) F) : Prop where
  coeff : ∃ r : ℝ, 0 < r ∧ φ m.coeff = (r : ℂ)
  monomial : ∀ i : Fin R, m.expo (Fin.natAdd N i) = 0
  exponent : RegulatorPoly m.exponent

theorem WellFormed.wm {P : PolyProd (N + R) F} (h : WellFormed φ P) : ∀ m ∈ P.monos, WM φ m :=
  fun m hm => ⟨h.coeff m hm, h.monomial m hm, h.exponent m hm⟩

theorem monos_value (ms : List (Monomial (N + R) F)) (h : ∀ m ∈ ms, WM φ m) {t : Fin N → ℝ} (ht : ∀ i, 0 < t i) :
    ((ms.map Monomial.toExpr).map (Expr.eval φ (point ε t))).prod
      = kappa φ ε ms * ∏ i, (t i : ℂ) ^ (pw φ ε ms i) := by
  induction ms with
  | nil => simp [kappa, pw]
  | cons m ms ih =>
    obtain ⟨r, hr, hc⟩ := (h m (by simp)).coeff
    simp only [List.map_cons, List.prod_cons]
    rw [ih (fun m hm => h m (by simp [hm]))]
    have h1 : Expr.eval φ (point ε t) m.toExpr = (φ m.coeff) ^ (pev φ (rpt N ε) m.exponent) *
        ∏ i, (t i : ℂ) ^ (pev φ (rpt N ε) m.exponent * ((m.expo (Fin.castAdd R i) : Int) : ℂ)) := by
      rw [Monomial.toExpr, eval_epoly, eval_ofPoly, pev_point (h m (by simp)).exponent, eval_poly]
      simp only [List.map_cons, List.map_nil, List.sum_cons, List.sum_nil, add_zero, eval_num]
      rw [mono_point (h m (by simp)).monomial, hc,
        Complex.mul_cpow_ofReal_nonneg hr.le (Finset.prod_nonneg fun i _ => (zpow_pos (ht i) _).le),
        prod_zpow_cpow ht]
    rw [h1]
    have h2 : ∀ i, (t i : ℂ) ^ (pw φ ε (m :: ms) i) =
        (t i : ℂ) ^ (pev φ (rpt N ε) m.exponent * ((m.expo (Fin.castAdd R i) : Int) : ℂ)) * (t i : ℂ) ^ (pw φ ε ms i) := by
      intro i
      rw [← Complex.cpow_add _ _ (by exact_mod_cast (ht i).ne')]
      simp [pw]
    simp only [h2, Finset.prod_mul_distrib]
    simp only [kappa, List.map_cons, List.prod_cons]
    ring

/-- The constant factor of a product: constants of the monomials and regulator poles. -/
noncomputable def cst (φ : F →+* ℂ) (ε : Fin R → ℂ) (P : PolyProd (N + R) F) : ℂ :=
  kappa φ ε P.monos * (pev φ (rpt N ε) P.regBase)⁻¹

/-- The function `cal_I`. -/
noncomputable def fI (φ : F →+* ℂ) (P : PolyProd (N + R) F) (x : Fin (N + R) → ℂ) : ℂ :=
  Expr.eval φ x (.prod P.calI)

theorem value_eq {P : PolyProd (N + R) F} (h : WellFormed φ P) {t : Fin N → ℝ} (ht : ∀ i, 0 < t i) :
    value φ ε P t = cst φ ε P * (∏ i, (t i : ℂ) ^ (pw φ ε P.monos i)) * fI φ P (point ε t) := by
  rw [value, PolyProd.toExpr, eval_prod]
  simp only [List.map_cons, List.prod_cons]
  rw [eval_prod, monos_value P.monos h.wm ht, eval_pow, eval_ofPoly, pev_point h.base, h.exp, fI, eval_prod]
  have : Expr.eval φ (point ε t) (.poly [((fun _ => 0), .num (-1))]) = -1 := by
    rw [eval_poly]; simp [eval_num, mono_zero']
  rw [this, Complex.cpow_neg_one, cst]; ring

/-! ### Setting a Feynman parameter to one in the monomials -/

theorem setOne_eq {m : Monomial (N + R) F} (h : WM φ m) (j : Fin N) :
    m.setOne (Fin.castAdd R j) = { m with expo := Function.update m.expo (Fin.castAdd R j) 0 } := by
  simp only [Monomial.setOne, h.exponent.replace_eq]

theorem setOne_wm {m : Monomial (N + R) F} (h : WM φ m) (j : Fin N) : WM φ (m.setOne (Fin.castAdd R j)) := by
  rw [setOne_eq h]
  refine ⟨h.coeff, fun i => ?_, h.exponent⟩
  show Function.update m.expo _ 0 _ = 0
  rw [Function.update_of_ne]
  · exact h.monomial i
  · intro hh
    have := congrArg Fin.val hh
    simp at this; omega

theorem kappa_setOne {ms : List (Monomial (N + R) F)} (h : ∀ m ∈ ms, WM φ m) (j : Fin N) :
    kappa φ ε (ms.map (Monomial.setOne (Fin.castAdd R j))) = kappa φ ε ms := by
  unfold kappa
  rw [List.map_map]
  congr 1
  refine List.map_congr_left fun m hm => ?_
  simp only [Function.comp, setOne_eq (h m hm)]

theorem pw_setOne {ms : List (Monomial (N + R) F)} (h : ∀ m ∈ ms, WM φ m) (j i : Fin N) :
    pw φ ε (ms.map (Monomial.setOne (Fin.castAdd R j))) i = if i = j then 0 else pw φ ε ms i := by
  unfold pw
  rw [List.map_map]
  split
  · rename_i hij
    subst hij
    apply List.sum_eq_zero
    intro z hz
    obtain ⟨m, hm, rfl⟩ := List.mem_map.1 hz
    simp [setOne_eq (h m hm)]
  · rename_i hij
    congr 1
    refine List.map_congr_left fun m hm => ?_
    simp [setOne_eq (h m hm), Function.update_of_ne (castAdd_ne (R := R) hij)]

/-! ### The full exponent -/

theorem fullExponent_spec {ms : List (Monomial (N + R) F)} (h : ∀ m ∈ ms, WM φ m) (j : Fin N) :
    RegulatorPoly (fullExponent (Fin.castAdd R j) ms) ∧
      ∀ ε : Fin R → ℂ, pev φ (rpt N ε) (fullExponent (Fin.castAdd R j) ms) = pw φ ε ms j := by
  cases ms with
  | nil => exact ⟨RegulatorPoly.zeroPoly, fun ε => by simp [fullExponent, pev_zero, pw]⟩
  | cons m ms =>
    have key : ∀ (l : List (Monomial (N + R) F)) (acc : Poly (N + R) F), (∀ m ∈ l, WM φ m) → RegulatorPoly acc →
        RegulatorPoly (l.foldl (fun acc m => acc.add (m.exponent.mulScalar ((m.expo (Fin.castAdd R j) : Int) : F))) acc) ∧
        ∀ ε : Fin R → ℂ, pev φ (rpt N ε) (l.foldl (fun acc m => acc.add (m.exponent.mulScalar ((m.expo (Fin.castAdd R j) : Int) : F))) acc)
          = pev φ (rpt N ε) acc + pw φ ε l j := by
      intro l
      induction l with
      | nil => intro acc _ ha; exact ⟨ha, fun ε => by simp [pw]⟩
      | cons m l ih =>
        intro acc hl ha
        obtain ⟨i1, i2⟩ := ih (acc.add (m.exponent.mulScalar ((m.expo (Fin.castAdd R j) : Int) : F)))
          (fun m hm => hl m (by simp [hm])) (ha.add ((hl m (by simp)).exponent.mulScalar _))
        refine ⟨i1, fun ε => ?_⟩
        simp only [List.foldl_cons]
        rw [i2 ε, pev_add, pev_mulScalar]
        simp [pw]; ring
    obtain ⟨k1, k2⟩ := key ms ((m.exponent.mulScalar ((m.expo (Fin.castAdd R j) : Int) : F)).addScalar 0)
      (fun m hm => h m (by simp [hm])) (((h m (by simp)).exponent.mulScalar _).addScalar 0)
    refine ⟨k1, fun ε => ?_⟩
    rw [fullExponent, k2 ε, pev_addScalar, pev_mulScalar]
    simp [pw]

theorem den_spec {ms : List (Monomial (N + R) F)} (h : ∀ m ∈ ms, WM φ m) (j : Fin N) (p : ℕ) :
    RegulatorPoly (((fullExponent (Fin.castAdd R j) ms).addScalar ((p : F) + 1)).mulScalar ((p.factorial : ℕ) : F)) ∧
      ∀ ε : Fin R → ℂ, pev φ (rpt N ε) (((fullExponent (Fin.castAdd R j) ms).addScalar ((p : F) + 1)).mulScalar
        ((p.factorial : ℕ) : F)) = (pw φ ε ms j + p + 1) * (p.factorial : ℂ) := by
  obtain ⟨h1, h2⟩ := fullExponent_spec h j
  refine ⟨(h1.addScalar _).mulScalar _, fun ε => ?_⟩
  rw [pev_mulScalar, pev_addScalar, h2]
  simp [add_assoc]

end SecDec.Subtraction
