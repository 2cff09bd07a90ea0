import Verif.Proof.ExprNonint
import Verif.Proof.PolyArith
import Verif.Proof.SubAnalysis
set_option linter.unusedSectionVars false
namespace SecDec.Subtraction
open Expr Set

section adm
variable {n : Nat} {F : Type} [CommRing F] [DecidableEq F]
variable {M : Mode n F} {φ : F →+* ℂ} {U V : Set (Fin n → ℂ)}

theorem analyticAt_list_sum {α : Type} (l : List α) (f : α → (Fin n → ℂ) → ℂ) {x : Fin n → ℂ}
    (h : ∀ a ∈ l, AnalyticAt ℂ (f a) x) : AnalyticAt ℂ (fun x => (l.map (fun a => f a x)).sum) x := by
  induction l with
  | nil => simpa using analyticAt_const
  | cons a l ih =>
    simp only [List.map_cons, List.sum_cons]
    exact (h a (by simp)).add (ih (fun b hb => h b (by simp [hb])))

theorem analyticAt_list_prod {α : Type} (l : List α) (f : α → (Fin n → ℂ) → ℂ) {x : Fin n → ℂ}
    (h : ∀ a ∈ l, AnalyticAt ℂ (f a) x) : AnalyticAt ℂ (fun x => (l.map (fun a => f a x)).prod) x := by
  induction l with
  | nil => simpa using analyticAt_const
  | cons a l ih =>
    simp only [List.map_cons, List.prod_cons]
    exact (h a (by simp)).mul (ih (fun b hb => h b (by simp [hb])))

theorem analyticAt_mono (m : Expo n) {x : Fin n → ℂ} (h : DefinedAt x m) :
    AnalyticAt ℂ (fun x => Poly.mono x m) x := by
  unfold Poly.mono
  refine Finset.analyticAt_fun_prod _ (fun i _ => ?_)
  by_cases h0 : x i = 0
  · exact AnalyticAt.fun_zpow_nonneg (analyticAt_proj i x) (h i h0)
  · exact AnalyticAt.fun_zpow (analyticAt_proj i x) h0

/-- The value of an admissible expression is analytic. -/
theorem Adm.analytic {e : Expr n F} (h : Adm M φ U e) : AnalyticOnNhd ℂ (fun x => eval φ x e) U := by
  induction h with
  | num c => simp only [eval_num]; exact fun _ _ => analyticAt_const
  | poly ts h1 h2 h3 ih =>
    simp only [eval_poly]
    exact fun x hx => analyticAt_list_sum ts _ (fun t ht => (ih t ht x hx).mul (analyticAt_mono t.1 (h1 t ht x hx)))
  | epoly ts e h1 h2 h3 h4 h5 ih1 ih2 =>
    simp only [eval_epoly]
    intro x hx
    rcases h5 with h5 | ⟨c, k, rfl, hk, h5⟩
    · exact (ih1 x hx).cpow (ih2 x hx) (h5 x hx)
    · simp only [eval_num, hk, Complex.cpow_intCast]
      exact (ih1 x hx).fun_zpow (h5 x hx)
  | lpoly ts h1 h2 h3 ih =>
    simp only [eval_lpoly]
    exact fun x hx => (ih x hx).clog (h3 x hx)
  | sum l h ih => simp only [eval_sum]; exact fun x hx => analyticAt_list_sum l _ (fun a ha => ih a ha x hx)
  | prod l h ih => simp only [eval_prod]; exact fun x hx => analyticAt_list_prod l _ (fun a ha => ih a ha x hx)
  | prule l h1 h2 ih =>
    simp only [eval_prule]
    exact fun x hx => analyticAt_list_sum l _ (fun t ht => analyticAt_const.mul
      (analyticAt_list_prod t.2 _ (fun a ha => ih t ht a ha x hx)))
  | pow b e h1 h2 h3 h4 ih1 ih2 =>
    simp only [eval_pow]; exact fun x hx => (ih1 x hx).cpow (ih2 x hx) (h4 x hx)
  | log a h1 h2 ih => simp only [eval_log]; exact fun x hx => (ih x hx).clog (h2 x hx)
  | exp a h ih => simp only [eval_exp]; exact fun x hx => (ih x hx).cexp'

/-- One derivative of an expression. -/
theorem derive_pd (hU : IsOpen U) {e e' : Expr n F} (he : Adm (Mode.free φ) φ U e) {i : Fin n} {fuel : Nat}
    (h : derive fuel e i = some e') :
    Adm (Mode.free φ) φ U e' ∧ EqOn (fun x => eval φ x e') (pd i (fun x => eval φ x e)) U := by
  obtain ⟨h1, h2⟩ := derive_ok hU fuel e e' he h
  exact ⟨h1, fun x hx => (pd_eq_of_hasDerivAt (Adm.analytic he x hx) (h2 x hx)).symm⟩

/-- One round of the loop of `Product.simplify`, for already simplified factors. -/
theorem prodLoop_tail [M.Laws] {fuel : Nat} {l' : List (Expr n F)} {e' : Expr n F}
    (m1 : ∀ e ∈ l', Adm M φ U e ∧ GoodP M e)
    (h : (let r := prodPass l' ⟨[], false, none⟩
      if r.changed then prodLoop fuel r.factors r.one else prodFinish r.factors r.one) = some e') :
    Res M φ U e' (fun x => (l'.map (eval φ x)).prod) := by
  have ih := simplify_ok (M := M) (φ := φ) (U := U) (n := n) (F := F) fuel
  obtain ⟨p1, p2, p3, p4⟩ := prodPass_spec l' ⟨[], false, none⟩ m1 (by simp) (by simp) (by simp)
  simp only [List.map_nil, List.prod_nil, one_mul] at p2
  simp only at h
  split at h
  · obtain ⟨r1, r2⟩ := ih.prodL _ _ e' p1 p3 h
    refine ⟨⟨r1.1, fun x hx => ?_⟩, r2⟩
    rw [r1.2 x hx]; beta_reduce; rw [p2 x hx]
  · rename_i hc
    have hg := p4 (by simpa using hc)
    unfold prodFinish at h
    split at h
    · rename_i s hs
      simp at h; subst h
      refine ⟨⟨p1 s (by simp [hs]), fun x hx => ?_⟩, hg s (by simp [hs])⟩
      have := p2 x hx
      rw [hs] at this
      beta_reduce; rw [← this]; simp
    · rename_i hs
      obtain ⟨r1, r2⟩ := p3 e' h
      refine ⟨⟨r1.1, fun x hx => ?_⟩, r2⟩
      rw [r1.2 x hx]; beta_reduce; rw [← p2 x hx, hs]; simp
    · simp at h; subst h
      refine ⟨⟨Adm.prod _ p1, fun x hx => ?_⟩, goodP_of_not_poly (by simp)⟩
      beta_reduce
      rw [eval_prod, p2 x hx]

/-- A nonzero constant polynomial is already simplified. -/
theorem simplify_const {fuel : Nat} {c : F} (hc : c ≠ 0) {e : Expr n F}
    (h : simplify fuel (const c : Expr n F) = some e) : e = const c := by
  cases fuel with
  | zero => simp [simplify] at h
  | succ fuel =>
  simp only [simplify, const] at h
  obtain ⟨ts', h1, h2⟩ := Option.bind_eq_some_iff.1 h
  simp at h2; subst h2
  cases fuel with
  | zero => simp [simplifyTerms] at h1
  | succ fuel =>
  simp only [simplifyTerms] at h1
  have hs : sortTerms [((fun _ => 0 : Expo n), (Expr.num c : Expr n F))] = [((fun _ => 0), .num c)] := by
    exact List.perm_singleton.1 (sortTerms_perm _)
  rw [hs] at h1
  simp [isNum] at h1
  subst h1
  simp [mergeSorted, isNumZero, hc, const]

/-- Simplification of the inverse of a nonzero polynomial. -/
theorem simplify_inv {fuel : Nat} {ts : Terms n F} {r : Expr n F} (hA : Adm (Mode.free φ) φ U (.poly ts))
    (h1 : (-1 : F) ≠ 0) (h0 : ∀ x ∈ U, eval φ x (.poly ts) ≠ 0)
    (h : simplify fuel (.pow (.poly ts) (const (-1))) = some r) :
    Res (Mode.free φ) φ U r (fun x => (eval φ x (.poly ts))⁻¹) := by
  cases fuel with
  | zero => simp [simplify] at h
  | succ fuel =>
  simp only [simplify] at h
  obtain ⟨b', hb, h⟩ := Option.bind_eq_some_iff.1 h
  have rb := (simplify_ok (M := (Mode.free φ)) (φ := φ) (U := U) fuel).simp _ _ hA hb
  have hform : ∃ ts', b' = .poly ts' := by
    cases fuel with
    | zero => simp [simplify] at hb
    | succ fuel =>
      simp only [simplify] at hb
      obtain ⟨ts', _, h2⟩ := Option.bind_eq_some_iff.1 hb
      simp at h2; exact ⟨ts', h2.symm⟩
  obtain ⟨ts', rfl⟩ := hform
  simp only at h
  have hval : ∀ x ∈ U, eval φ x (.poly ts') = eval φ x (.poly ts) := rb.1.2
  -- replace the exponent polynomial by the number
  have h' : simplify fuel (.epoly ts' (.num (-1))) = some r := by
    cases fuel with
    | zero => simp [simplify] at h
    | succ fuel =>
      simp only [simplify] at h ⊢
      obtain ⟨e1, he1, h⟩ := Option.bind_eq_some_iff.1 h
      have : e1 = .num (-1) := by
        rw [if_neg (by simp [const, isNum])] at he1
        obtain ⟨s, hs, rfl⟩ := Option.map_eq_some_iff.1 he1
        rw [simplify_const h1 hs]
        simp [const, unwrapExponent, allExposZero]
      subst this
      simpa [isNum] using h
  have hadm : Adm (Mode.free φ) φ U (.epoly ts' (.num (-1))) := by
    refine Adm.epoly _ _ rb.1.1 (Adm.num _) (Flat.num _) (Or.inl (rb.2 _ rfl)) (Or.inr ⟨-1, -1, rfl, by simp, ?_⟩)
    intro x hx; rw [hval x hx]; exact h0 x hx
  obtain ⟨⟨q1, q2⟩, q3⟩ := (simplify_ok (M := (Mode.free φ)) (φ := φ) (U := U) fuel).simp _ _ hadm h'
  refine ⟨⟨q1, fun x hx => ?_⟩, q3⟩
  rw [q2 x hx]
  beta_reduce
  rw [eval_epoly, hval x hx, eval_num]
  simp [Complex.cpow_neg_one]

/-- The last factor of a pole term without additional pole. -/
theorem simplify_last {fuel : Nat} {ts : Terms n F} {d r : Expr n F} (hd : Adm (Mode.free φ) φ U d)
    (hA : Adm (Mode.free φ) φ U (.poly ts)) (h1 : (-1 : F) ≠ 0) (h0 : ∀ x ∈ U, eval φ x (.poly ts) ≠ 0)
    (h : simplify fuel (.prod [d, .pow (.poly ts) (const (-1))]) = some r) :
    Res (Mode.free φ) φ U r (fun x => eval φ x d * (eval φ x (.poly ts))⁻¹) := by
  cases fuel with
  | zero => simp [simplify] at h
  | succ fuel =>
  simp only [simplify] at h
  cases fuel with
  | zero => simp [prodLoop] at h
  | succ fuel =>
  simp only [prodLoop] at h
  obtain ⟨l', hm, h⟩ := Option.bind_eq_some_iff.1 h
  simp only [List.mapM_cons, List.mapM_nil] at hm
  obtain ⟨d', hd', hm⟩ := Option.bind_eq_some_iff.1 hm
  obtain ⟨l2, hm2, hm⟩ := Option.bind_eq_some_iff.1 hm
  obtain ⟨r', hr', hm2⟩ := Option.bind_eq_some_iff.1 hm2
  simp at hm hm2
  subst hm2
  subst hm
  have e1 := (simplify_ok (M := (Mode.free φ)) (φ := φ) (U := U) fuel).simp _ _ hd hd'
  have e2 := simplify_inv hA h1 h0 hr'
  have := prodLoop_tail (M := (Mode.free φ)) (φ := φ) (U := U) (l' := [d', r']) (by
    intro e he
    simp at he
    rcases he with rfl | rfl
    · exact ⟨e1.1.1, e1.2⟩
    · exact ⟨e2.1.1, e2.2⟩) h
  refine ⟨⟨this.1.1, fun x hx => ?_⟩, this.2⟩
  rw [this.1.2 x hx]
  simp only [List.map_cons, List.map_nil, List.prod_cons, List.prod_nil, mul_one]
  rw [e1.1.2 x hx, e2.1.2 x hx]

end adm

/-! ### Polynomials with coefficients in `F` as functions -/
section poly
variable {n : Nat} {F : Type} [Field F] [DecidableEq F] {φ : F →+* ℂ}

/-- The value of a polynomial. -/
noncomputable def pev (φ : F →+* ℂ) (x : Fin n → ℂ) (p : Poly n F) : ℂ :=
  (p.terms.map (fun t => φ t.2 * Poly.mono x t.1)).sum

theorem eval_ofPoly (x : Fin n → ℂ) (p : Poly n F) :
    Expr.eval φ x (.poly (p.terms.map (fun t => (t.1, .num t.2)))) = pev φ x p := by
  rw [eval_poly, List.map_map, pev]
  congr 1
  refine List.map_congr_left fun t _ => ?_
  simp [eval_num]

noncomputable def pevHom (φ : F →+* ℂ) (x : Fin n → ℂ) (e : Expo n) : F →+ ℂ :=
  (AddMonoidHom.mulRight (Poly.mono x e)).comp (φ : F →+ ℂ)

theorem pev_eq (x : Fin n → ℂ) (p : Poly n F) : pev φ x p = Poly.lsum (pevHom φ x) p.terms := rfl

theorem pev_simplify (x : Fin n → ℂ) (p : Poly n F) : pev φ x p.simplify = pev φ x p := by
  rw [pev_eq, pev_eq, Poly.lsum_simplify]

theorem mono_zero' (x : Fin n → ℂ) : Poly.mono x (fun _ => 0) = 1 := by simp [Poly.mono]

theorem pev_addScalar (x : Fin n → ℂ) (p : Poly n F) (c : F) : pev φ x (p.addScalar c) = pev φ x p + φ c := by
  rw [Poly.addScalar, Poly.subOrAddScalar, pev_simplify]
  simp [pev, mono_zero', add_comm]

theorem pev_add (x : Fin n → ℂ) (p q : Poly n F) : pev φ x (p.add q) = pev φ x p + pev φ x q := by
  rw [Poly.add, Poly.subOrAdd, pev_simplify]
  simp [pev]

theorem pev_zero (x : Fin n → ℂ) : pev φ x (Poly.zeroPoly : Poly n F) = 0 := by simp [pev, Poly.zeroPoly]

theorem pev_mulScalar (x : Fin n → ℂ) (p : Poly n F) (c : F) : pev φ x (p.mulScalar c) = pev φ x p * φ c := by
  unfold Poly.mulScalar
  split
  · rename_i h; simp [h]
  · split
    · rename_i h; simp [h, pev_zero]
    · simp only [pev, List.map_map]
      rw [← List.sum_map_mul_right]
      congr 1
      refine List.map_congr_left fun t _ => ?_
      simp; ring

/-- No negative powers. -/
def NonNeg (p : Poly n F) : Prop := ∀ t ∈ p.terms, ∀ i, 0 ≤ t.1 i

theorem mono_add' (x : Fin n → ℂ) {a b : Expo n} (ha : ∀ i, 0 ≤ a i) (hb : ∀ i, 0 ≤ b i) :
    Poly.mono x (a + b) = Poly.mono x a * Poly.mono x b := by
  unfold Poly.mono
  rw [← Finset.prod_mul_distrib]
  refine Finset.prod_congr rfl fun i _ => ?_
  obtain ⟨k, hk⟩ := Int.eq_ofNat_of_zero_le (ha i)
  obtain ⟨l, hl⟩ := Int.eq_ofNat_of_zero_le (hb i)
  rw [Pi.add_apply, hk, hl, ← Nat.cast_add]
  simp only [zpow_natCast, pow_add]

theorem pev_mul (x : Fin n → ℂ) {p q : Poly n F} (hp : NonNeg p) (hq : NonNeg q) :
    pev φ x (p.mul q) = pev φ x p * pev φ x q := by
  rw [Poly.mul, pev_simplify]
  unfold pev NonNeg at *
  generalize p.terms = l at hp
  induction l with
  | nil => simp
  | cons s l ih =>
    simp only [List.flatMap_cons, List.map_append, List.sum_append, List.map_cons, List.sum_cons, add_mul]
    rw [ih (fun t ht => hp t (by simp [ht]))]
    congr 1
    rw [List.map_map, ← List.sum_map_mul_left]
    congr 1
    refine List.map_congr_left fun t ht => ?_
    simp only [Function.comp]
    rw [mono_add' x (hq t ht) (hp s (by simp)), map_mul]; ring

end poly
end SecDec.Subtraction
