import Verif.Proof.SubMain
set_option linter.unusedSectionVars false
namespace SecDec.Subtraction
open Expr Set Decomp MeasureTheory

variable {N R : Nat} {F : Type} [Field F] [DecidableEq F] {φ : F →+* ℂ} {ε : Fin R → ℂ}

/-! ### The test for unregulated exponents -/

theorem coeffOf_addScalar {n : Nat} (p : Poly n F) (c : F) (e : Expo n) :
    (p.addScalar c).coeffOf e = p.coeffOf e + if e = (fun _ => 0) then c else 0 := by
  rw [Poly.addScalar, Poly.subOrAddScalar, Poly.coeffOf_simplify]
  unfold Poly.coeffOf
  simp only [List.filter_cons]
  by_cases h : e = fun _ => 0
  · subst h
    simp [add_comm]
  · have h' : ¬ ((0 : Expo n) = e) := fun h' => h (h' ▸ rfl)
    have h'' : ¬ ((fun _ => 0 : Expo n) = e) := fun h' => h h'.symm
    simp [h, h', h'']

theorem coeffOf_subScalar {n : Nat} (p : Poly n F) (c : F) (e : Expo n) :
    (p.subScalar c).coeffOf e = p.coeffOf e - if e = (fun _ => 0) then c else 0 := by
  rw [Poly.subScalar, Poly.subOrAddScalar, Poly.coeffOf_simplify]
  unfold Poly.coeffOf
  simp only [List.filter_cons]
  by_cases h : e = fun _ => 0
  · subst h
    simp [sub_eq_add_neg, add_comm]
  · have h' : ¬ ((0 : Expo n) = e) := fun h' => h (h' ▸ rfl)
    have h'' : ¬ ((fun _ => 0 : Expo n) = e) := fun h' => h h'.symm
    simp [h, h', h'']

theorem coeffOf_add {n : Nat} (p q : Poly n F) (e : Expo n) :
    (p.add q).coeffOf e = p.coeffOf e + q.coeffOf e := by
  rw [Poly.add, Poly.subOrAdd, Poly.coeffOf_simplify]
  unfold Poly.coeffOf
  simp

theorem coeffOf_zeroPoly {n : Nat} (e : Expo n) : (Poly.zeroPoly : Poly n F).coeffOf e = 0 := by
  unfold Poly.coeffOf Poly.zeroPoly
  simp only [List.filter_cons]
  split <;> simp

theorem coeffOf_mulScalar {n : Nat} (p : Poly n F) (c : F) (e : Expo n) :
    (p.mulScalar c).coeffOf e = p.coeffOf e * c := by
  unfold Poly.mulScalar
  split
  · rename_i h; simp [h]
  · split
    · rename_i h; simp [h, coeffOf_zeroPoly]
    · unfold Poly.coeffOf
      generalize p.terms = l
      induction l with
      | nil => simp
      | cons t l ih =>
        simp only [List.map_cons, List.filter_cons]
        by_cases h : t.1 = e
        · simp only [h, decide_true, if_true, List.map_cons, List.sum_cons, add_mul]
          rw [ih]
        · simp only [h, decide_false]
          simpa using ih

theorem coeffOf_fullExponent (j : Fin N) (P : PolyProd (N + R) F) (e : Expo (N + R)) :
    (fullExponent (Fin.castAdd R j) P.monos).coeffOf e = powerCoeff P j e := by
  unfold powerCoeff
  cases P.monos with
  | nil => simp [fullExponent, coeffOf_zeroPoly]
  | cons m ms =>
    have key : ∀ (l : List (Monomial (N + R) F)) (acc : Poly (N + R) F),
        (l.foldl (fun acc m => acc.add (m.exponent.mulScalar ((m.expo (Fin.castAdd R j) : Int) : F))) acc).coeffOf e
        = acc.coeffOf e + (l.map (fun m => m.exponent.coeffOf e * ((m.expo (Fin.castAdd R j) : Int) : F))).sum := by
      intro l
      induction l with
      | nil => intro acc; simp
      | cons m l ih =>
        intro acc
        simp only [List.foldl_cons, List.map_cons, List.sum_cons]
        rw [ih, coeffOf_add, coeffOf_mulScalar]; ring
    rw [fullExponent, key, coeffOf_addScalar, coeffOf_mulScalar]
    simp

theorem ect_eq_powerCoeff (j : Fin N) (P : PolyProd (N + R) F) :
    ect (Fin.castAdd R j) P.monos = powerCoeff P j (fun _ => 0) := by
  rw [ect_eq_sum]; rfl

/-- All coefficients of a simplified polynomial are zero iff it is the zero polynomial. -/
theorem all_zero_iff {n : Nat} (p : Poly n F) :
    (p.simplify.terms.all (fun t => decide (t.2 = 0)) = true) ↔ ∀ e, p.coeffOf e = 0 := by
  constructor
  · intro h e
    rw [← Poly.coeffOf_simplify]
    unfold Poly.coeffOf
    apply List.sum_eq_zero
    intro z hz
    obtain ⟨t, ht, rfl⟩ := List.mem_map.1 hz
    have := List.all_eq_true.1 h t (List.mem_filter.1 ht).1
    simpa using this
  · intro h
    have h0 : p.simplify = (Poly.zeroPoly : Poly n F).simplify :=
      Poly.simplify_canonical p Poly.zeroPoly (fun e => by rw [h e, coeffOf_zeroPoly])
    rw [h0, List.all_eq_true]
    intro t ht
    by_contra hc
    have hnz : t.2 ≠ 0 := by simpa using hc
    rw [Poly.simplify_nz] at ht
    have hmem : t ∈ (Poly.zeroPoly : Poly n F).nzTerms := by
      split at ht
      · simp [Poly.zeroPoly] at ht
        subst ht
        exact absurd rfl hnz
      · exact ht
    have h1 := Poly.coeffOf_of_mem (Poly.nz_sorted (Poly.zeroPoly : Poly n F)) hmem
    have h2 : Poly.lsum (Poly.coeffHom t.1) (Poly.zeroPoly : Poly n F).nzTerms = 0 := by
      rw [Poly.lsum_nz, ← Poly.coeffOf_eq, coeffOf_zeroPoly]
    exact hnz (h1.symm.trans h2)

theorem noRegulator_iff (j : Fin N) (P : PolyProd (N + R) F) :
    noRegulator (fullExponent (Fin.castAdd R j) P.monos) (ect (Fin.castAdd R j) P.monos) = true ↔ Unregulated P j := by
  unfold noRegulator
  have hs : (fullExponent (Fin.castAdd R j) P.monos).subScalar (ect (Fin.castAdd R j) P.monos)
      = (Poly.mk (((fun _ => 0), - ect (Fin.castAdd R j) P.monos) ::
          (fullExponent (Fin.castAdd R j) P.monos).terms)).simplify := by
    simp [Poly.subScalar, Poly.subOrAddScalar]
  have hc : ∀ e, (Poly.mk (((fun _ => 0), - ect (Fin.castAdd R j) P.monos) ::
          (fullExponent (Fin.castAdd R j) P.monos).terms)).coeffOf e
      = powerCoeff P j e - if e = (fun _ => 0) then ect (Fin.castAdd R j) P.monos else 0 := by
    intro e
    rw [← Poly.coeffOf_simplify, ← hs, coeffOf_subScalar, coeffOf_fullExponent]
  rw [hs, all_zero_iff]
  unfold Unregulated
  constructor
  · intro h e he
    have := h e
    rw [hc, if_neg he, sub_zero] at this
    exact this
  · intro h e
    rw [hc]
    by_cases he : e = fun _ => 0
    · subst he
      rw [if_pos rfl, ect_eq_powerCoeff, sub_self]
    · rw [if_neg he, h e he, sub_zero]

/-! ### The form of the terms, without analysis -/

/-- Relation of a term to the original product. -/
structure Form (φ : F →+* ℂ) (P : PolyProd (N + R) F) (S : Finset (Fin N)) (k : Fin N → ℕ)
    (Q : PolyProd (N + R) F) : Prop where
  wm : ∀ m ∈ Q.monos, WM φ m
  base : RegulatorPoly Q.regBase
  exp : Q.regExp = P.regExp
  col : ∀ i : Fin N, (∀ m ∈ Q.monos, m.expo (Fin.castAdd R i) = 0) ∨ (i ∉ S ∧
    Q.monos.map (fun m => (m.exponent, m.expo (Fin.castAdd R i))) =
      P.monos.map (fun m => (m.exponent, m.expo (Fin.castAdd R i))))
  pole : ∀ j ∈ S, ect (Fin.castAdd R j) P.monos + (k j : F) + 1 = 0
  den : ∀ ε : Fin R → ℂ, pev φ (rpt N ε) Q.regBase
    = pev φ (rpt N ε) P.regBase * ∏ j ∈ S, (pw φ ε P.monos j + k j + 1) * ((k j).factorial : ℂ)

theorem ect_congr {ms ms' : List (Monomial (N + R) F)} {i : Fin N}
    (h : ms.map (fun m => (m.exponent, m.expo (Fin.castAdd R i))) = ms'.map (fun m => (m.exponent, m.expo (Fin.castAdd R i)))) :
    ect (Fin.castAdd R i) ms = ect (Fin.castAdd R i) ms' := by
  have key : ∀ ms : List (Monomial (N + R) F), ect (Fin.castAdd R i) ms =
      ((ms.map (fun m => (m.exponent, m.expo (Fin.castAdd R i)))).map (fun z => zeroRowSum z.1 * ((z.2 : Int) : F))).sum := by
    intro ms
    rw [ect_eq_sum, List.map_map]; rfl
  rw [key, key, h]

theorem pw_congr {ms ms' : List (Monomial (N + R) F)} {i : Fin N}
    (h : ms.map (fun m => (m.exponent, m.expo (Fin.castAdd R i))) = ms'.map (fun m => (m.exponent, m.expo (Fin.castAdd R i))))
    (ε : Fin R → ℂ) : pw φ ε ms i = pw φ ε ms' i := by
  have key : ∀ ms : List (Monomial (N + R) F), pw φ ε ms i =
      ((ms.map (fun m => (m.exponent, m.expo (Fin.castAdd R i)))).map (fun z => pev φ (rpt N ε) z.1 * ((z.2 : Int) : ℂ))).sum := by
    intro ms
    unfold pw
    rw [List.map_map]; rfl
  rw [key, key, h]

theorem Unregulated_congr {P Q : PolyProd (N + R) F} {i : Fin N}
    (h : Q.monos.map (fun m => (m.exponent, m.expo (Fin.castAdd R i))) = P.monos.map (fun m => (m.exponent, m.expo (Fin.castAdd R i)))) :
    Unregulated Q i ↔ Unregulated P i := by
  have key : ∀ (P : PolyProd (N + R) F) e, powerCoeff P i e =
      ((P.monos.map (fun m => (m.exponent, m.expo (Fin.castAdd R i)))).map (fun z => z.1.coeffOf e * ((z.2 : Int) : F))).sum := by
    intro P e
    unfold powerCoeff
    rw [List.map_map]; rfl
  unfold Unregulated
  simp only [key, h]

/-- A term of the pole part, structurally. -/
structure PoleForm (P : PolyProd (N + R) F) (j : Fin N) (p : ℕ) (Q : PolyProd (N + R) F) : Prop where
  monos : Q.monos = P.monos.map (Monomial.setOne (Fin.castAdd R j))
  exp : Q.regExp = P.regExp
  base : Q.regBase = P.regBase ∨ (ect (Fin.castAdd R j) P.monos + (p : F) + 1 = 0 ∧
    Q.regBase = P.regBase.mul (((fullExponent (Fin.castAdd R j) P.monos).addScalar ((p : F) + 1)).mulScalar ((p.factorial : ℕ) : F)))

theorem poleTerm_form {P : PolyProd (N + R) F} {j : Fin N} {p fuel : ℕ} {dp0 : Expr (N + R) F} {Q : PolyProd (N + R) F}
    (h : poleTerm fuel P (Fin.castAdd R j) (fullExponent (Fin.castAdd R j) P.monos) (ect (Fin.castAdd R j) P.monos) p
      ((p.factorial : ℕ) : F) dp0 = .ok Q) : PoleForm P j p Q := by
  unfold poleTerm at h
  simp only at h
  split at h
  · rename_i h0
    simp at h
    subst h
    exact ⟨rfl, rfl, Or.inr ⟨h0, rfl⟩⟩
  · obtain ⟨s, _, h⟩ := bind_ok h
    simp at h
    subst h
    exact ⟨rfl, rfl, Or.inl rfl⟩

theorem poleLoop_form {P : PolyProd (N + R) F} {j : Fin N} {fuel : ℕ} :
    ∀ (count p : ℕ) (pf : F) (d : Expr (N + R) F) (r : List (PolyProd (N + R) F) × List (Expr (N + R) F)),
      (p = 0 ∨ pf = ((p - 1).factorial : F)) →
      poleLoop fuel P (Fin.castAdd R j) (fullExponent (Fin.castAdd R j) P.monos) (ect (Fin.castAdd R j) P.monos)
        count p pf d = .ok r → ∀ Q ∈ r.1, ∃ p, PoleForm P j p Q := by
  intro count
  induction count with
  | zero => intro p pf d r _ h; simp [poleLoop] at h; subst h; simp
  | succ count ih =>
    intro p pf d r hp h
    simp only [poleLoop] at h
    have hpf : (if p = 0 then (1 : F) else pf * (p : F)) = ((p.factorial : ℕ) : F) := by
      by_cases h0 : p = 0
      · simp [h0]
      · rw [if_neg h0, (hp.resolve_left h0)]
        obtain ⟨q, rfl⟩ := Nat.exists_eq_succ_of_ne_zero h0
        simp [Nat.factorial_succ, mul_comm]
    obtain ⟨d', _, h⟩ := bind_ok h
    obtain ⟨dp0, _, h⟩ := bind_ok h
    obtain ⟨term, ht, h⟩ := bind_ok h
    obtain ⟨rest, hr, h⟩ := bind_ok h
    simp at h
    subst h
    rw [hpf] at ht
    intro Q hQ
    simp only [List.mem_cons] at hQ
    rcases hQ with rfl | hQ
    · exact ⟨p, poleTerm_form ht⟩
    · exact ih (p + 1) _ d' rest (Or.inr (by rw [hpf]; simp)) hr Q hQ

theorem poleSingle_form {P : PolyProd (N + R) F} {j : Fin N} {fuel : ℕ} {val : F → Option ℚ}
    {outs : List (PolyProd (N + R) F)} (h : poleSingle fuel val P (Fin.castAdd R j) = .ok outs) :
    ∃ q, val (ect (Fin.castAdd R j) P.monos) = some q ∧ ¬ (q < 0 ∧ Unregulated P j) ∧
      (∃ Q ∈ outs, Q.monos = P.monos) ∧
      ∀ Q ∈ outs, (Q.monos = P.monos ∧ Q.regExp = P.regExp ∧ Q.regBase = P.regBase) ∨ (q < 0 ∧ ∃ p, PoleForm P j p Q) := by
  unfold poleSingle at h
  simp only at h
  cases hv : val (ect (Fin.castAdd R j) P.monos) with
  | none => simp [hv] at h
  | some q =>
    simp only [hv] at h
    refine ⟨q, rfl, ?_⟩
    split at h
    · simp at h
    · rename_i hc
      rw [noRegulator_iff] at hc
      refine ⟨hc, ?_⟩
      split at h
      · simp at h; subst h
        refine ⟨⟨P, by simp, rfl⟩, ?_⟩
        intro Q hQ; simp at hQ; subst hQ; exact Or.inl ⟨rfl, rfl, rfl⟩
      · rename_i hq
        obtain ⟨r, hr, h⟩ := bind_ok h
        obtain ⟨s, hs, h⟩ := bind_ok h
        simp at h
        subst h
        refine ⟨⟨{ P with calI := [s] }, by simp, rfl⟩, ?_⟩
        intro Q hQ
        rcases List.mem_append.1 hQ with hQ | hQ
        · exact Or.inr ⟨not_le.1 hq, poleLoop_form _ _ _ _ r (Or.inl rfl) hr Q hQ⟩
        · simp at hQ; subst hQ; exact Or.inl ⟨rfl, rfl, rfl⟩

theorem lift_error {α : Type} (o : Option α) (e : Err) (h : lift o = .error e) : e = .outOfFuel := by
  cases o <;> simp [lift] at h
  exact h.symm

theorem poleLoop_error {n : ℕ} {P : PolyProd n F} {j : Fin n} {fuel : ℕ} {full : Poly n F} {a : F} :
    ∀ (count p : ℕ) (pf : F) (d : Expr n F) (e : Err),
      poleLoop fuel P j full a count p pf d = .error e → e = .outOfFuel := by
  intro count
  induction count with
  | zero => intro p pf d e h; simp [poleLoop] at h
  | succ count ih =>
    intro p pf d e h
    simp only [poleLoop] at h
    cases h1 : lift (if p = 0 then some d else Expr.derive fuel d j) with
    | error e1 => rw [h1] at h; simp [Bind.bind, Except.bind] at h; subst h; exact lift_error _ _ h1
    | ok d' =>
      rw [h1] at h
      simp only [Bind.bind, Except.bind] at h
      cases h2 : lift (Expr.replace 0 (fun _ => 0) j fuel d') with
      | error e1 => rw [h2] at h; simp at h; subst h; exact lift_error _ _ h2
      | ok dp0 =>
        rw [h2] at h
        simp only at h
        cases h3 : poleTerm fuel P j full a p (if p = 0 then 1 else pf * (p : F)) dp0 with
        | error e1 =>
          rw [h3] at h; simp at h; subst h
          unfold poleTerm at h3
          simp only at h3
          split at h3
          · simp at h3
          · simp only [Bind.bind, Except.bind] at h3
            split at h3
            · rename_i h4; simp at h3; subst h3; exact lift_error _ _ h4
            · simp at h3
        | ok t =>
          rw [h3] at h
          simp only at h
          cases h4 : poleLoop fuel P j full a count (p + 1) (if p = 0 then 1 else pf * (p : F)) d' with
          | error e1 => rw [h4] at h; simp at h; subst h; exact ih _ _ _ _ h4
          | ok r => rw [h4] at h; simp at h

/-- The errors of `_integrate_pole_part_single_index`. -/
theorem poleSingle_error {P : PolyProd (N + R) F} {j : Fin N} {fuel : ℕ} {val : F → Option ℚ} (e : Err)
    (h : poleSingle fuel val P (Fin.castAdd R j) = .error e) :
    (e = .typeError ∧ val (ect (Fin.castAdd R j) P.monos) = none) ∨
    (e = .oneOverZero ∧ ∃ q < 0, val (ect (Fin.castAdd R j) P.monos) = some q ∧ Unregulated P j) ∨ e = .outOfFuel := by
  unfold poleSingle at h
  simp only at h
  cases hv : val (ect (Fin.castAdd R j) P.monos) with
  | none => simp [hv] at h; exact Or.inl ⟨h.symm, rfl⟩
  | some q =>
    simp only [hv] at h
    split at h
    · rename_i hc
      rw [noRegulator_iff] at hc
      simp at h
      exact Or.inr (Or.inl ⟨h.symm, q, hc.1, rfl, hc.2⟩)
    · split at h
      · simp at h
      · right; right
        simp only [Bind.bind, Except.bind] at h
        split at h
        · rename_i h1; simp at h; subst h; exact poleLoop_error _ _ _ _ _ h1
        · split at h
          · rename_i h1
            simp at h; subst h
            exact lift_error _ _ h1
          · simp at h

theorem Form.poleSingle {P Q : PolyProd (N + R) F} {S : Finset (Fin N)} {k : Fin N → ℕ} (h : Form φ P S k Q)
    {val : F → Option ℚ} (hv0 : val 0 = some 0) {fuel : ℕ} {j : Fin N} {outs : List (PolyProd (N + R) F)}
    (ho : poleSingle fuel val Q (Fin.castAdd R j) = .ok outs) :
    ∀ T ∈ outs, ∃ S' k', (S' = S ∨ S' = insert j S) ∧ Form φ P S' k' T := by
  intro T hT
  obtain ⟨q, hq, _, _, h2⟩ := poleSingle_form ho
  rcases h2 T hT with ⟨t1, t2, t3⟩ | ⟨hneg, p, hp⟩
  · exact ⟨S, k, Or.inl rfl, by rw [t1]; exact h.wm, by rw [t3]; exact h.base, by rw [t2]; exact h.exp,
      by rw [t1]; exact h.col, h.pole, by rw [t3]; exact h.den⟩
  · have hcolj : j ∉ S ∧ Q.monos.map (fun m => (m.exponent, m.expo (Fin.castAdd R j))) =
        P.monos.map (fun m => (m.exponent, m.expo (Fin.castAdd R j))) := by
      rcases h.col j with h0 | h0
      · exfalso
        rw [ect_zero h0, hv0] at hq
        simp at hq
        rw [← hq] at hneg
        exact lt_irrefl _ hneg
      · exact h0
    have hwm : ∀ m ∈ T.monos, WM φ m := by
      rw [hp.monos]
      intro m hm
      obtain ⟨m', hm', rfl⟩ := List.mem_map.1 hm
      have := h.wm m' hm'
      rw [setOne_eq this]
      refine ⟨this.coeff, fun i => ?_, this.exponent⟩
      have hne : Fin.natAdd N i ≠ Fin.castAdd R j := by
        intro hh
        have := congrArg Fin.val hh
        simp at this; omega
      show Function.update m'.expo (Fin.castAdd R j) 0 (Fin.natAdd N i) = 0
      rw [Function.update_of_ne hne]
      exact this.monomial i
    have hcol : ∀ i : Fin N, (∀ m ∈ T.monos, m.expo (Fin.castAdd R i) = 0) ∨ (i ∉ insert j S ∧
        T.monos.map (fun m => (m.exponent, m.expo (Fin.castAdd R i))) =
          P.monos.map (fun m => (m.exponent, m.expo (Fin.castAdd R i)))) := by
      intro i
      rw [hp.monos]
      by_cases hij : i = j
      · left
        subst hij
        intro m hm
        obtain ⟨m', hm', rfl⟩ := List.mem_map.1 hm
        simp [setOne_eq (h.wm m' hm')]
      · have hmap : (Q.monos.map (Monomial.setOne (Fin.castAdd R j))).map (fun m => (m.exponent, m.expo (Fin.castAdd R i)))
            = Q.monos.map (fun m => (m.exponent, m.expo (Fin.castAdd R i))) := by
          rw [List.map_map]
          refine List.map_congr_left fun m hm => ?_
          simp only [Function.comp, setOne_eq (h.wm m hm), Function.update_of_ne (castAdd_ne (R := R) hij)]
        rcases h.col i with h0 | ⟨h0, h1⟩
        · left
          intro m hm
          obtain ⟨m', hm', rfl⟩ := List.mem_map.1 hm
          simp only [setOne_eq (h.wm m' hm'), Function.update_of_ne (castAdd_ne (R := R) hij)]
          exact h0 m' hm'
        · exact Or.inr ⟨by simp [hij, h0], by rw [hmap, h1]⟩
    rcases hp.base with hb | ⟨hb0, hb⟩
    · refine ⟨S, k, Or.inl rfl, hwm, by rw [hb]; exact h.base, by rw [hp.exp]; exact h.exp, fun i => ?_, h.pole,
        by rw [hb]; exact h.den⟩
      rcases hcol i with h0 | ⟨h0, h1⟩
      · exact Or.inl h0
      · exact Or.inr ⟨fun hi => h0 (by simp [hi]), h1⟩
    · obtain ⟨f1, f2⟩ := fullExponent_spec (φ := φ) h.wm j
      refine ⟨insert j S, Function.update k j p, Or.inr rfl, hwm, ?_, by rw [hp.exp]; exact h.exp, hcol, ?_, ?_⟩
      · rw [hb]; exact h.base.mul ((f1.addScalar _).mulScalar _)
      · intro i hi
        by_cases hij : i = j
        · subst hij
          rw [Function.update_self, ← ect_congr hcolj.2]; exact hb0
        · rw [Function.update_of_ne hij]
          exact h.pole i ((Finset.mem_insert.1 hi).resolve_left hij)
      · intro ε
        rw [hb, pev_mul _ h.base.nonneg ((f1.addScalar _).mulScalar _).nonneg, pev_mulScalar, pev_addScalar, f2,
          h.den, Finset.prod_insert hcolj.1, Function.update_self, pw_congr hcolj.2]
        have : ∏ i ∈ S, (pw φ ε P.monos i + (Function.update k j p i : ℕ) + 1) * ((Function.update k j p i).factorial : ℂ)
            = ∏ i ∈ S, (pw φ ε P.monos i + k i + 1) * ((k i).factorial : ℂ) := by
          refine Finset.prod_congr rfl fun i hi => ?_
          have hne : i ≠ j := fun hh => hcolj.1 (by rw [← hh]; exact hi)
          rw [Function.update_of_ne hne]
        rw [this]
        simp only [map_add, map_natCast, map_one]
        ring

theorem poleLoopIdx_form {P : PolyProd (N + R) F} {val : F → Option ℚ} (hv0 : val 0 = some 0) {fuel : ℕ} (js : List (Fin N)) :
    ∀ (T0 : Finset (Fin N)) (l outs : List (PolyProd (N + R) F)), (∀ Q ∈ l, ∃ S k, S ⊆ T0 ∧ Form φ P S k Q) →
      poleLoopIdx fuel val (js.map (Fin.castAdd R)) l = .ok outs →
      ∀ Q ∈ outs, ∃ S k, S ⊆ T0 ∪ js.toFinset ∧ Form φ P S k Q := by
  induction js with
  | nil => intro T0 l outs hl h; simp [poleLoopIdx] at h; subst h; simpa using hl
  | cons j js ih =>
    intro T0 l outs hl h
    simp only [List.map_cons, poleLoopIdx] at h
    obtain ⟨l', hl', h⟩ := bind_ok h
    have h1 := extendAll_all (p := fun Q => ∃ S k, S ⊆ T0 ∧ Form φ P S k Q)
      (r := fun Q => ∃ S k, S ⊆ insert j T0 ∧ Form φ P S k Q) (fun Q outs hQ ho T hT => by
        obtain ⟨S, k, hS, hF⟩ := hQ
        obtain ⟨S', k', hS', hF'⟩ := hF.poleSingle hv0 ho T hT
        refine ⟨S', k', ?_, hF'⟩
        rcases hS' with rfl | rfl
        · exact hS.trans (Finset.subset_insert _ _)
        · exact Finset.insert_subset_insert _ hS) l l' hl hl'
    intro Q hQ
    obtain ⟨S, k, hS, hF⟩ := ih (insert j T0) l' outs h1 h Q hQ
    refine ⟨S, k, hS.trans ?_, hF⟩
    intro i hi
    simp only [Finset.mem_union, Finset.mem_insert, List.mem_toFinset, List.mem_cons] at hi ⊢
    tauto

/-! ### Errors of the loop over the indices -/

theorem extendAll_error {f : PolyProd (N + R) F → Except Err (List (PolyProd (N + R) F))} :
    ∀ (l : List (PolyProd (N + R) F)) (e : Err), extendAll f l = .error e → ∃ P ∈ l, f P = .error e := by
  intro l
  induction l with
  | nil => intro e h; simp [extendAll] at h
  | cons P l ih =>
    intro e h
    simp only [extendAll, Bind.bind, Except.bind] at h
    cases h1 : f P with
    | error e1 => rw [h1] at h; simp at h; subst h; exact ⟨P, by simp, h1⟩
    | ok a =>
      rw [h1] at h
      simp only at h
      cases h2 : extendAll f l with
      | error e1 =>
        rw [h2] at h; simp at h; subst h
        obtain ⟨Q, hQ, h3⟩ := ih _ h2
        exact ⟨Q, by simp [hQ], h3⟩
      | ok b => rw [h2] at h; simp at h

theorem extendAll_mem {f : PolyProd (N + R) F → Except Err (List (PolyProd (N + R) F))} :
    ∀ (l outs : List (PolyProd (N + R) F)), extendAll f l = .ok outs → ∀ P ∈ l, ∃ o, f P = .ok o ∧ ∀ Q ∈ o, Q ∈ outs := by
  intro l
  induction l with
  | nil => intro outs _ P hP; simp at hP
  | cons P l ih =>
    intro outs h
    simp only [extendAll] at h
    obtain ⟨a, ha, h⟩ := bind_ok h
    obtain ⟨b, hb, h⟩ := bind_ok h
    simp at h; subst h
    intro Q hQ
    rcases List.mem_cons.1 hQ with rfl | hQ
    · exact ⟨a, ha, fun T hT => by simp [hT]⟩
    · obtain ⟨o, ho, h'⟩ := ih b hb Q hQ
      exact ⟨o, ho, fun T hT => by simp [h' T hT]⟩

/-- The loop fails only because of one of the indices. -/
theorem poleLoopIdx_error {P : PolyProd (N + R) F} {val : F → Option ℚ} (hv0 : val 0 = some 0) {fuel : ℕ} (js : List (Fin N)) :
    ∀ (l : List (PolyProd (N + R) F)) (e : Err), (∀ Q ∈ l, ∃ S k, Form φ P S k Q) →
      poleLoopIdx fuel val (js.map (Fin.castAdd R)) l = .error e →
      (e = .typeError ∧ ∃ j ∈ js, val (ect (Fin.castAdd R j) P.monos) = none) ∨
      (e = .oneOverZero ∧ ∃ j ∈ js, ∃ q < 0, val (ect (Fin.castAdd R j) P.monos) = some q ∧ Unregulated P j) ∨
      e = .outOfFuel := by
  induction js with
  | nil => intro l e _ h; simp [poleLoopIdx] at h
  | cons j js ih =>
    intro l e hl h
    simp only [List.map_cons, poleLoopIdx, Bind.bind, Except.bind] at h
    cases h1 : extendAll (fun P => poleSingle fuel val P (Fin.castAdd R j)) l with
    | error e1 =>
      rw [h1] at h; simp at h; subst h
      obtain ⟨Q, hQ, h2⟩ := extendAll_error _ _ h1
      obtain ⟨S, k, hF⟩ := hl Q hQ
      have h3 := poleSingle_error _ h2
      rcases hF.col j with h0 | ⟨_, h0⟩
      · rw [ect_zero h0, hv0] at h3
        rcases h3 with ⟨_, h3⟩ | ⟨_, q, hq, h3, _⟩ | h3
        · simp at h3
        · simp at h3; rw [← h3] at hq; exact absurd hq (lt_irrefl _)
        · exact Or.inr (Or.inr h3)
      · rw [ect_congr h0, Unregulated_congr h0] at h3
        rcases h3 with ⟨a, b⟩ | ⟨a, q, hq, b, c⟩ | h3
        · exact Or.inl ⟨a, j, by simp, b⟩
        · exact Or.inr (Or.inl ⟨a, j, by simp, q, hq, b, c⟩)
        · exact Or.inr (Or.inr h3)
    | ok l' =>
      rw [h1] at h
      simp only at h
      have h2 := extendAll_all (p := fun Q => ∃ S k, Form φ P S k Q) (r := fun Q => ∃ S k, Form φ P S k Q)
        (fun Q outs hQ ho T hT => by
          obtain ⟨S, k, hF⟩ := hQ
          obtain ⟨S', k', _, hF'⟩ := hF.poleSingle hv0 ho T hT
          exact ⟨S', k', hF'⟩) l l' hl h1
      rcases ih l' e h2 h with ⟨a, i, hi, b⟩ | ⟨a, i, hi, b⟩ | h3
      · exact Or.inl ⟨a, i, by simp [hi], b⟩
      · exact Or.inr (Or.inl ⟨a, i, by simp [hi], b⟩)
      · exact Or.inr (Or.inr h3)

/-- If the loop succeeds, no index is bad. -/
theorem poleLoopIdx_good {P : PolyProd (N + R) F} {val : F → Option ℚ} {fuel : ℕ} (js : List (Fin N)) :
    ∀ (l outs : List (PolyProd (N + R) F)), (∃ Q ∈ l, Q.monos = P.monos) →
      poleLoopIdx fuel val (js.map (Fin.castAdd R)) l = .ok outs →
      ∀ j ∈ js, ∃ q, val (ect (Fin.castAdd R j) P.monos) = some q ∧ ¬ (q < 0 ∧ Unregulated P j) := by
  induction js with
  | nil => simp
  | cons j js ih =>
    intro l outs ⟨Q, hQ, hm⟩ h
    simp only [List.map_cons, poleLoopIdx] at h
    obtain ⟨l', hl', h⟩ := bind_ok h
    obtain ⟨o, ho, h1⟩ := extendAll_mem _ _ hl' Q hQ
    obtain ⟨q, hq, hn, ⟨T, hT, hTm⟩, _⟩ := poleSingle_form ho
    intro i hi
    rcases List.mem_cons.1 hi with rfl | hi
    · refine ⟨q, by rw [← hm]; exact hq, fun hc => hn ⟨hc.1, ?_⟩⟩
      exact (Unregulated_congr (by rw [hm])).2 hc.2
    · exact ih l' outs ⟨T, h1 T hT, by rw [hTm, hm]⟩ h i hi

end SecDec.Subtraction
