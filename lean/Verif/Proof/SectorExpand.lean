import Verif.Spec.Sector
import Verif.Proof.SectorTerm
import Verif.Proof.SectorSeries
import Verif.Props.Expansion
/-
The expansion of one term of the subtraction.
-/
set_option linter.unusedSectionVars false
namespace SecDec.SectorExp
open Expr Subtraction Set Filter Topology MeasureTheory Decomp Expansion Sector

variable {N : Nat} {F : Type} [Field F] [DecidableEq F] {φ : F →+* ℂ}

/-- The index of the regulator. -/
abbrev ri (N : ℕ) : Fin (N + 1) := Fin.natAdd N 0

theorem coeffAt_eq (l : List (ℤ × ℂ)) (k : ℤ) : coeffAt l k = (l.map fun t => if t.1 = k then t.2 else 0).sum := by
  induction l with
  | nil => rfl
  | cons t l ih =>
    rw [List.map_cons, List.sum_cons, ← ih, coeffAt, List.filter_cons]
    by_cases h : t.1 = k
    · simp [h, coeffAt]
    · simp [h, coeffAt]

theorem exp_of_list {f : ℂ → ℂ} {o lo : ℤ} {l : List (ℤ × ℂ)} (h : IsExpansion f o l) (hl : ∀ t ∈ l, lo ≤ t.1) :
    Exp f o lo (fun k => (l.map fun t => if t.1 = k then t.2 else 0).sum) := by
  obtain ⟨h1, h2, h3⟩ := h
  refine ⟨fun k hk => ?_, ?_⟩
  · apply List.sum_eq_zero
    intro z hz
    obtain ⟨t, ht, rfl⟩ := List.mem_map.1 hz
    rw [if_neg]
    have := hl t ht
    omega
  · refine h3.congr_left fun s => ?_
    rw [sum_eq_coeffAt l s (Finset.Icc lo o) (fun t ht => Finset.mem_Icc.2 ⟨hl t ht, h2 t ht⟩)]
    simp only [coeffAt_eq]

theorem conv_list (A B : List (ℤ × ℂ)) (J : Finset ℤ) (hA : ∀ a ∈ A, a.1 ∈ J) (k : ℤ) :
    (A.map fun a => (B.map fun b => if a.1 + b.1 = k then a.2 * b.2 else 0).sum).sum =
      ∑ j ∈ J, (A.map fun a => if a.1 = j then a.2 else 0).sum * (B.map fun b => if b.1 = k - j then b.2 else 0).sum := by
  induction A with
  | nil => simp
  | cons a A ih =>
    rw [List.map_cons, List.sum_cons, ih fun a ha => hA a (by simp [ha])]
    simp only [List.map_cons, List.sum_cons, add_mul, Finset.sum_add_distrib]
    congr 1
    rw [Finset.sum_eq_single_of_mem a.1 (hA a (by simp)) (fun j _ hj => by rw [if_neg (Ne.symm hj), zero_mul]), if_pos rfl,
      ← List.sum_map_mul_left]
    congr 1
    refine List.map_congr_left fun b _ => ?_
    by_cases hb : a.1 + b.1 = k
    · rw [if_pos hb, if_pos (by omega)]
    · rw [if_neg hb, if_neg (by omega), mul_zero]

/-! ### The pole part -/

theorem polyValue_pev (p : Poly (N + 1) F) (x : Fin (N + 1) → ℂ) : polyValue φ p x = pev φ x p := rfl

theorem polePart_value (Q : PolyProd (N + 1) F) (x : Fin (N + 1) → ℂ) :
    (polePart Q).value φ x = (pev φ x Q.regBase)⁻¹ := by
  unfold polePart
  dsimp only
  by_cases h : Q.regBase.simplify.terms = [((fun _ => 0), 1)]
  · rw [if_pos h]
    have h1 : pev φ x Q.regBase = 1 := by
      rw [← pev_simplify, pev, h]; simp [mono_zero']
    simp [RatProd.value, polyValue_pev, pev_simplify, h1]
  · rw [if_neg h]
    simp [RatProd.value, polyValue_pev, pev_simplify]

theorem polePart_factor {Q : PolyProd (N + 1) F} {f : Bool × Poly (N + 1) F} (hf : f ∈ (polePart Q).factors) :
    f.2 = Q.regBase.simplify := by
  unfold polePart at hf
  dsimp only at hf
  by_cases h : Q.regBase.simplify.terms = [((fun _ => 0), 1)]
  · rw [if_pos h] at hf; simp at hf; rw [hf]
  · rw [if_neg h] at hf; simp at hf; rw [hf]

theorem polePart_valid {Q : PolyProd (N + 1) F} (hW : WellFormed φ Q) (hne : ∃ e, Q.regBase.coeffOf e ≠ 0) :
    (polePart Q).Valid := by
  refine ⟨fun f hf => ?_, fun f hf _ => ?_⟩
  · rw [polePart_factor hf]; exact hW.base.simplify.nonneg
  · rw [polePart_factor hf]
    obtain ⟨e, he⟩ := hne
    exact ⟨e, by rwa [Poly.coeffOf_simplify]⟩

theorem regular_all {p : Poly (N + 1) F} (hp : RegulatorPoly p) (hne : ∃ e, p.coeffOf e ≠ 0) (y : Fin (N + 1) → ℂ) :
    RegularAt φ p (ri N) y := by
  obtain ⟨e, he⟩ := hne
  obtain ⟨⟨G, hG1, hG2, hG3⟩, -⟩ := C22_generic φ p hp.nonneg e he (ri N)
  obtain ⟨y', hy'⟩ := hG2.nonempty
  obtain ⟨d, h1, c, hc, h2⟩ := hG3 y' hy'
  refine ⟨d, h1, c, hc, h2.congr fun s => ?_⟩
  congr 1
  rw [polyValue_pev, polyValue_pev]
  refine pev_reg hp fun i => ?_
  obtain rfl : i = 0 := Subsingleton.elim _ _
  simp

theorem pev_line {p : Poly (N + 1) F} (hp : RegulatorPoly p) (t : Fin N → ℝ) (s : ℂ) :
    pev φ (Function.update (point (ez 0) t) (ri N) s) p = pev φ (rpt N (ez s)) p := by
  rw [← point_ez s 0 t, pev_point hp]

theorem singular_exp {Q : PolyProd (N + 1) F} (hW : WellFormed φ Q) (hne : ∃ e, Q.regBase.coeffOf e ≠ 0) {o lo : ℤ}
    {sing : List (Expo (N + 1) × RatProd (N + 1) F)} (h : singularExpansion [(ri N, o)] Q = .ok sing)
    (hm : (sing.map fun a => a.1 (ri N)).min? = some lo) :
    lo ≤ o ∧ (∀ a ∈ sing, a.1 = Function.update (fun _ => 0) (ri N) (a.1 (ri N)) ∧ lo ≤ a.1 (ri N) ∧ a.1 (ri N) ≤ o) ∧
    ∀ t : Fin N → ℝ, Exp (fun s => (pev φ (rpt N (ez s)) Q.regBase)⁻¹) o lo
      (fun k => (sing.map fun a => if a.1 (ri N) = k then a.2.value φ (point (ez 0) t) else 0).sum) := by
  have hmin := List.min?_eq_some_iff.1 hm
  have hlo : ∀ a ∈ sing, lo ≤ a.1 (ri N) := fun a ha => hmin.2 _ (List.mem_map.2 ⟨a, ha, rfl⟩)
  have hV := polePart_valid hW hne
  have hreg : ∀ y, ∀ f ∈ (polePart Q).factors, f.1 = true → RegularAt φ f.2 (ri N) y := by
    intro y f hf _
    rw [polePart_factor hf]
    obtain ⟨e, he⟩ := hne
    exact regular_all hW.base.simplify ⟨e, by rwa [Poly.coeffOf_simplify]⟩ y
  have hfun : ∀ t : Fin N → ℝ, (fun s => (polePart Q).value φ (Function.update (point (ez 0) t) (ri N) s)) =
      fun s => (pev φ (rpt N (ez s)) Q.regBase)⁻¹ := by
    intro t
    funext s
    rw [polePart_value, pev_line hW.base]
  have hloo : (∀ a ∈ sing, a.1 (ri N) ≤ o) → lo ≤ o := by
    intro hle
    obtain ⟨a, ha, rfl⟩ := List.mem_map.1 hmin.1
    exact hle a ha
  unfold singularExpansion at h
  split at h
  · rename_i r hr
    simp only [Except.ok.injEq] at h
    obtain ⟨k, cs, h1, h2⟩ := C22_one_variable φ (polePart Q) hV (ri N) o r hr
    have hsing : sing = cs.zipIdx.map (fun c => (Function.update (fun _ => 0) (ri N) ((c.2 : ℤ) + k), c.1)) := by
      rw [← h, h1, termsOf, List.filterMap_map]
      rw [← List.filterMap_eq_map]
      rfl
    have hE : ∀ t : Fin N → ℝ, IsExpansion (fun s => (pev φ (rpt N (ez s)) Q.regBase)⁻¹) o
        (sing.map fun a => (a.1 (ri N), a.2.value φ (point (ez 0) t))) := by
      intro t
      have := h2 (point (ez 0) t) (hreg _)
      rw [hfun t] at this
      rw [hsing, List.map_map]
      simpa [Function.comp_def] using this
    have hle : ∀ a ∈ sing, a.1 (ri N) ≤ o := fun a ha =>
      (hE 0).2.1 (a.1 (ri N), a.2.value φ (point (ez 0) 0)) (List.mem_map.2 ⟨a, ha, rfl⟩)
    refine ⟨hloo hle, fun a ha => ⟨?_, hlo a ha, hle a ha⟩, fun t => ?_⟩
    · rw [hsing] at ha
      obtain ⟨c, _, rfl⟩ := List.mem_map.1 ha
      simp
    · have := exp_of_list (lo := lo) (hE t) (by
        intro b hb
        obtain ⟨a, ha, rfl⟩ := List.mem_map.1 hb
        exact hlo a ha)
      simpa [List.map_map, Function.comp_def] using this
  · rename_i hr
    simp only [Except.ok.injEq] at h
    have hs : ∀ a ∈ sing, a.1 = Function.update (fun _ => 0) (ri N) o := by
      intro a ha
      rw [← h] at ha
      simp only [List.mem_singleton] at ha
      rw [ha]; rfl
    have hle : ∀ a ∈ sing, a.1 (ri N) ≤ o := fun a ha => by rw [hs a ha]; simp
    refine ⟨hloo hle, fun a ha => ⟨?_, hlo a ha, hle a ha⟩, fun t => ?_⟩
    · rw [hs a ha]; simp
    · have h2 := C22_order_error_no_terms φ (polePart Q) hV (ri N) o hr (point (ez 0) t) (hreg _)
      rw [hfun t] at h2
      have h3 := exp_of_list (lo := lo) h2 (by simp)
      refine h3.congr_coeff (fun k _ => ?_) (fun k _ => ?_) <;> rw [← h] <;>
        simp [RatProd.value, polyValue]
  · exact absurd h (by simp)

/-! ### The regular part -/

theorem taylorLoop_not_order {n : ℕ} (fuel : Nat) (i : Fin n) : ∀ (count k : ℕ) (fact : F) (e : Expr n F),
    taylorLoop fuel i count k fact e ≠ .error .order := by
  intro count
  induction count with
  | zero => intro k fact e h; simp [taylorLoop] at h
  | succ count ih =>
    intro k fact e h
    simp only [taylorLoop] at h
    split at h
    · simp at h
    · split at h
      · simp at h
      · split at h
        · simp at h
        · split at h
          · rename_i err herr
            simp only [Except.error.injEq] at h
            rw [h] at herr
            exact ih _ _ _ herr
          · simp at h

theorem regularPart_eq (Q : PolyProd (N + 1) F) : regularPart Q = regExpr Q := rfl

theorem regular_list {Q : PolyProd (N + 1) F} {U : Set (Fin (N + 1) → ℂ)} (hW : WellFormed φ Q) (hU : On φ (ez 0) Q U)
    {fuel : ℕ} {q : ℤ} {reg : List (Expo (N + 1) × Expr (N + 1) F)}
    (h : regularExpansion fuel [(ri N, q)] Q = .ok reg) :
    0 ≤ q ∧ ∃ es : List (Expr (N + 1) F), reg = es.zipIdx.map (fun c => (Function.update (fun _ => 0) (ri N) (c.2 : ℤ), c.1)) ∧
      ∀ t ∈ oc N, es.map (fun c => eval φ (point (ez 0) t) c) = (List.range (q.toNat + 1)).map (fun j =>
        iteratedDeriv j (fun z => valueWithoutPoles φ (ez z) Q t) 0 / (j.factorial : ℂ)) := by
  unfold regularExpansion expandTaylor expandAndFlatten at h
  simp only [recursiveExpansion, List.length_singleton, if_true] at h
  have hA := adm_regExpr hW hU.adm
  have hopen := isOpen_dom hW hU.isOpen
  rcases hts : taylorStep fuel (regularPart Q) (ri N) q with err | p
  · rw [hts] at h
    have : err = .order := by
      cases err <;> simp [Bind.bind, Except.bind] at h ⊢
    subst this
    exfalso
    unfold taylorStep at hts
    split at hts
    · simp at hts
    · split at hts
      · simp at hts
      · split at hts
        · rename_i e1 he1
          simp only [Except.error.injEq] at hts
          rw [hts] at he1
          exact taylorLoop_not_order _ _ _ _ _ _ he1
        · simp at hts
  · rw [hts] at h
    simp only [Bind.bind, Except.bind, Except.ok.injEq] at h
    unfold taylorStep at hts
    split at hts
    · simp at hts
    · rename_i hq
      refine ⟨by omega, ?_⟩
      split at hts
      · simp at hts
      · rename_i e0 he0
        split at hts
        · simp at hts
        · rename_i cs hcs
          simp only [Except.ok.injEq] at hts
          rw [regularPart_eq] at he0 hcs
          have v0 := replace_val (φ := φ) (M := (Mode.free φ)) (U := dom φ Q U) 0 (fun _ => 0) (ri N) (by simp)
            (fun _ c hc => hc) fuel _ e0 hA he0
          obtain ⟨-, b2⟩ := taylorLoop_ok (φ := φ) hopen (ri N) fuel (regExpr Q) q.toNat 0 1 (regExpr Q) cs hA (by simp)
            (fun y _ => Eventually.of_forall fun t => by simp) hcs
          refine ⟨e0 :: cs, ?_, ?_⟩
          · rw [← h, ← hts, termsOf, List.filterMap_map, List.filterMap_map, ← List.filterMap_eq_map]
            rfl
          · intro t ht
            have hy : Function.update (point (ez 0) t) (ri N) 0 ∈ dom φ Q U := by
              rw [← point_ez 0 0 t]; exact point_mem_dom hW hU.covers ht
            have hl : lineFun φ (regExpr Q) (ri N) (point (ez 0) t) = fun z => valueWithoutPoles φ (ez z) Q t := by
              funext z
              rw [lineFun, ← point_ez z 0 t]; rfl
            rw [List.map_cons, b2 _ hy, List.range_succ_eq_map, List.map_cons, List.map_map, hl]
            congr 1
            · rw [v0, map_zero, ← point_ez 0 0 t]; simp [valueWithoutPoles, regExpr]
            · refine List.map_congr_left fun j _ => ?_
              simp only [Function.comp, Nat.succ_eq_add_one]
              rw [show 0 + 1 + j = j + 1 by ring]

/-- The coefficients of the regular part at a point of the cube. -/
theorem regular_coeff {Q : PolyProd (N + 1) F} {q : ℤ} (hq : 0 ≤ q) {es : List (Expr (N + 1) F)}
    {reg : List (Expo (N + 1) × Expr (N + 1) F)}
    (hr : reg = es.zipIdx.map (fun c => (Function.update (fun _ => 0) (ri N) (c.2 : ℤ), c.1))) {t : Fin N → ℝ}
    (h : es.map (fun c => eval φ (point (ez 0) t) c) = (List.range (q.toNat + 1)).map (fun j =>
        iteratedDeriv j (fun z => valueWithoutPoles φ (ez z) Q t) 0 / (j.factorial : ℂ))) (l : ℤ) :
    (reg.map fun b => if b.1 (ri N) = l then eval φ (point (ez 0) t) b.2 else 0).sum =
      if 0 ≤ l ∧ l ≤ q then iteratedDeriv l.toNat (fun z => valueWithoutPoles φ (ez z) Q t) 0 / (l.toNat.factorial : ℂ) else 0 := by
  have h1 : (reg.map fun b => if b.1 (ri N) = l then eval φ (point (ez 0) t) b.2 else 0).sum =
      coeffAt (consec 0 (es.map (fun c => eval φ (point (ez 0) t) c))) l := by
    rw [coeffAt_eq, hr, consec, List.zipIdx_map, List.map_map, List.map_map, List.map_map]
    congr 1
    refine List.map_congr_left fun c _ => ?_
    simp [Function.comp]
  rw [h1]
  by_cases hl : 0 ≤ l
  · rw [coeffAt_consec_nat 0 _ l.toNat l (by omega), h]
    by_cases hlq : l ≤ q
    · rw [if_pos ⟨hl, hlq⟩, List.getD_eq_getElem?_getD, List.getElem?_map, List.getElem?_range (by omega)]
      rfl
    · rw [if_neg (by omega), List.getD_eq_getElem?_getD, List.getElem?_eq_none (by simp; omega)]
      rfl
  · rw [if_neg (by omega), coeffAt_eq, consec]
    apply List.sum_eq_zero
    intro z hz
    obtain ⟨u, hu, rfl⟩ := List.mem_map.1 hz
    obtain ⟨c, _, rfl⟩ := List.mem_map.1 hu
    rw [if_neg]
    simp only
    omega

end SecDec.SectorExp
