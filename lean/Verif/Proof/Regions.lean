import Mathlib.Analysis.Calculus.Deriv.Pi
import Mathlib.Analysis.Calculus.Deriv.Comp
import Mathlib.Analysis.Calculus.Deriv.Mul
import Mathlib.Analysis.Complex.CauchyIntegral
import Mathlib.Algebra.BigOperators.Group.List.Lemmas
import Verif.Spec.Regions
import Verif.Proof.ExpPoly
/-
Proofs about `derive_prod` and `expand_region`.
-/
set_option linter.unusedSectionVars false
set_option linter.unusedVariables false
namespace SecDec
namespace Regions
open Filter Topology Asymptotics Poly Expansion
open Subtraction (pev NonNeg pev_simplify pev_zero pev_mul pev_add pev_addScalar pev_mulScalar)
variable {n : Nat} {F : Type} [Field F] [DecidableEq F] {φ : F →+* ℂ}

/-! ### independence of names -/

theorem mono_congr {x y : Fin n → ℂ} {e : Expo n} (h : ∀ k, e k ≠ 0 → x k = y k) : Poly.mono x e = Poly.mono y e := by
  unfold Poly.mono
  refine Finset.prod_congr rfl fun k _ => ?_
  by_cases hk : e k = 0
  · simp [hk]
  · rw [h k hk]

theorem pev_congr {x y : Fin n → ℂ} {p : Poly n F} (h : ∀ k, ¬ Indep p k → x k = y k) : pev φ x p = pev φ y p := by
  unfold pev
  congr 1
  refine List.map_congr_left fun t ht => ?_
  rw [mono_congr (y := y)]
  intro k hk
  exact h k (fun hi => hk (hi t ht))

theorem lookup_none {β : Type} {names : List (Fin n)} {vals : List β} {k : Fin n} (h : k ∉ names) :
    (names.zip vals).lookup k = none := by
  induction names generalizing vals with
  | nil => simp
  | cons a l ih =>
    cases vals with
    | nil => simp
    | cons v vs =>
      simp only [List.mem_cons, not_or] at h
      rw [List.zip_cons_cons, List.lookup_cons, beq_eq_false_iff_ne.2 h.1]
      exact ih h.2

theorem withNames_of_notMem {names : List (Fin n)} {vals : List ℂ} {x : Fin n → ℂ} {k : Fin n} (h : k ∉ names) :
    withNames names vals x k = x k := by
  rw [withNames, lookup_none h]; rfl

theorem pev_withNames {names : List (Fin n)} {vals : List ℂ} {x : Fin n → ℂ} {p : Poly n F}
    (h : ∀ k ∈ names, Indep p k) : pev φ (withNames names vals x) p = pev φ x p := by
  refine pev_congr fun k hk => ?_
  exact withNames_of_notMem (fun hm => hk (h k hm))

theorem lookup_zip_cons {β : Type} (a : Fin n) (l : List (Fin n)) (v : β) (vs : List β) (k : Fin n) :
    ((a :: l).zip (v :: vs)).lookup k = if k = a then some v else (l.zip vs).lookup k := by
  rw [List.zip_cons_cons, List.lookup_cons]
  by_cases h : k = a
  · simp [h]
  · rw [beq_eq_false_iff_ne.2 h, if_neg h]

/-- sums over the variables with names -/
theorem sum_withNames {names : List (Fin n)} (hn : names.Nodup) (vals : List ℂ) (d g : Fin n → ℂ) :
    ∑ k, ((names.zip vals).lookup k).getD (d k) * g k =
      (∑ k, d k * g k) + ((names.zip vals).map (fun q => (q.2 - d q.1) * g q.1)).sum := by
  induction names generalizing vals with
  | nil => simp
  | cons a l ih =>
    cases vals with
    | nil => simp
    | cons v vs =>
      have hn' := List.nodup_cons.1 hn
      rw [List.zip_cons_cons, List.map_cons, List.sum_cons, ← add_assoc, add_right_comm, ← ih hn'.2 vs]
      simp_rw [← List.zip_cons_cons, lookup_zip_cons]
      rw [← Finset.sum_erase_add _ _ (Finset.mem_univ a), ← Finset.sum_erase_add (a := a) _ _ (Finset.mem_univ a)]
      rw [if_pos rfl, lookup_none hn'.1]
      have : ∑ k ∈ Finset.univ.erase a, (if k = a then some v else (l.zip vs).lookup k).getD (d k) * g k =
          ∑ k ∈ Finset.univ.erase a, ((l.zip vs).lookup k).getD (d k) * g k := by
        refine Finset.sum_congr rfl fun k hk => ?_
        rw [if_neg (Finset.ne_of_mem_erase hk)]
      rw [this]
      simp only [Option.getD_some, Option.getD_none]
      ring

/-! ### chain rule for polynomials -/

theorem pev_differentiable {p : Poly n F} (hp : NonNeg p) (x : Fin n → ℂ) :
    DifferentiableAt ℂ (fun x => pev φ x p) x := ((pev_continuous hp) x trivial).differentiableAt

theorem pev_fderiv {p : Poly n F} (hp : NonNeg p) (x d : Fin n → ℂ) :
    fderiv ℂ (fun x => pev φ x p) x d = ∑ k, d k * pev φ x (p.derive k) := by
  have h1 : d = ∑ k, d k • (Pi.single k (1:ℂ) : Fin n → ℂ) := by
    funext j; simp [Finset.sum_apply, Pi.single_apply]
  conv_lhs => rw [h1]
  rw [map_sum]
  refine Finset.sum_congr rfl fun k _ => ?_
  rw [map_smul, smul_eq_mul]
  congr 1
  have h2 := (pev_differentiable (φ := φ) hp (Function.update x k (x k))).hasFDerivAt.comp_hasDerivAt (x k)
    (hasDerivAt_update x k (x k))
  rw [Function.update_eq_self] at h2
  exact h2.unique (pev_derive x hp k)

theorem pev_chain {p : Poly n F} (hp : NonNeg p) {γ : ℂ → Fin n → ℂ} {γ' : Fin n → ℂ} {s : ℂ}
    (h : ∀ k, HasDerivAt (fun s => γ s k) (γ' k) s) :
    HasDerivAt (fun s => pev φ (γ s) p) (∑ k, γ' k * pev φ (γ s) (p.derive k)) s := by
  have h1 := (pev_differentiable (φ := φ) hp (γ s)).hasFDerivAt.comp_hasDerivAt s (hasDerivAt_pi.2 h)
  rw [pev_fderiv hp] at h1
  exact h1

/-! ### operations -/

theorem indep_derive {p : Poly n F} {k : Fin n} (h : Indep p k) (i : Fin n) : Indep (p.derive i) k := by
  unfold Poly.derive
  simp only
  split
  · intro t ht; simp [zeroPoly] at ht; simp [ht]
  · intro t ht
    simp only [List.mem_map, List.mem_filter, decide_eq_true_eq] at ht
    obtain ⟨s, ⟨hs, hne⟩, rfl⟩ := ht
    have hk := h s hs
    by_cases hki : k = i
    · subst hki; exact absurd hk hne
    · simp [Function.update_of_ne hki, hk]

theorem nonneg_add' {p q : Poly n F} (hp : NonNeg p) (hq : NonNeg q) : NonNeg (p.add q) := by
  refine nonneg_simplify ?_
  intro t ht i
  simp only [List.mem_append, List.mem_map] at ht
  rcases ht with ht | ⟨s, hs, rfl⟩
  · exact hp t ht i
  · exact hq s hs i

theorem nonneg_mulScalar {p : Poly n F} (hp : NonNeg p) (c : F) : NonNeg (p.mulScalar c) := by
  unfold Poly.mulScalar
  split
  · exact hp
  · split
    · exact nonneg_zero
    · intro t ht i
      simp only [List.mem_map] at ht
      obtain ⟨s, hs, rfl⟩ := ht
      exact hp s hs i

theorem nonneg_subScalar {p : Poly n F} (hp : NonNeg p) (c : F) : NonNeg (p.subScalar c) := by
  refine nonneg_simplify ?_
  intro t ht i
  rcases List.mem_cons.1 ht with rfl | h
  · simp
  · exact hp t h i

theorem indep_simplify {p : Poly n F} {k : Fin n} (h : Indep p k) : Indep p.simplify k := by
  intro t ht
  rcases simplify_expo_subset p t ht with ⟨s, hs, e⟩ | h0
  · rw [← e]; exact h s hs
  · simp [h0]

theorem indep_subScalar {p : Poly n F} {k : Fin n} (h : Indep p k) (c : F) : Indep (p.subScalar c) k := by
  refine indep_simplify ?_
  intro t ht
  rcases List.mem_cons.1 ht with rfl | hm
  · simp
  · exact h t hm

theorem pev_subScalar (x : Fin n → ℂ) (p : Poly n F) (c : F) : pev φ x (p.subScalar c) = pev φ x p - φ c := by
  rw [Poly.subScalar, Poly.subOrAddScalar, pev_simplify]
  simp [pev, Subtraction.mono_zero']; ring

theorem nonneg_dummy (k : Fin n) : NonNeg (dummy k : Poly n F) := by
  intro t ht i
  simp [dummy] at ht
  subst ht
  simp only; split <;> simp

theorem pev_dummy (x : Fin n → ℂ) (k : Fin n) : pev φ x (dummy k : Poly n F) = x k := by
  simp only [pev, dummy, List.map_cons, List.map_nil, List.sum_cons, List.sum_nil, add_zero, map_one, one_mul,
    Poly.mono]
  rw [Finset.prod_eq_single k]
  · simp
  · intro b _ hb; simp [hb]
  · simp

theorem foldl_mul (ps : List (Poly n F)) (hps : ∀ p ∈ ps, NonNeg p) (q : Poly n F) (hq : NonNeg q) (x : Fin n → ℂ) :
    NonNeg (ps.foldl Poly.mul q) ∧ pev φ x (ps.foldl Poly.mul q) = pev φ x q * (ps.map (pev φ x)).prod := by
  induction ps generalizing q with
  | nil => simpa using hq
  | cons p ps ih =>
    have hp := hps p (by simp)
    obtain ⟨h1, h2⟩ := ih (fun p hp => hps p (by simp [hp])) (q.mul p) (nonneg_mul hq hp)
    refine ⟨h1, ?_⟩
    rw [List.foldl_cons, h2, pev_mul x hq hp, List.map_cons, List.prod_cons, mul_assoc]

theorem mulOpt_prodList {p : Poly n F} (hp : NonNeg p) (l : List (Poly n F)) (hl : ∀ q ∈ l, NonNeg q) (x : Fin n → ℂ) :
    NonNeg (mulOpt p (prodList l)) ∧ pev φ x (mulOpt p (prodList l)) = pev φ x p * (l.map (pev φ x)).prod := by
  cases l with
  | nil => exact ⟨nonneg_mulScalar hp 1, by simp [prodList, mulOpt, pev_mulScalar]⟩
  | cons a l =>
    obtain ⟨h1, h2⟩ := foldl_mul (φ := φ) l (fun q hq => hl q (by simp [hq])) a (hl a (by simp)) x
    exact ⟨nonneg_mul hp h1, by simp only [prodList, mulOpt]; rw [pev_mul x hp h1, h2]; simp⟩

theorem nonneg_mulOpt {p : Poly n F} (hp : NonNeg p) (l : List (Poly n F)) (hl : ∀ q ∈ l, NonNeg q) :
    NonNeg (mulOpt p (prodList l)) := by
  have : ∀ (l : List (Poly n F)) (q : Poly n F), (∀ p ∈ l, NonNeg p) → NonNeg q → NonNeg (l.foldl Poly.mul q) := by
    intro l
    induction l with
    | nil => intro q _ hq; exact hq
    | cons a l ih =>
      intro q h hq
      exact ih _ (fun p hp => h p (by simp [hp])) (nonneg_mul hq (h a (by simp)))
  cases l with
  | nil => exact nonneg_mulScalar hp 1
  | cons a l => exact nonneg_mul hp (this l a (fun q hq => hl q (by simp [hq])) (hl a (by simp)))

theorem foldl_add {α : Type} (l : List α) (g : α → Poly n F) (hg : ∀ a ∈ l, NonNeg (g a)) (q : Poly n F) (hq : NonNeg q)
    (x : Fin n → ℂ) :
    NonNeg (l.foldl (fun acc a => acc.add (g a)) q) ∧
      pev φ x (l.foldl (fun acc a => acc.add (g a)) q) = pev φ x q + (l.map (fun a => pev φ x (g a))).sum := by
  induction l generalizing q with
  | nil => simpa using hq
  | cons a l ih =>
    obtain ⟨h1, h2⟩ := ih (fun a ha => hg a (by simp [ha])) (q.add (g a)) (nonneg_add' hq (hg a (by simp)))
    refine ⟨h1, ?_⟩
    rw [List.foldl_cons, h2, pev_add, List.map_cons, List.sum_cons, add_assoc]

/-! ### `derive_prod` -/

/-- the values of the bases -/
noncomputable def bvals (φ : F →+* ℂ) (ps : List (EPoly n F)) (x : Fin n → ℂ) : List ℂ := ps.map (fun p => pev φ x p.base)

theorem integrand_eq (names : List (Fin n)) (ps : List (EPoly n F)) (N : Poly n F) (x : Fin n → ℂ) :
    integrand φ names ps N x = (ps.map (fun p => pev φ x p.base ^ pev φ x p.exponent)).prod *
      pev φ (withNames names (bvals φ ps x) x) N := rfl

theorem withNames_map {names : List (Fin n)} (hn : names.Nodup) (vals : List ℂ) (x : Fin n → ℂ)
    (h : vals.length ≤ names.length) : (names.take vals.length).map (withNames names vals x) = vals := by
  induction names generalizing vals with
  | nil =>
    have : vals = [] := by simpa using h
    simp [this]
  | cons a l ih =>
    cases vals with
    | nil => simp
    | cons v vs =>
      have hn' := List.nodup_cons.1 hn
      simp only [List.length_cons, List.take_succ_cons, List.map_cons, List.cons.injEq]
      refine ⟨by rw [withNames, lookup_zip_cons]; simp, ?_⟩
      have := ih hn'.2 vs (by simpa using h)
      conv_rhs => rw [← this]
      refine List.map_congr_left fun k hk => ?_
      have hka : k ≠ a := by
        rintro rfl; exact hn'.1 (List.mem_of_mem_take hk)
      rw [withNames, withNames, lookup_zip_cons, if_neg hka]

/-- the value of the numerator made by `derive_prod` -/
theorem deriveProd_spec {names : List (Fin n)} {i : Fin n} {ps : List (EPoly n F)} {N : Poly n F}
    (hv : Valid names i ps N) : ∃ N', deriveProd ps N i names = some (ps.map (fun p => ⟨p.base, p.exponent.subScalar 1⟩), N') ∧
      NonNeg N' ∧ ∀ x : Fin n → ℂ, (∀ p ∈ ps, pev φ x p.base ≠ 0) →
        pev φ (withNames names (bvals φ ps x) x) N' = (bvals φ ps x).prod *
          (pev φ (withNames names (bvals φ ps x) x) (N.derive i) +
            ((ps.zip names).map (fun q => pev φ (withNames names (bvals φ ps x) x) N * pev φ x q.1.exponent *
                pev φ x (q.1.base.derive i) / pev φ x q.1.base +
              pev φ (withNames names (bvals φ ps x) x) (N.derive q.2) * pev φ x (q.1.base.derive i))).sum) := by
  have hNn : NonNeg N := hv.numerator_nonneg
  have hdum : ∀ q ∈ (names.take ps.length).map (dummy (F := F)), NonNeg q := by
    intro q hq; obtain ⟨k, -, rfl⟩ := List.mem_map.1 hq; exact nonneg_dummy k
  have hmem : ∀ q ∈ (ps.zip names).zipIdx, q.1.1 ∈ ps ∧ q.1.2 ∈ names ∧ ps[q.2]? = some q.1.1 := by
    intro q hq
    have h1 := List.mk_mem_zipIdx_iff_getElem?.1 (show (q.1, q.2) ∈ _ from hq)
    have h2 := List.mem_of_getElem? h1
    have h3 := List.of_mem_zip (show (q.1.1, q.1.2) ∈ _ from h2)
    refine ⟨h3.1, h3.2, ?_⟩
    rw [List.getElem?_zip_eq_some] at h1
    exact h1.1
  have hsum : ∀ q ∈ (ps.zip names).zipIdx, ∀ y : Fin n → ℂ, NonNeg (summand ps N i names q.2 q.1.1 q.1.2) ∧
      pev φ y (summand ps N i names q.2 q.1.1 q.1.2) =
        pev φ y N * pev φ y q.1.1.exponent * pev φ y (q.1.1.base.derive i) *
          ((((names.take ps.length).map y).eraseIdx q.2)).prod +
        pev φ y (N.derive q.1.2) * pev φ y (q.1.1.base.derive i) * ((names.take ps.length).map y).prod := by
    intro q hq y
    obtain ⟨h1, h2, h3⟩ := hmem q hq
    have hb : NonNeg q.1.1.base := hv.base_nonneg _ h1
    have he : NonNeg q.1.1.exponent := hv.exponent_nonneg _ h1
    have hbd := nonneg_derive hb i
    have e1 := mulOpt_prodList (φ := φ) (nonneg_mul (nonneg_mul hNn he) hbd)
      (((names.take ps.length).map dummy).eraseIdx q.2) (fun r hr => hdum r (List.mem_of_mem_eraseIdx hr)) y
    have e2 := mulOpt_prodList (φ := φ) (nonneg_mul (nonneg_derive hNn q.1.2) hbd)
      ((names.take ps.length).map dummy) hdum y
    refine ⟨nonneg_add' e1.1 e2.1, ?_⟩
    rw [summand]
    rw [pev_add, e1.2, e2.2, pev_mul y (nonneg_mul hNn he) hbd, pev_mul y hNn he, pev_mul y (nonneg_derive hNn q.1.2) hbd]
    rw [← List.eraseIdx_map, List.map_map]
    have : (pev φ y ∘ (dummy (F := F))) = y := by funext k; exact pev_dummy y k
    rw [this]
  have hstart := fun y => mulOpt_prodList (φ := φ) (nonneg_derive hNn i) ((names.take ps.length).map dummy) hdum y
  have hfold := fun y => foldl_add (φ := φ) (ps.zip names).zipIdx
    (fun q => summand ps N i names q.2 q.1.1 q.1.2) (fun q hq => (hsum q hq y).1) _ (hstart y).1 y
  refine ⟨_, by rw [deriveProd, if_pos hv.length], (hfold 0).1, ?_⟩
  intro x hx
  set y := withNames names (bvals φ ps x) x with hy
  rw [(hfold y).2, (hstart y).2, List.map_map]
  have hyd : (pev φ y ∘ (dummy (F := F))) = y := by funext k; exact pev_dummy y k
  have hlen : (bvals φ ps x).length = ps.length := by simp [bvals]
  have hyn : (names.take ps.length).map y = bvals φ ps x := by
    have := withNames_map hv.nodup (bvals φ ps x) x (by rw [hlen]; exact hv.length)
    rw [hlen] at this; exact this
  rw [hyd, hyn]
  have hterm : ∀ q ∈ (ps.zip names).zipIdx, pev φ y (summand ps N i names q.2 q.1.1 q.1.2) =
      (bvals φ ps x).prod * (pev φ y N * pev φ x q.1.1.exponent *
                pev φ x (q.1.1.base.derive i) / pev φ x q.1.1.base +
              pev φ y (N.derive q.1.2) * pev φ x (q.1.1.base.derive i)) := by
    intro q hq
    obtain ⟨h1, h2, h3⟩ := hmem q hq
    rw [(hsum q hq y).2, hyn]
    have e1 : pev φ y q.1.1.exponent = pev φ x q.1.1.exponent := pev_withNames (hv.exponent_names _ h1)
    have e2 : pev φ y (q.1.1.base.derive i) = pev φ x (q.1.1.base.derive i) :=
      pev_withNames (fun k hk => indep_derive (hv.base_names _ h1 k hk) i)
    rw [e1, e2]
    have hk : q.2 < (bvals φ ps x).length := by
      rw [hlen]; exact (List.getElem?_eq_some_iff.1 h3).1
    have hget : (bvals φ ps x)[q.2] = pev φ x q.1.1.base := by
      obtain ⟨h4, h5⟩ := List.getElem?_eq_some_iff.1 h3
      simp only [bvals, List.getElem_map, h5]
    have hprod := List.mul_prod_eraseIdx (l := bvals φ ps x) hk (fun a _ => Commute.all _ _)
    rw [hget] at hprod
    have hne := hx _ h1
    rw [← hprod]
    field_simp
  rw [List.map_congr_left hterm]
  have : ((ps.zip names).zipIdx.map (fun q => (bvals φ ps x).prod * (pev φ y N * pev φ x q.1.1.exponent *
                pev φ x (q.1.1.base.derive i) / pev φ x q.1.1.base +
              pev φ y (N.derive q.1.2) * pev φ x (q.1.1.base.derive i)))) =
      (ps.zip names).map (fun q => (bvals φ ps x).prod * (pev φ y N * pev φ x q.1.exponent *
                pev φ x (q.1.base.derive i) / pev φ x q.1.base +
              pev φ y (N.derive q.2) * pev φ x (q.1.base.derive i))) := by
    conv_rhs => rw [← List.zipIdx_map_fst 0 (ps.zip names)]
    rw [List.map_map]; rfl
  rw [this, List.sum_map_mul_left]
  ring

/-- the derivative of the curve of all values -/
theorem curve_hasDerivAt {names : List (Fin n)} {i : Fin n} {ps : List (EPoly n F)} {N : Poly n F}
    (hv : Valid names i ps N) (x : Fin n → ℂ) (s : ℂ) (k : Fin n) :
    HasDerivAt (fun s => withNames names (bvals φ ps (Function.update x i s)) (Function.update x i s) k)
      (((names.zip (ps.map (fun p => pev φ (Function.update x i s) (p.base.derive i)))).lookup k).getD
        (if k = i then 1 else 0)) s := by
  have hd : HasDerivAt (fun s => Function.update x i s k) (if k = i then 1 else 0) s := by
    by_cases hk : k = i
    · subst hk; simpa using hasDerivAt_id' s
    · simpa [hk] using hasDerivAt_const s (x k)
  have hb := hv.base_nonneg
  clear hv
  unfold withNames bvals
  induction names generalizing ps with
  | nil => simpa using hd
  | cons a l ih =>
    cases ps with
    | nil => simpa using hd
    | cons p ps =>
      simp only [List.map_cons]
      simp_rw [lookup_zip_cons]
      by_cases hka : k = a
      · simp only [hka, if_true, Option.getD_some]
        exact pev_derive' x (hb p (by simp)) i s
      · simp only [hka, if_false]
        exact ih (fun q hq => hb q (by simp [hq]))

theorem prod_cpow_eq (ps : List (EPoly n F)) (x : Fin n → ℂ) (h : ∀ p ∈ ps, pev φ x p.base ≠ 0) :
    (ps.map (fun p => pev φ x p.base ^ pev φ x p.exponent)).prod =
      Complex.exp ((ps.map (fun p => Complex.log (pev φ x p.base) * pev φ x p.exponent)).sum) := by
  induction ps with
  | nil => simp
  | cons p ps ih =>
    rw [List.map_cons, List.prod_cons, List.map_cons, List.sum_cons, Complex.exp_add,
      ih (fun q hq => h q (by simp [hq])), Complex.cpow_def_of_ne_zero (h p (by simp))]

theorem indep_update {p : Poly n F} {i : Fin n} (h : Indep p i) (x : Fin n → ℂ) (s : ℂ) :
    pev φ (Function.update x i s) p = pev φ x p := by
  refine pev_congr fun k hk => ?_
  rw [Function.update_of_ne]
  rintro rfl; exact hk h

theorem logsum_hasDerivAt {i : Fin n} (ps : List (EPoly n F)) (x : Fin n → ℂ) (s : ℂ)
    (hb : ∀ p ∈ ps, NonNeg p.base) (he : ∀ p ∈ ps, Indep p.exponent i)
    (h : ∀ p ∈ ps, pev φ (Function.update x i s) p.base ∈ Complex.slitPlane) :
    HasDerivAt (fun s => (ps.map (fun p => Complex.log (pev φ (Function.update x i s) p.base) *
        pev φ (Function.update x i s) p.exponent)).sum)
      ((ps.map (fun p => pev φ (Function.update x i s) p.exponent *
        pev φ (Function.update x i s) (p.base.derive i) / pev φ (Function.update x i s) p.base)).sum) s := by
  induction ps with
  | nil => simpa using hasDerivAt_const s (0:ℂ)
  | cons p ps ih =>
    simp only [List.map_cons, List.sum_cons]
    refine HasDerivAt.add ?_ (ih (fun q hq => hb q (by simp [hq])) (fun q hq => he q (by simp [hq]))
      (fun q hq => h q (by simp [hq])))
    have h1 := (pev_derive' (φ := φ) x (hb p (by simp)) i s).clog (h p (by simp))
    have h2 := h1.mul_const (pev φ x p.exponent)
    simp only [indep_update (he p (by simp))]
    refine h2.congr_deriv ?_
    ring

theorem pow_sub_one_prod (ps : List (EPoly n F)) (x : Fin n → ℂ) (h : ∀ p ∈ ps, pev φ x p.base ≠ 0) :
    (ps.map (fun p => pev φ x p.base ^ (pev φ x p.exponent - 1))).prod * (bvals φ ps x).prod =
      (ps.map (fun p => pev φ x p.base ^ pev φ x p.exponent)).prod := by
  induction ps with
  | nil => simp [bvals]
  | cons p ps ih =>
    have := ih (fun q hq => h q (by simp [hq]))
    simp only [bvals, List.map_cons, List.prod_cons] at this ⊢
    rw [← this]
    have h0 := h p (by simp)
    rw [Complex.cpow_sub _ _ h0, Complex.cpow_one]
    field_simp

theorem deriveProd_valid {names : List (Fin n)} {i : Fin n} {ps : List (EPoly n F)} {N : Poly n F}
    (hv : Valid names i ps N) : ∃ N', deriveProd ps N i names = some (ps.map (fun p => ⟨p.base, p.exponent.subScalar 1⟩), N') ∧
      Valid names i (ps.map (fun p => ⟨p.base, p.exponent.subScalar 1⟩)) N' := by
  have hN : NonNeg N := hv.numerator_nonneg
  have hdum : ∀ q ∈ (names.take ps.length).map (dummy (F := F)), NonNeg q := by
    intro q hq; obtain ⟨k, -, rfl⟩ := List.mem_map.1 hq; exact nonneg_dummy k
  refine ⟨_, by rw [deriveProd, if_pos hv.length], ?_⟩
  refine ⟨hv.nodup, hv.fresh, by simpa using hv.length, ?_, ?_, ?_, ?_, ?_, ?_⟩
  rotate_left 2
  · have hst := (nonneg_mulOpt (nonneg_derive hN i) _ hdum)
    have : ∀ (l : List ((EPoly n F × Fin n) × ℕ)) (q : Poly n F), NonNeg q → (∀ a ∈ l, a.1.1 ∈ ps) →
        NonNeg (l.foldl (fun acc q => acc.add (summand ps N i names q.2 q.1.1 q.1.2)) q) := by
      intro l
      induction l with
      | nil => intro q hq _; exact hq
      | cons a l ih =>
        intro q hq hl
        refine ih _ (nonneg_add' hq ?_) (fun b hb => hl b (by simp [hb]))
        have hb : NonNeg a.1.1.base := hv.base_nonneg _ (hl a (by simp))
        have he : NonNeg a.1.1.exponent := hv.exponent_nonneg _ (hl a (by simp))
        exact nonneg_add' (nonneg_mulOpt (nonneg_mul (nonneg_mul hN he) (nonneg_derive hb i)) _
            (fun r hr => hdum r (List.mem_of_mem_eraseIdx hr)))
          (nonneg_mulOpt (nonneg_mul (nonneg_derive hN _) (nonneg_derive hb i)) _ hdum)
    refine this _ _ hst ?_
    intro a ha
    have h1 := List.mem_of_getElem? (List.mk_mem_zipIdx_iff_getElem?.1 (show (a.1, a.2) ∈ _ from ha))
    exact (List.of_mem_zip (show (a.1.1, a.1.2) ∈ _ from h1)).1
  all_goals
    intro p hp
    obtain ⟨q, hq, rfl⟩ := List.mem_map.1 hp
  · exact hv.base_names q hq
  · exact fun k hk => indep_subScalar (hv.exponent_names q hq k hk) 1
  · exact indep_subScalar (hv.exponent_param q hq) 1
  · exact hv.base_nonneg q hq
  · exact nonneg_subScalar (hv.exponent_nonneg q hq) 1

/-- the derivative of the integrand is the integrand made by `derive_prod` -/
theorem deriveProd_hasDerivAt {names : List (Fin n)} {i : Fin n} {ps : List (EPoly n F)} {N : Poly n F}
    (hv : Valid names i ps N) : ∃ N', deriveProd ps N i names = some (ps.map (fun p => ⟨p.base, p.exponent.subScalar 1⟩), N') ∧
      Valid names i (ps.map (fun p => ⟨p.base, p.exponent.subScalar 1⟩)) N' ∧
      ∀ (x : Fin n → ℂ) (s : ℂ), (∀ p ∈ ps, pev φ (Function.update x i s) p.base ∈ Complex.slitPlane) →
        HasDerivAt (fun s => integrand φ names ps N (Function.update x i s))
          (integrand φ names (ps.map (fun p => ⟨p.base, p.exponent.subScalar 1⟩)) N' (Function.update x i s)) s := by
  obtain ⟨N', h1, h2, h3⟩ := deriveProd_spec (φ := φ) hv
  refine ⟨N', h1, ?_, ?_⟩
  · refine ⟨hv.nodup, hv.fresh, by simpa using hv.length, ?_, ?_, h2, ?_, ?_, ?_⟩
    all_goals
      intro p hp
      obtain ⟨q, hq, rfl⟩ := List.mem_map.1 hp
    · exact hv.base_nonneg q hq
    · exact nonneg_subScalar (hv.exponent_nonneg q hq) 1
    · exact hv.base_names q hq
    · exact fun k hk => indep_subScalar (hv.exponent_names q hq k hk) 1
    · exact indep_subScalar (hv.exponent_param q hq) 1
  · intro x s hs
    have hne : ∀ p ∈ ps, pev φ (Function.update x i s) p.base ≠ 0 :=
      fun p hp => Complex.slitPlane_ne_zero (hs p hp)
    have hcurve := pev_chain (φ := φ) hv.numerator_nonneg (curve_hasDerivAt (φ := φ) hv x s)
    have hlog := (logsum_hasDerivAt (φ := φ) ps x s hv.base_nonneg hv.exponent_param hs).cexp
    have hmul := hlog.mul hcurve
    have hev : (fun s => integrand φ names ps N (Function.update x i s)) =ᶠ[𝓝 s]
        (fun s => Complex.exp ((ps.map (fun p => Complex.log (pev φ (Function.update x i s) p.base) *
          pev φ (Function.update x i s) p.exponent)).sum) *
          pev φ (withNames names (bvals φ ps (Function.update x i s)) (Function.update x i s)) N) := by
      have : ∀ᶠ s in 𝓝 s, ∀ p ∈ ps, pev φ (Function.update x i s) p.base ≠ 0 := by
        have hb := hv.base_nonneg
        clear h3 hlog hmul hcurve hs hv h1
        induction ps with
        | nil => simp
        | cons p ps ih =>
          have hc := (pev_derive' (φ := φ) x (hb p (by simp)) i s).continuousAt.eventually_ne (hne p (by simp))
          filter_upwards [hc, ih (fun q hq => hne q (by simp [hq])) (fun q hq => hb q (by simp [hq]))] with u hu1 hu2 q hq
          rcases List.mem_cons.1 hq with rfl | hq
          · exact hu1
          · exact hu2 q hq
      filter_upwards [this] with u hu
      rw [integrand_eq, prod_cpow_eq ps _ hu]
    refine (hmul.congr_of_eventuallyEq hev).congr_deriv ?_
    set y := Function.update x i s with hy
    rw [integrand_eq]
    have hbv : bvals φ (ps.map (fun p => (⟨p.base, p.exponent.subScalar 1⟩ : EPoly n F))) y = bvals φ ps y := by
      simp [bvals, List.map_map, Function.comp_def]
    rw [hbv, h3 y hne, ← prod_cpow_eq ps y hne, ← pow_sub_one_prod ps y hne]
    rw [List.map_map]
    have he : ((fun p : EPoly n F => pev φ y p.base ^ pev φ y p.exponent) ∘
        (fun p : EPoly n F => (⟨p.base, p.exponent.subScalar 1⟩ : EPoly n F))) =
        fun p : EPoly n F => pev φ y p.base ^ (pev φ y p.exponent - 1) := by
      funext p; simp [pev_subScalar]
    rw [he, sum_withNames hv.nodup]
    set w := withNames names (bvals φ ps y) y with hw
    set Ppow := (ps.map (fun p => pev φ y p.base ^ (pev φ y p.exponent - 1))).prod with hPpow
    set Pb := (bvals φ ps y).prod with hPb
    have e1 : ∑ k, (if k = i then (1:ℂ) else 0) * pev φ w (N.derive k) = pev φ w (N.derive i) := by
      simp
    rw [e1]
    have e2 : ((names.zip (ps.map (fun p => pev φ y (p.base.derive i)))).map
        (fun q => (q.2 - (if q.1 = i then (1:ℂ) else 0)) * pev φ w (N.derive q.1))).sum =
        ((ps.zip names).map (fun q => pev φ w (N.derive q.2) * pev φ y (q.1.base.derive i))).sum := by
      have hfr := hv.fresh
      clear_value w
      clear h3 hmul hlog hcurve hev h1 hne hs hbv he e1 hPpow hPb Ppow Pb hv hw
      induction names generalizing ps with
      | nil => simp
      | cons a l ih =>
        cases ps with
        | nil => simp
        | cons p ps =>
          simp only [List.mem_cons, not_or] at hfr
          simp only [List.map_cons, List.zip_cons_cons, List.sum_cons]
          rw [ih hfr.2, if_neg (fun h => hfr.1 h.symm)]
          ring
    have e3 : (ps.map (fun p => pev φ y p.exponent * pev φ y (p.base.derive i) / pev φ y p.base)).sum =
        ((ps.zip names).map (fun q => pev φ y q.1.exponent * pev φ y (q.1.base.derive i) / pev φ y q.1.base)).sum := by
      have : ps = (ps.zip names).map Prod.fst := by rw [List.map_fst_zip hv.length]
      conv_lhs => rw [this]
      rw [List.map_map]; rfl
    have e4 : ((ps.zip names).map (fun q => pev φ w N * pev φ y q.1.exponent *
                pev φ y (q.1.base.derive i) / pev φ y q.1.base +
              pev φ w (N.derive q.2) * pev φ y (q.1.base.derive i))).sum =
        pev φ w N * ((ps.zip names).map (fun q => pev φ y q.1.exponent * pev φ y (q.1.base.derive i) / pev φ y q.1.base)).sum +
        ((ps.zip names).map (fun q => pev φ w (N.derive q.2) * pev φ y (q.1.base.derive i))).sum := by
      rw [← List.sum_map_mul_left, ← List.sum_map_add]
      congr 1
      refine List.map_congr_left fun q _ => ?_
      ring
    rw [e2, e3, e4]
    ring

end Regions
end SecDec
