import Verif.Proof.Regions
/-
Proofs about `expand_region`.
-/
set_option linter.unusedSectionVars false
set_option linter.unusedVariables false
namespace SecDec
namespace Regions
open Filter Topology Asymptotics Poly Expansion
open Subtraction (pev NonNeg pev_simplify pev_zero pev_mul pev_add pev_addScalar pev_mulScalar)
variable {n : Nat} {F : Type} [Field F] [DecidableEq F] {φ : F →+* ℂ}

theorem iteratedDeriv_of_chain {g : ℕ → ℂ → ℂ} {U : Set ℂ} (hU : IsOpen U)
    (h : ∀ k, ∀ s ∈ U, HasDerivAt (g k) (g (k+1) s) s) : ∀ k, ∀ s ∈ U, iteratedDeriv k (g 0) s = g k s := by
  intro k
  induction k with
  | zero => intro s _; simp
  | succ k ih =>
    intro s hs
    rw [iteratedDeriv_succ]
    have : iteratedDeriv k (g 0) =ᶠ[𝓝 s] g k := by
      filter_upwards [hU.mem_nhds hs] with u hu using ih u hu
    rw [this.deriv_eq]
    exact (h k s hs).deriv

/-! ### simplification of the terms -/

theorem simplify_idem (p : Poly n F) : p.simplify.simplify = p.simplify :=
  simplify_canonical _ _ (coeffOf_simplify p)

theorem simplify_zero_or (p : Poly n F) : p.simplify = zeroPoly ∨ ∀ t ∈ p.simplify.terms, t.2 ≠ 0 := by
  rw [simplify_nz]
  split
  · left; rfl
  · right; intro t ht; exact nz_ne_zero p t ht

theorem simplify_terms_ne_nil (p : Poly n F) : p.simplify.terms ≠ [] := by
  rw [simplify_nz]
  split
  · simp [zeroPoly]
  · rename_i h
    intro h2; apply h; simp only at h2; rw [h2]; rfl

theorem simplifyInPlace_val (p : EPoly n F) (h : p.exponent.simplify ≠ zeroPoly) (x : Fin n → ℂ) :
    pev φ x (simplifyInPlace p).base = pev φ x p.base ∧ pev φ x (simplifyInPlace p).exponent = pev φ x p.exponent := by
  unfold simplifyInPlace
  simp only
  split
  · rename_i h1
    exfalso
    rcases simplify_zero_or p.exponent with h2 | h2
    · exact h h2
    · have h3 := simplify_terms_ne_nil p.exponent
      cases hl : p.exponent.simplify.terms with
      | nil => exact h3 hl
      | cons a l =>
        refine h2 a (by rw [hl]; simp) ?_
        have := h1.2
        rw [hl] at this; exact this
  · split
    · exact ⟨rfl, pev_simplify _ _⟩
    · exact ⟨pev_simplify _ _, pev_simplify _ _⟩

theorem simplifyInPlace_zero (p : EPoly n F) (h : p.exponent.simplify = zeroPoly) :
    simplifyInPlace p = ⟨⟨[(fun _ => 0, 1)]⟩, ⟨[(fun _ => 0, 1)]⟩⟩ := by
  unfold simplifyInPlace
  rw [h]
  simp [isConst, zeroPoly]

theorem simplifyUnlessConst_val (p : EPoly n F) (x : Fin n → ℂ) :
    pev φ x (simplifyUnlessConst p).base = pev φ x p.base ∧
      pev φ x (simplifyUnlessConst p).exponent = pev φ x p.exponent := by
  unfold simplifyUnlessConst
  simp only
  split
  · exact ⟨rfl, pev_simplify _ _⟩
  · rename_i h
    have h1 : (⟨p.base, p.exponent.simplify⟩ : EPoly n F).exponent.simplify ≠ zeroPoly := by
      simp only
      rw [simplify_idem]
      intro h0
      rw [h0] at h
      exact h (by simp [isConst, zeroPoly])
    have := simplifyInPlace_val (φ := φ) ⟨p.base, p.exponent.simplify⟩ h1 x
    exact ⟨this.1, this.2.trans (pev_simplify _ _)⟩

/-! ### removing the expansion parameter -/

theorem pev_replaceRemove (z : Fin n → ℂ) {p : Poly (n+1) F} (hp : NonNeg p) (i : Fin (n+1)) :
    pev φ z (p.replaceRemove i 0) = pev φ (i.insertNth 0 z : Fin (n+1) → ℂ) p := by
  simp only [pev, Poly.replaceRemove, List.map_map]
  congr 1
  refine List.map_congr_left fun t ht => ?_
  simp only [Function.comp_apply, replaceCoeff, if_true, Poly.mono]
  rw [Fin.prod_univ_succAbove _ i]
  simp only [Fin.insertNth_apply_same, Fin.insertNth_apply_succAbove]
  by_cases h : t.1 i = 0
  · simp [h]
  · simp [h, zero_zpow _ h]

theorem nonneg_replaceRemove {p : Poly (n+1) F} (hp : NonNeg p) (i : Fin (n+1)) : NonNeg (p.replaceRemove i 0) := by
  intro t ht k
  simp only [Poly.replaceRemove, List.mem_map] at ht
  obtain ⟨s, hs, rfl⟩ := ht
  exact hp s hs _

theorem lookup_map_succAbove (i : Fin (n+1)) (names : List (Fin n)) (vals : List ℂ) (k : Fin n) :
    ((names.map i.succAbove).zip vals).lookup (i.succAbove k) = (names.zip vals).lookup k := by
  induction names generalizing vals with
  | nil => simp
  | cons a l ih =>
    cases vals with
    | nil => simp
    | cons v vs =>
      rw [List.map_cons, lookup_zip_cons, lookup_zip_cons, ih vs]
      simp

theorem insertNth_withNames (i : Fin (n+1)) (names : List (Fin n)) (vals : List ℂ) (x : Fin (n+1) → ℂ) :
    (i.insertNth 0 (withNames names vals (fun k => x (i.succAbove k))) : Fin (n+1) → ℂ) =
      withNames (names.map i.succAbove) vals (Function.update x i 0) := by
  funext k
  by_cases hk : k = i
  · subst hk
    rw [Fin.insertNth_apply_same, withNames_of_notMem]
    · simp
    · simp [Fin.succAbove_ne]
  · obtain ⟨j, rfl⟩ := Fin.exists_succAbove_eq hk
    rw [Fin.insertNth_apply_succAbove]
    unfold withNames
    rw [lookup_map_succAbove]
    simp [Fin.succAbove_ne]

theorem insertNth_update (i : Fin (n+1)) (x : Fin (n+1) → ℂ) :
    (i.insertNth 0 (fun k => x (i.succAbove k)) : Fin (n+1) → ℂ) = Function.update x i 0 := by
  have := insertNth_withNames i [] [] x
  exact this

theorem lookup_congr {α : Type} (names : List (Fin n)) (ps : List α) (f g : α → ℂ) (k : Fin n)
    (h : ∀ q ∈ ps.zip names, q.2 = k → f q.1 = g q.1) :
    (names.zip (ps.map f)).lookup k = (names.zip (ps.map g)).lookup k := by
  induction names generalizing ps with
  | nil => simp
  | cons a l ih =>
    cases ps with
    | nil => simp
    | cons p ps =>
      rw [List.map_cons, List.map_cons, lookup_zip_cons, lookup_zip_cons,
        ih ps (fun q hq => h q (by simp [hq]))]
      by_cases hk : k = a
      · rw [if_pos hk, if_pos hk, h (p, a) (by simp) hk.symm]
      · rw [if_neg hk, if_neg hk]

/-- the value of a term of order at least one -/
theorem laterTerm_val {names : List (Fin n)} {i : Fin (n+1)} {d : List (EPoly (n+1) F) × Poly (n+1) F}
    (hv : Valid (names.map i.succAbove) i d.1 d.2) (k : ℕ) (x : Fin (n+1) → ℂ) :
    integrand φ names (laterTerm d i k).polys (laterTerm d i k).numerator (fun j => x (i.succAbove j)) =
      integrand φ (names.map i.succAbove) d.1 d.2 (Function.update x i 0) / (k.factorial : ℂ) := by
  set z : Fin n → ℂ := fun j => x (i.succAbove j) with hz
  rw [integrand_eq, integrand_eq]
  have hb : ∀ p ∈ d.1, pev φ z (simplifyUnlessConst ⟨p.base.replaceRemove i 0, p.exponent.replaceRemove i 0⟩).base =
      pev φ (Function.update x i 0) p.base := by
    intro p hp
    rw [(simplifyUnlessConst_val _ z).1, ← insertNth_update]
    exact pev_replaceRemove z (hv.base_nonneg p hp) i
  have he : ∀ p ∈ d.1, pev φ z (simplifyUnlessConst ⟨p.base.replaceRemove i 0, p.exponent.replaceRemove i 0⟩).exponent =
      pev φ (Function.update x i 0) p.exponent := by
    intro p hp
    rw [(simplifyUnlessConst_val _ z).2, ← insertNth_update]
    exact pev_replaceRemove z (hv.exponent_nonneg p hp) i
  have h1 : ((laterTerm d i k).polys.map (fun p => pev φ z p.base ^ pev φ z p.exponent)) =
      d.1.map (fun p => pev φ (Function.update x i 0) p.base ^ pev φ (Function.update x i 0) p.exponent) := by
    simp only [laterTerm, replaceTerm, List.map_map]
    refine List.map_congr_left fun p hp => ?_
    simp only [Function.comp_apply]
    rw [hb p hp, he p hp]
  have h2 : bvals φ (laterTerm d i k).polys z = bvals φ d.1 (Function.update x i 0) := by
    simp only [bvals, laterTerm, replaceTerm, List.map_map]
    refine List.map_congr_left fun p hp => ?_
    simp only [Function.comp_apply]
    rw [hb p hp]
  rw [h1, h2]
  have h3 : pev φ (withNames names (bvals φ d.1 (Function.update x i 0)) z) (laterTerm d i k).numerator =
      pev φ (withNames (names.map i.succAbove) (bvals φ d.1 (Function.update x i 0)) (Function.update x i 0)) d.2 /
        (k.factorial : ℂ) := by
    simp only [laterTerm, replaceTerm]
    rw [pev_simplify, pev_replaceRemove _ (nonneg_mulScalar hv.numerator_nonneg _), insertNth_withNames,
      pev_mulScalar]
    simp [div_eq_mul_inv]
  rw [h3]
  ring

/-- the value of the term of order zero -/
theorem firstTerm_val {names : List (Fin n)} {i : Fin (n+1)} {ps : List (EPoly (n+1) F)} {N : Poly (n+1) F}
    (hv : Valid (names.map i.succAbove) i ps N)
    (hz : ∀ q ∈ ps.zip (names.map i.succAbove), (∃ e, q.1.exponent.coeffOf e ≠ 0) ∨ Indep N q.2) (x : Fin (n+1) → ℂ)
    (hne : ∀ p ∈ ps, pev φ (Function.update x i 0) p.base ≠ 0) :
    integrand φ names (firstTerm ps N i).polys (firstTerm ps N i).numerator (fun j => x (i.succAbove j)) =
      integrand φ (names.map i.succAbove) ps N (Function.update x i 0) := by
  set z : Fin n → ℂ := fun j => x (i.succAbove j) with hzd
  rw [integrand_eq, integrand_eq]
  set Q : EPoly (n+1) F → EPoly n F := fun p => ⟨p.base.replaceRemove i 0, p.exponent.replaceRemove i 0⟩ with hQ
  have hb0 : ∀ p ∈ ps, pev φ z (Q p).base = pev φ (Function.update x i 0) p.base := by
    intro p hp
    rw [← insertNth_update]
    exact pev_replaceRemove z (hv.base_nonneg p hp) i
  have he0 : ∀ p ∈ ps, ∀ z', pev φ z' (Q p).exponent = pev φ (i.insertNth 0 z' : Fin (n+1) → ℂ) p.exponent := by
    intro p hp z'
    exact pev_replaceRemove z' (hv.exponent_nonneg p hp) i
  -- a nonzero exponent stays nonzero
  have hnz : ∀ p ∈ ps, (∃ e, p.exponent.coeffOf e ≠ 0) → (Q p).exponent.simplify ≠ zeroPoly := by
    intro p hp ⟨e, he⟩ h0
    obtain ⟨y, hy⟩ := exists_ne_zero (φ := φ) (hv.exponent_nonneg p hp) he
    have h1 := he0 p hp (fun j => y (i.succAbove j))
    rw [insertNth_update, indep_update (hv.exponent_param p hp), ← pev_simplify, h0, pev_zero] at h1
    exact hy h1.symm
  have h1 : ((firstTerm ps N i).polys.map (fun p => pev φ z p.base ^ pev φ z p.exponent)) =
      ps.map (fun p => pev φ (Function.update x i 0) p.base ^ pev φ (Function.update x i 0) p.exponent) := by
    simp only [firstTerm, replaceTerm, List.map_map]
    refine List.map_congr_left fun p hp => ?_
    simp only [Function.comp_apply]
    by_cases h0 : (Q p).exponent.simplify = zeroPoly
    · rw [simplifyInPlace_zero (Q p) h0]
      have h2 : pev φ (Function.update x i 0) p.exponent = 0 := by
        rw [← insertNth_update, ← he0 p hp, ← pev_simplify, h0, pev_zero]
      have h3 : pev φ z (⟨[(fun _ => 0, 1)]⟩ : Poly n F) = 1 := by simp [pev, Subtraction.mono_zero']
      simp only [h3]
      rw [h2]; simp
    · rw [(simplifyInPlace_val (Q p) h0 z).1, (simplifyInPlace_val (Q p) h0 z).2, hb0 p hp, he0 p hp, insertNth_update]
  rw [h1]
  have h3 : pev φ (withNames names (bvals φ (firstTerm ps N i).polys z) z) (firstTerm ps N i).numerator =
      pev φ (withNames (names.map i.succAbove) (bvals φ ps (Function.update x i 0)) (Function.update x i 0)) N := by
    simp only [firstTerm, replaceTerm]
    rw [pev_simplify, pev_replaceRemove _ hv.numerator_nonneg, insertNth_withNames]
    refine pev_congr fun k hk => ?_
    unfold withNames bvals
    rw [List.map_map, List.map_map]
    rw [lookup_congr _ ps _ (fun p => pev φ (Function.update x i 0) p.base)]
    intro q hq hqk
    have hqp : q.1 ∈ ps := (List.of_mem_zip (show (q.1, q.2) ∈ _ from hq)).1
    rcases hz q hq with h | h
    · simp only [Function.comp_apply]
      rw [← hb0 q.1 hqp]
      exact (simplifyInPlace_val (Q q.1) (hnz q.1 hqp h) z).1
    · rw [hqk] at h; exact absurd h hk
  rw [h3]

/-! ### the loop -/

/-- iterated `derive_prod` -/
def nthD (i : Fin n) (names : List (Fin n)) (d : List (EPoly n F) × Poly n F) : ℕ → List (EPoly n F) × Poly n F
  | 0 => d
  | k+1 => (deriveProd (nthD i names d k).1 (nthD i names d k).2 i names).getD d

theorem nthD_spec {names : List (Fin n)} {i : Fin n} {ps : List (EPoly n F)} {N : Poly n F}
    (hv : Valid names i ps N) (k : ℕ) :
    Valid names i (nthD i names (ps, N) k).1 (nthD i names (ps, N) k).2 ∧
    deriveProd (nthD i names (ps, N) k).1 (nthD i names (ps, N) k).2 i names = some (nthD i names (ps, N) (k+1)) ∧
    (nthD i names (ps, N) k).1.map (·.base) = ps.map (·.base) := by
  induction k with
  | zero =>
    refine ⟨hv, ?_, rfl⟩
    obtain ⟨N', e1, -⟩ := deriveProd_valid hv
    have e2 : nthD i names (ps, N) (0+1) = (ps.map (fun p => ⟨p.base, p.exponent.subScalar 1⟩), N') := by
      rw [nthD]; simp only [nthD, e1, Option.getD_some]
    rw [e2]; exact e1
  | succ k ih =>
    obtain ⟨h1, h2, h3⟩ := ih
    have hkey : Valid names i (nthD i names (ps, N) (k+1)).1 (nthD i names (ps, N) (k+1)).2 ∧
        (nthD i names (ps, N) (k+1)).1.map (·.base) = ps.map (·.base) := by
      have hsp : ∃ N', deriveProd (nthD i names (ps, N) k).1 (nthD i names (ps, N) k).2 i names =
          some ((nthD i names (ps, N) k).1.map (fun p => ⟨p.base, p.exponent.subScalar 1⟩), N') ∧
          Valid names i ((nthD i names (ps, N) k).1.map (fun p => ⟨p.base, p.exponent.subScalar 1⟩)) N' :=
        deriveProd_valid h1
      obtain ⟨N', e1, e2⟩ := hsp
      rw [h2] at e1
      have e1' := Option.some.inj e1
      rw [e1']
      refine ⟨e2, ?_⟩
      rw [← h3, List.map_map]; rfl
    refine ⟨hkey.1, ?_, hkey.2⟩
    obtain ⟨N', e1, -⟩ := deriveProd_valid hkey.1
    have e2 : nthD i names (ps, N) (k+1+1) =
        ((nthD i names (ps, N) (k+1)).1.map (fun p => ⟨p.base, p.exponent.subScalar 1⟩), N') := by
      rw [nthD]; rw [e1, Option.getD_some]
    rw [e2]; exact e1

theorem laterTerms_spec {names : List (Fin (n+1))} {i : Fin (n+1)} {ps : List (EPoly (n+1) F)} {N : Poly (n+1) F}
    (hv : Valid names i ps N) : ∀ fuel k, laterTerms i names fuel k (nthD i names (ps, N) k) =
      some ((List.range' k fuel).map (fun m => laterTerm (nthD i names (ps, N) m) i m)) := by
  intro fuel
  induction fuel with
  | zero => intro k; rfl
  | succ fuel ih =>
    intro k
    rw [laterTerms, (nthD_spec hv k).2.1]
    simp only [Option.bind_eq_bind, Option.bind_some, ih (k+1), List.range'_succ, List.map_cons]

theorem expandRegion_spec {names : List (Fin (n+1))} {i : Fin (n+1)} {ps : List (EPoly (n+1) F)} {N : Poly (n+1) F}
    (hv : Valid names i ps N) {order : ℤ} (ho : 0 ≤ order) : expandRegion ps N i order names =
      some (firstTerm ps N i :: (List.range' 1 order.toNat).map (fun m => laterTerm (nthD i names (ps, N) m) i m)) := by
  rw [expandRegion, if_neg (by omega)]
  have h0 := (nthD_spec hv 0).2.1
  simp only [nthD] at h0
  have h1 := laterTerms_spec hv order.toNat 1
  simp only [nthD] at h1
  rw [h0]
  simp only [Option.bind_eq_bind, Option.bind_some]
  rw [h1]; rfl

theorem slit_open {i : Fin n} (ps : List (EPoly n F)) (hb : ∀ p ∈ ps, NonNeg p.base) (x : Fin n → ℂ) :
    IsOpen {s : ℂ | ∀ p ∈ ps, pev φ (Function.update x i s) p.base ∈ Complex.slitPlane} := by
  induction ps with
  | nil => simp
  | cons p ps ih =>
    have h1 : IsOpen {s : ℂ | pev φ (Function.update x i s) p.base ∈ Complex.slitPlane} := by
      refine Complex.isOpen_slitPlane.preimage ?_
      exact continuous_iff_continuousAt.2 fun s => (pev_derive' (φ := φ) x (hb p (by simp)) i s).continuousAt
    have h2 := h1.inter (ih (fun q hq => hb q (by simp [hq])))
    convert h2 using 1
    ext s; simp

/-- the derivatives of the integrand near zero -/
theorem integrand_taylor {names : List (Fin n)} {i : Fin n} {ps : List (EPoly n F)} {N : Poly n F}
    (hv : Valid names i ps N) (x : Fin n → ℂ)
    (hs : ∀ p ∈ ps, pev φ (Function.update x i 0) p.base ∈ Complex.slitPlane) :
    AnalyticAt ℂ (fun s => integrand φ names ps N (Function.update x i s)) 0 ∧
    ∀ k, iteratedDeriv k (fun s => integrand φ names ps N (Function.update x i s)) 0 =
      integrand φ names (nthD i names (ps, N) k).1 (nthD i names (ps, N) k).2 (Function.update x i 0) := by
  set U : Set ℂ := {s : ℂ | ∀ p ∈ ps, pev φ (Function.update x i s) p.base ∈ Complex.slitPlane} with hU
  have hUo : IsOpen U := slit_open ps hv.base_nonneg x
  have h0 : (0:ℂ) ∈ U := hs
  have hchain : ∀ k, ∀ s ∈ U, HasDerivAt
      (fun s => integrand φ names (nthD i names (ps, N) k).1 (nthD i names (ps, N) k).2 (Function.update x i s))
      (integrand φ names (nthD i names (ps, N) (k+1)).1 (nthD i names (ps, N) (k+1)).2 (Function.update x i s)) s := by
    intro k s hsU
    obtain ⟨h1, h2, h3⟩ := nthD_spec hv k
    obtain ⟨N', e1, -, e2⟩ := deriveProd_hasDerivAt (φ := φ) h1
    rw [h2] at e1
    rw [Option.some.inj e1]
    refine e2 x s ?_
    intro p hp
    have hm : p.base ∈ ps.map (·.base) := h3 ▸ List.mem_map.2 ⟨p, hp, rfl⟩
    obtain ⟨q, hq, hqe⟩ := List.mem_map.1 hm
    rw [← hqe]; exact hsU q hq
  refine ⟨?_, fun k => iteratedDeriv_of_chain hUo hchain k 0 h0⟩
  have hd : DifferentiableOn ℂ (fun s => integrand φ names ps N (Function.update x i s)) U :=
    fun s hsU => (hchain 0 s hsU).differentiableAt.differentiableWithinAt
  exact hd.analyticAt (hUo.mem_nhds h0)

end Regions
end SecDec
