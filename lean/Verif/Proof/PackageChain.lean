import Verif.Proof.PackageReg
import Verif.Props.Squash
import Verif.Props.MatrixSort
import Verif.Props.Decomp
import Verif.Props.Primary
import Verif.Props.Hull
import Mathlib.Analysis.Complex.Cardinality
/-
From the integral with the Dirac delta to the sectors.
-/
namespace SecDec
namespace Package
open Squash Decomp Sector Expansion Set Subtraction LeadingOrder MatrixSort MeasureTheory Filter
variable {n : ℕ}

/-- The function of the values of the polynomials which is integrated. -/
noncomputable def Fz (z : ℂ) (c : List (ℝ × Option (Poly 1 ℚ))) (_ : List (ℝ × Option (Poly 1 ℚ))) : ℂ :=
  (c.map fun v => ((v.1 : ℝ) : ℂ) ^ exponentAt (v.2.getD ⟨[((fun _ => 0), 1)]⟩) z).prod

/-- What is kept by all steps. -/
structure Core (Q : Poly 1 ℚ → Prop) (m : ℕ) (s : Squash.Sector n ℝ (Poly 1 ℚ)) : Prop where
  jac : 0 < s.jac.2
  other : s.other = []
  len : s.cast.length = m
  mono : ∀ p ∈ s.cast, p.mono.2 = 1
  terms : ∀ p ∈ s.cast, ∀ t ∈ p.poly.terms, 0 < t.2
  exponent : ∀ p ∈ s.cast, Q (exponentOf p.poly)

variable {Q : Poly 1 ℚ → Prop} {m : ℕ}

theorem Core.pos {s : Squash.Sector n ℝ (Poly 1 ℚ)} (h : Core Q m s) (hr : Refactorized s) : Pos Q m s :=
  ⟨h.jac, h.other, h.len, h.mono, fun p hp => ⟨(hr p hp).1, fun t ht => ⟨h.terms p hp t ht, fun i => ((hr p hp).2 i).1 t ht⟩⟩, h.exponent⟩

theorem Core.nonZero {s : Squash.Sector n ℝ (Poly 1 ℚ)} (h : Core Q m s) (hr : Refactorized s) : NonZero s := by
  refine ⟨fun p hp => ⟨by rw [h.mono p hp]; exact one_ne_zero, ?_⟩, by simp [h.other]⟩
  obtain ⟨t, ht⟩ := List.exists_mem_of_ne_nil _ (hr p hp).1
  exact ⟨t, ht, (h.terms p hp t ht).ne'⟩

theorem Core.sameShape {s t : Squash.Sector n ℝ (Poly 1 ℚ)} (h : Core Q m s) (h' : Core Q m t) : SameShape s t :=
  ⟨by rw [h.len, h'.len], by rw [h.other, h'.other]⟩

/-! ### constructor -/

theorem refactorizeAll_mem {p : SPoly n ℝ (Poly 1 ℚ)} {q : SProd n ℝ (Poly 1 ℚ)} (h : refactorizeAll p = some q) :
    q.mono.2 = 1 ∧ q.poly.exponent = p.exponent ∧ ∀ t ∈ q.poly.terms, ∃ u ∈ p.terms, u.2 = t.2 := by
  unfold refactorizeAll Poly.refactorizeMethod Poly.refactorize at h
  rw [Option.bind_eq_some_iff] at h
  obtain ⟨r, hr, hq⟩ := h
  obtain ⟨k, h1, _, h3, h4⟩ := Poly.foldlM_refactorizeOne _ _ _ hr
  simp only [h3, Poly.shiftBy, List.map_cons, List.map_nil, List.head?_cons, Option.map_some, Option.some.injEq] at hq
  subst hq
  refine ⟨rfl, rfl, ?_⟩
  intro t ht
  simp only [h4, Poly.shiftBy] at ht
  obtain ⟨u, hu, rfl⟩ := List.mem_map.1 ht
  exact ⟨u, hu, rfl⟩

theorem mkSector_core {polys : List (SPoly (n + 1) ℝ (Poly 1 ℚ))} (hE : Euclidean polys) (hQ : ∀ p ∈ polys, Q (exponentOf p))
    {s : Squash.Sector (n + 1) ℝ (Poly 1 ℚ)} (h : mkSector polys [] = some s) : Core Q polys.length s ∧ Refactorized s ∧ s.jac = (fun _ => 0, 1) ∧
      ∀ x : Fin (n + 1) → ℝ, (∀ i, x i ≠ 0) → (s.value x).cast = polys.map (fun p => (p.eval x, p.exponent)) := by
  obtain ⟨h1, h2, h3, h4⟩ := C16_constructor_refactorizes (Nat.succ_pos n) polys [] _ s h
  refine ⟨?_, h1, h2, h4⟩
  unfold mkSector at h
  split_ifs at h
  rw [Option.map_eq_some_iff] at h
  obtain ⟨c, hc, rfl⟩ := h
  have hc := mapM_option_forall₂ hc
  have hmem : ∀ q ∈ c, ∃ p ∈ polys, refactorizeAll p = some q := by
    intro q hq
    obtain ⟨i, hi, rfl⟩ := List.mem_iff_getElem.1 hq
    have hl := hc.length_eq
    exact ⟨_, List.getElem_mem (l := polys) (n := i) (by omega), (List.forall₂_iff_get.1 hc).2 i (by omega) hi⟩
  refine ⟨one_pos, rfl, hc.length_eq.symm, ?_, ?_, ?_⟩
  · intro q hq
    obtain ⟨p, hp, hpq⟩ := hmem q hq
    exact (refactorizeAll_mem hpq).1
  · intro q hq t ht
    obtain ⟨p, hp, hpq⟩ := hmem q hq
    obtain ⟨u, hu, e⟩ := (refactorizeAll_mem hpq).2.2 t ht
    rw [← e]
    exact ((hE p hp).2.1 u hu).1
  · intro q hq
    obtain ⟨p, hp, hpq⟩ := hmem q hq
    have : exponentOf q.poly = exponentOf p := by unfold exponentOf; rw [(refactorizeAll_mem hpq).2.1]
    rw [this]; exact hQ p hp

theorem refactorizeAll_terms {p : SPoly n ℝ (Poly 1 ℚ)} {q : SProd n ℝ (Poly 1 ℚ)} (h : refactorizeAll p = some q) :
    ∃ k : Expo n, q.poly.terms = p.terms.map fun t => (t.1 + k, t.2) := by
  unfold refactorizeAll Poly.refactorizeMethod Poly.refactorize at h
  rw [Option.bind_eq_some_iff] at h
  obtain ⟨r, hr, hq⟩ := h
  obtain ⟨k, h1, _, h3, h4⟩ := Poly.foldlM_refactorizeOne _ _ _ hr
  simp only [h3, Poly.shiftBy, List.map_cons, List.map_nil, List.head?_cons, Option.map_some, Option.some.injEq] at hq
  subst hq
  exact ⟨-k, by simp only [h4, Poly.shiftBy]⟩

theorem mkSector_terms {polys : List (SPoly (n + 1) ℝ (Poly 1 ℚ))} {s : Squash.Sector (n + 1) ℝ (Poly 1 ℚ)} (h : mkSector polys [] = some s) :
    s.cast.length = polys.length ∧ ∀ q ∈ s.cast, ∃ p ∈ polys, ∃ k : Expo (n + 1), q.poly.terms = p.terms.map fun t => (t.1 + k, t.2) := by
  unfold mkSector at h
  split_ifs at h
  rw [Option.map_eq_some_iff] at h
  obtain ⟨c, hc, rfl⟩ := h
  have hc := mapM_option_forall₂ hc
  refine ⟨hc.length_eq.symm, fun q hq => ?_⟩
  replace hq : q ∈ c := hq
  obtain ⟨i, hi, rfl⟩ := List.mem_iff_getElem.1 hq
  have hl := hc.length_eq
  exact ⟨_, List.getElem_mem (l := polys) (n := i) (by omega), refactorizeAll_terms ((List.forall₂_iff_get.1 hc).2 i (by omega) hi)⟩

/-! ### primary decomposition -/

theorem primary_core {s : Squash.Sector (n + 1) ℝ (Poly 1 ℚ)} (h : Core Q m s) (hr : Refactorized s) (i : Fin (n + 1)) :
    Core Q m (Sector.mapExpo (deleteCol i) s) ∧ Refactorized (Sector.mapExpo (deleteCol i) s) := by
  refine ⟨⟨h.jac, by simp [Sector.mapExpo, h.other], by simp [Sector.mapExpo, h.len], ?_, ?_, ?_⟩, ?_⟩
  · intro q hq
    obtain ⟨p, hp, rfl⟩ := List.mem_map.1 hq
    exact h.mono p hp
  · intro q hq t ht
    obtain ⟨p, hp, rfl⟩ := List.mem_map.1 hq
    obtain ⟨u, hu, rfl⟩ := List.mem_map.1 ht
    exact h.terms p hp u hu
  · intro q hq
    obtain ⟨p, hp, rfl⟩ := List.mem_map.1 hq
    exact h.exponent p hp
  · intro q hq
    obtain ⟨p, hp, rfl⟩ := List.mem_map.1 hq
    refine ⟨by simpa using (hr p hp).1, fun k => ⟨fun t ht => ?_, ?_⟩⟩
    · obtain ⟨u, hu, rfl⟩ := List.mem_map.1 ht
      exact ((hr p hp).2 (i.succAbove k)).1 u hu
    · obtain ⟨u, hu, h0⟩ := ((hr p hp).2 (i.succAbove k)).2
      exact ⟨_, List.mem_map.2 ⟨u, hu, rfl⟩, h0⟩

/-! ### symmetries -/

theorem prune_mem (P : Squash.Sector n ℝ (Poly 1 ℚ) → Prop) (hadd : ∀ s t, P s → P t → P (addJac s t))
    (rest : List (Mat × Squash.Sector n ℝ (Poly 1 ℚ))) (st : Prune n ℝ (Poly 1 ℚ)) (hst : (∀ s ∈ st.done, P s) ∧ P st.cur)
    (hrest : ∀ x ∈ rest, P x.2) : (∀ s ∈ (rest.foldl pruneStep st).done, P s) ∧ P (rest.foldl pruneStep st).cur := by
  induction rest generalizing st with
  | nil => exact hst
  | cons x rest ih =>
    rw [List.foldl_cons]
    refine ih _ ?_ fun y hy => hrest y (by simp [hy])
    unfold pruneStep
    by_cases hx : x.1 = st.arr
    · rw [if_pos hx]; exact ⟨hst.1, hadd _ _ hst.2 (hrest x (by simp))⟩
    · rw [if_neg hx]
      refine ⟨fun s hs => ?_, hrest x (by simp)⟩
      rcases List.mem_append.1 hs with hs | hs
      · exact hst.1 s hs
      · rw [List.mem_singleton.1 hs]; exact hst.2

theorem squash_mem (P : Squash.Sector n ℝ (Poly 1 ℚ) → Prop) (hadd : ∀ s t, P s → P t → P (addJac s t)) {hash : TCoeff ℝ (Poly 1 ℚ) → Int}
    {fuel : ℕ} {f : Mat → Option Mat} {l out : List (Squash.Sector n ℝ (Poly 1 ℚ))} (hl : ∀ s ∈ l, P s) (h : squash hash fuel f l = some out) :
    ∀ s ∈ out, P s := by
  unfold squash squashWith at h
  rw [Option.bind_eq_some_iff] at h
  obtain ⟨arrays, ha, h⟩ := h
  obtain ⟨_, g, hinj, hfa⟩ := canonicalArrays_spec ha
  rw [zip_sorted arrays l hfa.length_eq.symm] at h
  have hperm := List.mergeSort_perm (arrays.zip l) (fun a b => rowLe a.1.flatten b.1.flatten)
  generalize (arrays.zip l).mergeSort (fun a b => rowLe a.1.flatten b.1.flatten) = L at h hperm
  have hL : ∀ x ∈ L, P x.2 := fun x hx => hl _ (List.of_mem_zip (hperm.mem_iff.1 hx)).2
  cases L with
  | nil => simp at h
  | cons x rest =>
    simp only [Option.some.injEq] at h
    subst h
    obtain ⟨h1, h2⟩ := prune_mem P hadd rest ⟨[], x.1, x.2⟩ ⟨by simp, hL x (by simp)⟩ fun y hy => hL y (by simp [hy])
    intro s hs
    rcases List.mem_append.1 hs with hs | hs
    · exact h1 s hs
    · rw [List.mem_singleton.1 hs]; exact h2

theorem addJac_core {s t : Squash.Sector n ℝ (Poly 1 ℚ)} (hs : Core Q m s) (ht : Core Q m t) : Core Q m (addJac s t) :=
  ⟨add_pos hs.jac ht.jac, hs.other, hs.len, hs.mono, hs.terms, hs.exponent⟩

theorem integrand_addJac (F : List (ℝ × Option (Poly 1 ℚ)) → List (ℝ × Option (Poly 1 ℚ)) → ℂ) (s t : Squash.Sector n ℝ (Poly 1 ℚ))
    (hs : s.jac.2 ≠ 0) : Decomp.integrand F (addJac s t) = fun x => ((s.jac.2 + t.jac.2) / s.jac.2) • Decomp.integrand F s x := by
  funext x
  unfold Decomp.integrand
  rw [smul_smul]
  congr 1
  show (s.jac.2 + t.jac.2) * (s.value x).jac = _
  field_simp

theorem squash_total (F : List (ℝ × Option (Poly 1 ℚ)) → List (ℝ × Option (Poly 1 ℚ)) → ℂ) {hash : TCoeff ℝ (Poly 1 ℚ) → Int}
    {fuel : ℕ} {f : Mat → Option Mat} (hf : OnlyPermutes (n + 1) f) {l out : List (Squash.Sector n ℝ (Poly 1 ℚ))}
    (hl : ∀ s ∈ l, Core Q m s ∧ Refactorized s) (h : squash hash fuel f l = some out) :
    (out.map fun s => cubeIntegral (Decomp.integrand F s)).sum = (l.map fun s => cubeIntegral (Decomp.integrand F s)).sum := by
  obtain ⟨e⟩ : Nonempty (ℂ ≃ ℝ) := Cardinal.eq.1 (by rw [Cardinal.mk_complex, Cardinal.mk_real])
  have hI : SymmetricIntegral (K := ℝ) (n := n) (fun g => ∫ x in oc n, e.symm (g x)) := by
    refine ⟨fun g g' hg => ?_, fun g π => ?_⟩
    · refine setIntegral_congr_fun measurableSet_oc fun x hx => ?_
      show e.symm (g x) = e.symm (g' x)
      rw [hg x fun i => (mem_oc.1 hx i).1.ne']
    · exact (pos_perm_integral π (oc n) (oc_comp π) fun x => e.symm (g x)).1
  have := C14_squash_preserves_total _ hI (fun v => e (v.jac • F v.cast v.other)) hash fuel f hf l out
    (fun s hs => (hl s hs).1.nonZero (hl s hs).2) (fun s hs t ht => (hl s hs).1.sameShape (hl t ht).1) h
  have hw : ∀ s : Squash.Sector n ℝ (Poly 1 ℚ), cubeIntegral (Decomp.integrand F s) =
      s.jac.2 • ∫ x in oc n, e.symm (e ((s.value x).jac • F (s.value x).cast (s.value x).other)) := by
    intro s
    rw [cubeIntegral_eq, ← integral_smul]
    congr 1
    funext x
    rw [Equiv.symm_apply_apply, smul_smul]
    rfl
  simp only [hw]
  exact this

theorem iterative_permutes {k fuel : ℕ} {M R : Mat} (hM : HasCols k M) (h : iterativeSort k fuel M = some R) : SameUpToPermutation k M R := by
  induction fuel generalizing M with
  | zero => simp [iterativeSort] at h
  | succ fuel ih =>
    rw [iterativeSort] at h
    have h1 := iterPass_same hM
    by_cases hc : (iterPass k M).1 = List.range M.length ∧ (iterPass k M).2.1 = List.range (k - 1)
    · rw [if_pos hc, Option.some.injEq] at h
      rw [← h]; exact h1
    · rw [if_neg hc] at h
      exact PermutedBy.trans fixesFirst_mul h1 (ih h1.hasCols h)

theorem passes_permute (o : Options) : ∀ f ∈ passes n o, OnlyPermutes (n + 1) f := by
  intro f hf M R hM h
  unfold passes at hf
  simp only [List.mem_append] at hf
  rcases hf with (hf | hf) | hf
  · split_ifs at hf
    · rw [List.mem_singleton.1 hf] at h; exact iterative_permutes hM h
    · simp at hf
  · split_ifs at hf
    · rw [List.mem_singleton.1 hf] at h
      obtain ⟨R', h', hR⟩ := C13_light_only_permutes (n := n + 1) (Nat.succ_pos n) hM
      beta_reduce at h
      rw [h', Option.some.injEq] at h
      rw [← h]; exact hR
    · simp at hf
  · split_ifs at hf
    · rw [List.mem_singleton.1 hf] at h
      obtain ⟨R', h', hR⟩ := C13_pak_only_permutes hM
      beta_reduce at h
      rw [h', Option.some.injEq] at h
      rw [← h]; exact hR
    · simp at hf

/-- One reduction. -/
theorem reduce_spec {o : Options} {l out : List (Squash.Sector n ℝ (Poly 1 ℚ))} (P : Squash.Sector n ℝ (Poly 1 ℚ) → Prop)
    (hadd : ∀ s t, P s → P t → P (addJac s t)) (hP : ∀ s, P s → Core Q m s ∧ Refactorized s) (hl : ∀ s ∈ l, P s) (h : reduceSectors o l = some out) :
    (∀ s ∈ out, P s) ∧ ∀ F : List (ℝ × Option (Poly 1 ℚ)) → List (ℝ × Option (Poly 1 ℚ)) → ℂ,
      (∀ s ∈ l, CubeIntegrable (Decomp.integrand F s)) → (∀ s ∈ out, CubeIntegrable (Decomp.integrand F s)) ∧
      (out.map fun s => cubeIntegral (Decomp.integrand F s)).sum = (l.map fun s => cubeIntegral (Decomp.integrand F s)).sum := by
  unfold reduceSectors at h
  have hp := passes_permute (n := n) o
  generalize passes n o = fs at h hp
  induction fs generalizing l with
  | nil =>
    simp only [List.foldlM_nil, Option.pure_def, Option.some.injEq] at h
    subst h
    exact ⟨hl, fun F hF => ⟨hF, rfl⟩⟩
  | cons f fs ih =>
    rw [List.foldlM_cons, Option.bind_eq_bind, Option.bind_eq_some_iff] at h
    obtain ⟨l', h1, h2⟩ := h
    have hl' := squash_mem P hadd hl h1
    obtain ⟨h3, h4⟩ := ih hl' h2 fun g hg => hp g (by simp [hg])
    refine ⟨h3, fun F hF => ?_⟩
    have hF' : ∀ s ∈ l', CubeIntegrable (Decomp.integrand F s) := by
      intro s hs
      refine (squash_mem (fun s => P s ∧ CubeIntegrable (Decomp.integrand F s)) ?_ (fun s hs => ⟨hl s hs, hF s hs⟩) h1 s hs).2
      rintro s t ⟨hs1, hs2⟩ ⟨ht1, _⟩
      refine ⟨hadd s t hs1 ht1, ?_⟩
      rw [integrand_addJac F s t (hP s hs1).1.jac.ne']
      exact Integrable.smul ((s.jac.2 + t.jac.2) / s.jac.2) hs2
    obtain ⟨h5, h6⟩ := h4 F hF'
    exact ⟨h5, h6.trans (squash_total F (hp f (by simp)) (fun s hs => hP s (hl s hs)) h1)⟩

/-! ### secondary decomposition -/

theorem subsector_core {s t : Squash.Sector n ℝ (Poly 1 ℚ)} {S : List (Fin n)} (hs : Core Q m s) (h : subsector s S = .ok t) : Core Q m t := by
  unfold subsector at h
  cases S with
  | nil => simp at h
  | cons a rest =>
    simp only at h
    split at h
    · cases h
    · rename_i cast hc
      cases h
      have hc := mapM_option_forall₂ hc
      rw [List.forall₂_map_left_iff] at hc
      have hmem : ∀ q ∈ cast, ∃ p ∈ s.cast, q.mono.2 = p.mono.2 ∧ q.poly.exponent = p.poly.exponent ∧ ∀ t ∈ q.poly.terms, ∃ u ∈ p.poly.terms, u.2 = t.2 := by
        intro q hq
        obtain ⟨k, hk, rfl⟩ := List.mem_iff_getElem.1 hq
        have hl := hc.length_eq
        have h0 := List.forall₂_iff_get.1 hc |>.2 k (by omega) hk
        refine ⟨_, List.getElem_mem (l := s.cast) (n := k) (by omega), ?_⟩
        simp only [List.get_eq_getElem] at h0
        unfold refactorizeAt at h0
        rw [Option.map_eq_some_iff] at h0
        obtain ⟨k', -, h0⟩ := h0
        rw [← h0]
        refine ⟨rfl, rfl, fun t ht => ?_⟩
        simp only [remapTerms, List.map_map] at ht
        obtain ⟨u, hu, rfl⟩ := List.mem_map.1 ht
        exact ⟨u, hu, rfl⟩
      refine ⟨hs.jac, by simp [hs.other], by rw [← hc.length_eq]; exact hs.len, ?_, ?_, ?_⟩
      · intro q hq
        obtain ⟨p, hp, e, -⟩ := hmem q hq
        rw [e]; exact hs.mono p hp
      · intro q hq t ht
        obtain ⟨p, hp, -, -, e⟩ := hmem q hq
        obtain ⟨u, hu, e⟩ := e t ht
        rw [← e]; exact hs.terms p hp u hu
      · intro q hq
        obtain ⟨p, hp, -, e, -⟩ := hmem q hq
        have : exponentOf q.poly = exponentOf p.poly := by unfold exponentOf; rw [e]
        rw [this]; exact hs.exponent p hp

theorem iterative_spec {depth : ℕ} {s : Squash.Sector n ℝ (Poly 1 ℚ)} {ts : List (Squash.Sector n ℝ (Poly 1 ℚ))} (hs : Core Q m s) (hr : Refactorized s)
    (he : iterativeDecomposition (List.finRange n) depth s = some (.ok ts)) : (∀ t ∈ ts, Core Q m t ∧ Refactorized t ∧ StandardForm (List.finRange n) t) ∧
      ∀ F : List (ℝ × Option (Poly 1 ℚ)) → List (ℝ × Option (Poly 1 ℚ)) → ℂ, CubeIntegrable (Decomp.integrand F s) →
        (∀ t ∈ ts, CubeIntegrable (Decomp.integrand F t)) ∧
        (ts.map fun t => cubeIntegral (Decomp.integrand F t)).sum = cubeIntegral (Decomp.integrand F s) := by
  obtain ⟨ts', e, hst⟩ := C16_iterative_decomposition_standard_form s _ (List.nodup_finRange n) hr depth _ he
  cases e
  have hcore : Core Q m s → ∀ t ∈ ts, Core Q m t := by
    refine iterative_induction (fun s ts => Core Q m s → ∀ t ∈ ts, Core Q m t) (List.finRange n) ?_ ?_ depth s ts he
    · intro s _ hs; simpa using hs
    · intro s subs rs hstep hrec hs
      have hsubs : ∀ t ∈ subs, Core Q m t := by
        unfold iterationStep at hstep
        cases hS : findSingularSet s (List.finRange n) with
        | error e => simp [hS, Except.bind] at hstep
        | ok S =>
          simp only [hS, Except.bind] at hstep
          have hf := mapM_except_forall₂ hstep
          intro t ht
          obtain ⟨i, hi, rfl⟩ := List.mem_iff_getElem.1 ht
          have hl := hf.length_eq
          exact subsector_core hs (List.forall₂_iff_get.1 hf |>.2 i (by omega) hi)
      clear * - hsubs hrec
      induction hrec with
      | nil => simp
      | cons hp _ ih =>
        intro t ht
        rw [List.flatten_cons, List.mem_append] at ht
        rcases ht with ht | ht
        · exact hp (hsubs _ (by simp)) t ht
        · exact ih (fun t ht => hsubs t (by simp [ht])) t ht
  exact ⟨fun t ht => ⟨hcore hs t ht, (hst t ht).2, (hst t ht).1⟩,
    fun F hF => C15_iterative_decomposition_preserves_integral s _ (List.nodup_finRange n) depth ts he F hF⟩

/-- What a geometric decomposition needs of a sector. -/
def Prepared (o : Options) (s : Squash.Sector n ℝ (Poly 1 ℚ)) : Prop :=
  o.method = .iterative ∨ (0 < n ∧ s.cast ≠ [] ∧ ∀ p ∈ s.cast, (p.poly.terms.map (·.1)).Nodup)

theorem refactorizeProd_keeps {p q : SProd n ℝ (Poly 1 ℚ)} (h : Geometric.refactorizeProd p = some q) :
    q.mono.2 = p.mono.2 ∧ q.poly.exponent = p.poly.exponent := by
  unfold Geometric.refactorizeProd at h
  generalize List.finRange n = l at h
  induction l generalizing p with
  | nil =>
    simp only [List.foldlM_nil, Option.pure_def, Option.some.injEq] at h
    rw [h]; exact ⟨rfl, rfl⟩
  | cons i l ih =>
    rw [List.foldlM_cons, Option.bind_eq_bind, Option.bind_eq_some_iff] at h
    obtain ⟨r, h1, h2⟩ := h
    obtain ⟨a, b⟩ := ih h2
    unfold refactorizeAt at h1
    rw [Option.map_eq_some_iff] at h1
    obtain ⟨k, -, h1⟩ := h1
    rw [a, b, ← h1]
    exact ⟨rfl, rfl⟩

theorem makeSectorKu_core {s t : Squash.Sector n ℝ (Poly 1 ℚ)} {T : Matrix (Fin n) (Fin n) Int} (hs : Core Q m s) (hT : T.det ≠ 0)
    (h : Geometric.makeSectorKu s T = some t) : Core Q m t := by
  unfold Geometric.makeSectorKu at h
  simp only [Option.map_eq_some_iff] at h
  obtain ⟨cast, hc, rfl⟩ := h
  replace hc := mapM_option_forall₂ hc
  have hlen : s.cast.length = cast.length := by rw [← hc.length_eq]; simp [Sector.mapExpo]
  have key : ∀ q ∈ cast, ∃ p ∈ s.cast, Geometric.refactorizeProd (R := ℝ) (E := Poly 1 ℚ)
      ⟨(Geometric.transformExpo T p.mono.1, p.mono.2), ⟨p.poly.terms.map (fun t => (Geometric.transformExpo T t.1, t.2)), p.poly.exponent⟩⟩ = some q := by
    intro q hq
    obtain ⟨i, hi, rfl⟩ := List.mem_iff_getElem.1 hq
    have h1 := hc.get (i := i) (by simp only [Sector.mapExpo, List.length_map]; omega) hi
    refine ⟨s.cast[i]'(by omega), List.getElem_mem _, ?_⟩
    simpa [Sector.mapExpo] using h1
  refine ⟨?_, by simp [Sector.mapExpo, hs.other], by rw [← hlen]; exact hs.len, ?_, ?_, ?_⟩
  · show 0 < s.jac.2 * ((|T.det| : Int) : ℝ)
    exact mul_pos hs.jac (by exact_mod_cast abs_pos.2 hT)
  · intro q hq
    obtain ⟨p, hp, h2⟩ := key q hq
    rw [(refactorizeProd_keeps h2).1]; exact hs.mono p hp
  · intro q hq t ht
    obtain ⟨p, hp, h2⟩ := key q hq
    obtain ⟨k, hk, -⟩ := Geometric.refactorizeProd_shape h2
    rw [hk] at ht
    simp only [List.map_map] at ht
    obtain ⟨u, hu, rfl⟩ := List.mem_map.1 ht
    exact hs.terms p hp u hu
  · intro q hq
    obtain ⟨p, hp, h2⟩ := key q hq
    have : exponentOf q.poly = exponentOf p.poly := by unfold exponentOf; rw [(refactorizeProd_keeps h2).2]
    rw [this]; exact hs.exponent p hp

theorem secondary_spec {o : Options} {s : Squash.Sector n ℝ (Poly 1 ℚ)} {ts : List (Squash.Sector n ℝ (Poly 1 ℚ))} (hs : Core Q m s) (hr : Refactorized s)
    (hp : Prepared o s) (hz : NormalizCorrect o s) (h : secondary o s = some ts) :
    (∀ t ∈ ts, Core Q m t ∧ Refactorized t ∧ StandardForm (List.finRange n) t) ∧
      ∀ F : List (ℝ × Option (Poly 1 ℚ)) → List (ℝ × Option (Poly 1 ℚ)) → ℂ, IntegrableOn (Decomp.integrand F s) (region o) →
        (∀ t ∈ ts, CubeIntegrable (Decomp.integrand F t)) ∧
        (ts.map fun t => cubeIntegral (Decomp.integrand F t)).sum = ∫ x in region o, Decomp.integrand F s x := by
  unfold secondary at h
  unfold NormalizCorrect at hz
  unfold region
  dsimp only at hz
  have hne : ∀ p ∈ s.cast, p.poly.terms ≠ [] := fun p hp => (hr p hp).1
  cases hm : o.method with
  | iterative =>
    simp only [hm] at h ⊢
    split at h
    · rename_i ts' he
      simp only [Option.some.injEq] at h
      subst h
      exact iterative_spec hs hr he
    · cases h
  | geometric =>
    simp only [hm] at h hz ⊢
    obtain ⟨hn, hc, hd⟩ := hp.resolve_left (by rw [hm]; simp)
    have heq : ((o.normaliz n).polytope (Geometric.hullPoints (s.cast.map fun p => p.poly.terms.map (·.1)))).equations = [] := by
      unfold Geometric.geometricDecomposition at h
      dsimp only at h
      by_contra he
      rw [if_pos he] at h
      cases h
    obtain ⟨sec, h1, h2, -, h3⟩ := Geometric.hull_core s hc hne hd _ _ _ rfl hz.1 heq hz.2
    rw [h1, Option.some.injEq] at h
    subst h
    refine ⟨fun t ht => ?_, fun F hF => h3 F hF⟩
    obtain ⟨a, T, b, c⟩ := h2 t ht
    exact ⟨makeSectorKu_core hs b c, a.1, a.2⟩
  | geometricKu =>
    simp only [hm] at h hz ⊢
    obtain ⟨hn, hc, hd⟩ := hp.resolve_left (by rw [hm]; simp)
    obtain ⟨sec, h1, h2, -, h3⟩ := Geometric.ku_core hn s hc hne hd _ hz
    rw [h1, Option.some.injEq] at h
    subst h
    refine ⟨fun t ht => ?_, fun F hF => h3 F hF⟩
    obtain ⟨a, T, b, c⟩ := h2 t ht
    exact ⟨makeSectorKu_core hs b c, a.1, a.2⟩

theorem secondary_all {o : Options} {l : List (Squash.Sector n ℝ (Poly 1 ℚ))} {tss : List (List (Squash.Sector n ℝ (Poly 1 ℚ)))}
    (hl : ∀ s ∈ l, (Core Q m s ∧ Refactorized s ∧ Prepared o s) ∧ NormalizCorrect o s) (h : l.mapM (secondary o) = some tss) :
    (∀ t ∈ tss.flatten, Core Q m t ∧ Refactorized t ∧ StandardForm (List.finRange n) t) ∧
      ∀ F : List (ℝ × Option (Poly 1 ℚ)) → List (ℝ × Option (Poly 1 ℚ)) → ℂ, (∀ s ∈ l, IntegrableOn (Decomp.integrand F s) (region o)) →
        (∀ t ∈ tss.flatten, CubeIntegrable (Decomp.integrand F t)) ∧
        (tss.flatten.map fun t => cubeIntegral (Decomp.integrand F t)).sum = (l.map fun s => ∫ x in region o, Decomp.integrand F s x).sum := by
  replace h := mapM_option_forall₂ h
  induction h with
  | nil => simp
  | @cons s ts l tss h1 _ ih =>
    obtain ⟨i1, i2⟩ := ih fun s hs => hl s (by simp [hs])
    obtain ⟨⟨k1, k2, k3⟩, k4⟩ := hl s (by simp)
    obtain ⟨j1, j2⟩ := secondary_spec k1 k2 k3 k4 h1
    rw [List.flatten_cons]
    refine ⟨fun t ht => (List.mem_append.1 ht).elim (j1 t) (i1 t), fun F hF => ?_⟩
    obtain ⟨a1, a2⟩ := j2 F (hF s (by simp))
    obtain ⟨b1, b2⟩ := i2 F fun t ht => hF t (by simp [ht])
    refine ⟨fun t ht => (List.mem_append.1 ht).elim (a1 t) (b1 t), ?_⟩
    rw [List.map_append, List.sum_append, a2, b2, List.map_cons, List.sum_cons]

theorem secondarySectors_spec {o : Options} {l ss : List (Squash.Sector n ℝ (Poly 1 ℚ))}
    (hl : ∀ s ∈ l, (Core Q m s ∧ Refactorized s ∧ Prepared o s) ∧ NormalizCorrect o s) (h : secondarySectors o l = some ss) :
    (∀ s ∈ ss, Pos Q m s ∧ StandardForm (List.finRange n) s) ∧
      ∀ F : List (ℝ × Option (Poly 1 ℚ)) → List (ℝ × Option (Poly 1 ℚ)) → ℂ, (∀ s ∈ l, IntegrableOn (Decomp.integrand F s) (region o)) →
        (∀ t ∈ ss, CubeIntegrable (Decomp.integrand F t)) ∧
        (ss.map fun t => cubeIntegral (Decomp.integrand F t)).sum = (l.map fun s => ∫ x in region o, Decomp.integrand F s x).sum := by
  unfold secondarySectors at h
  rw [Option.bind_eq_some_iff] at h
  obtain ⟨tss, htss, h⟩ := h
  obtain ⟨d1, d2⟩ := secondary_all hl htss
  obtain ⟨e1, e2⟩ := reduce_spec (Q := Q) (m := m)
    (fun s => Core Q m s ∧ Refactorized s ∧ StandardForm (List.finRange n) s)
    (fun s t hs ht => ⟨addJac_core hs.1 ht.1, hs.2.1, hs.2.2⟩) (fun _ h => ⟨h.1, h.2.1⟩) d1 h
  refine ⟨fun s hs => ⟨(e1 s hs).1.pos (e1 s hs).2.1, (e1 s hs).2.2⟩, fun F hF => ?_⟩
  obtain ⟨i1, i2⟩ := d2 F hF
  obtain ⟨j1, j2⟩ := e2 F i1
  exact ⟨j1, by rw [j2, i2]⟩

/-! ### all steps -/

theorem initial_value {polys : List (SPoly (n + 1) ℝ (Poly 1 ℚ))} {s : Squash.Sector (n + 1) ℝ (Poly 1 ℚ)} (hj : s.jac = (fun _ => 0, 1))
    (hv : ∀ x : Fin (n + 1) → ℝ, (∀ i, x i ≠ 0) → (s.value x).cast = polys.map (fun p => (p.eval x, p.exponent))) (z : ℂ)
    {x : Fin (n + 1) → ℝ} (hx : ∀ i, 0 < x i) : Decomp.integrand (Fz z) s x = integrandAt polys z x := by
  unfold Decomp.integrand
  rw [hv x fun i => (hx i).ne']
  have h1 : (s.value x).jac = 1 := by simp [Squash.Sector.value, hj, Poly.mono]
  rw [h1, hj]
  simp only [mul_one, one_smul, Fz, integrandAt, List.map_map]
  rfl

theorem primary_prepared {o : Options} (hn : n ≠ 0) {polys : List (SPoly (n + 1) ℝ (Poly 1 ℚ))} {s : Squash.Sector (n + 1) ℝ (Poly 1 ℚ)} (h : mkSector polys [] = some s)
    (hd : DistinctMonomials o polys) : ∀ t ∈ primary o s, Prepared o t := by
  obtain ⟨h1, h2⟩ := mkSector_terms h
  have key : ∀ i, polys ≠ [] → (∀ p ∈ polys, (p.terms.map fun t => deleteCol i t.1).Nodup) → 0 < n ∧ (Sector.mapExpo (deleteCol i) s).cast ≠ [] ∧
      ∀ p ∈ (Sector.mapExpo (deleteCol i) s).cast, (p.poly.terms.map (·.1)).Nodup := by
    intro i hne hnd
    refine ⟨Nat.pos_of_ne_zero hn, ?_, fun q hq => ?_⟩
    · intro h0
      have : s.cast.length = 0 := by
        have := congrArg List.length h0
        simpa [Sector.mapExpo] using this
      rw [h1] at this
      exact hne (List.length_eq_zero_iff.1 this)
    · obtain ⟨q', hq', rfl⟩ := List.mem_map.1 hq
      obtain ⟨p, hp, k, hk⟩ := h2 q' hq'
      have e : (List.map (fun x : Expo n × ℝ => x.1) (q'.poly.terms.map fun t => (deleteCol i t.1, t.2))) =
          (p.terms.map fun t => deleteCol i t.1).map fun x => x + deleteCol i k := by
        rw [hk, List.map_map, List.map_map, List.map_map]
        rfl
      show (List.map (fun x : Expo n × ℝ => x.1) (q'.poly.terms.map fun t => (deleteCol i t.1, t.2))).Nodup
      rw [e]
      exact (hnd p hp).map (add_left_injective _)
  intro t ht
  unfold primary at ht
  unfold DistinctMonomials at hd
  unfold Prepared
  cases hm : o.method with
  | iterative => exact Or.inl rfl
  | geometric =>
    simp only [hm] at ht hd
    rw [List.mem_singleton.1 ht]
    exact Or.inr (key _ hd.1 hd.2)
  | geometricKu =>
    simp only [hm] at ht hd
    obtain ⟨i, -, rfl⟩ := List.mem_map.1 ht
    exact Or.inr (key i hd.1 fun p hp => hd.2 p hp i)

theorem primary_mem {o : Options} {s : Squash.Sector (n + 1) ℝ (Poly 1 ℚ)} {t : Squash.Sector n ℝ (Poly 1 ℚ)} (h : t ∈ primary o s) :
    ∃ i, t = Sector.mapExpo (deleteCol i) s := by
  unfold primary at h
  split at h
  · exact ⟨_, List.mem_singleton.1 h⟩
  · obtain ⟨i, -, rfl⟩ := List.mem_map.1 h
    exact ⟨i, rfl⟩

theorem measurableSet_simplex : MeasurableSet (Simplex n) := by
  have e : Simplex n = (⋂ k, {z : Fin n → ℝ | 0 < z k}) ∩ {z | ∑ k, z k < 1} := by
    ext z; simp [Simplex]
  rw [e]
  exact MeasurableSet.inter (MeasurableSet.iInter fun k => measurableSet_lt measurable_const (measurable_pi_apply k))
    (measurableSet_lt (Finset.measurable_sum _ fun k _ => measurable_pi_apply k) measurable_const)

/-- The primary sectors and the integral with the Dirac delta. -/
theorem primary_delta {o : Options} {s : Squash.Sector (n + 1) ℝ (Poly 1 ℚ)} {l : List (Squash.Sector n ℝ (Poly 1 ℚ))} (hs : Core Q m s) (hr : Refactorized s)
    (hp : ∀ t ∈ primary o s, Prepared o t) (h : reducePrimary o (primary o s) = some l) :
    (∀ t ∈ l, Core Q m t ∧ Refactorized t ∧ Prepared o t) ∧
      ∀ F : List (ℝ × Option (Poly 1 ℚ)) → List (ℝ × Option (Poly 1 ℚ)) → ℂ, Projective (Decomp.integrand F s) → DeltaIntegrable (Decomp.integrand F s) →
        (∀ t ∈ l, IntegrableOn (Decomp.integrand F t) (region o)) ∧
        (l.map fun t => ∫ x in region o, Decomp.integrand F t x).sum = deltaIntegral (Decomp.integrand F s) := by
  have hprim : ∀ t ∈ primary o s, Core Q m t ∧ Refactorized t ∧ Prepared o t := by
    intro t ht
    obtain ⟨i, e⟩ := primary_mem ht
    obtain ⟨a, b⟩ := primary_core hs hr i
    rw [← e] at a b
    exact ⟨a, b, hp t ht⟩
  by_cases hm : o.method = .geometric
  · have e : primary o s = [chengWu s (Fin.last n)] := by unfold primary; rw [hm]
    have er : (region o : Set (Fin n → ℝ)) = {x | ∀ k, 0 < x k} := by unfold region; rw [hm]
    unfold reducePrimary at h
    rw [e] at h hprim
    simp only [List.length_singleton, lt_irrefl, if_false, Option.some.injEq] at h
    subst h
    refine ⟨hprim, fun F hproj hint => ?_⟩
    obtain ⟨h4, h5⟩ := C19_cheng_wu s (Fin.last n) F hproj
    have hfun : Decomp.integrand F (chengWu s (Fin.last n)) = fun y => Decomp.integrand F s (Fin.snoc y 1) := by
      funext y; rw [h4 y, Fin.insertNth_last']
    have hi : IntegrableOn (Decomp.integrand F (chengWu s (Fin.last n))) {x | ∀ k, 0 < x k} := by
      rw [hfun]; exact (delta_eq_orthant hproj).2.1 hint
    rw [er]
    refine ⟨fun t ht => by rw [List.mem_singleton.1 ht]; exact hi, ?_⟩
    rw [List.map_singleton, List.sum_singleton]
    exact h5
  · have e : primary o s = primaryDecomposition s (List.finRange (n + 1)) := by
      unfold primary; split
      · exact absurd (by assumption) hm
      · rfl
    have er : (region o : Set (Fin n → ℝ)) = Icc 0 1 := by
      unfold region; split
      · exact absurd (by assumption) hm
      · rfl
    rw [er]
    have hpr' : (∀ t ∈ l, Core Q m t ∧ Refactorized t ∧ Prepared o t) ∧ ∀ F : List (ℝ × Option (Poly 1 ℚ)) → List (ℝ × Option (Poly 1 ℚ)) → ℂ,
        (∀ t ∈ primary o s, CubeIntegrable (Decomp.integrand F t)) → (∀ s ∈ l, CubeIntegrable (Decomp.integrand F s)) ∧
        (l.map fun s => cubeIntegral (Decomp.integrand F s)).sum = ((primary o s).map fun s => cubeIntegral (Decomp.integrand F s)).sum := by
      unfold reducePrimary at h
      split_ifs at h with hc
      · exact reduce_spec (Q := Q) (m := m) (fun s => Core Q m s ∧ Refactorized s ∧ Prepared o s)
          (fun s t hs ht => ⟨addJac_core hs.1 ht.1, hs.2.1, hs.2.2⟩) (fun _ h => ⟨h.1, h.2.1⟩) hprim h
      · simp only [Option.some.injEq] at h
        subst h
        exact ⟨hprim, fun F hF => ⟨hF, rfl⟩⟩
    refine ⟨hpr'.1, fun F hproj hint => ?_⟩
    rw [e] at hpr'
    obtain ⟨f1, f2⟩ := C17_primary_decomposition_integral s F hproj hint
    obtain ⟨g1, g2⟩ := hpr'.2 F f1
    exact ⟨g1, g2.trans f2⟩

theorem sectors_spec {o : Options} {polys : List (SPoly (n + 1) ℝ (Poly 1 ℚ))} (hE : Euclidean polys) (hQ : ∀ p ∈ polys, Q (exponentOf p))
    (hD : Decomposable o polys) {ss : List (Squash.Sector n ℝ (Poly 1 ℚ))} (h : sectors o polys = some ss) :
    (∀ s ∈ ss, Pos Q polys.length s ∧ StandardForm (List.finRange n) s) ∧
      ∀ z, Projective (integrandAt polys z) → DeltaIntegrable (integrandAt polys z) →
        (∀ s ∈ ss, CubeIntegrable (Decomp.integrand (Fz z) s)) ∧
        (ss.map fun s => cubeIntegral (Decomp.integrand (Fz z) s)).sum = deltaIntegral (integrandAt polys z) := by
  unfold sectors at h
  rw [Option.bind_eq_some_iff] at h
  obtain ⟨l, hl, h⟩ := h
  have hz := hD.2 l hl
  unfold primarySectors at hl
  by_cases hn : n = 0
  · rw [if_pos hn] at hl; cases hl
  rw [if_neg hn, Option.bind_eq_some_iff] at hl
  obtain ⟨s, hs, hl⟩ := hl
  obtain ⟨c1, c2, c3, c4⟩ := mkSector_core hE hQ hs
  obtain ⟨d1, d2⟩ := primary_delta c1 c2 (primary_prepared hn hs hD.1) hl
  obtain ⟨e1, e2⟩ := secondarySectors_spec (fun t ht => ⟨d1 t ht, hz t ht⟩) h
  refine ⟨e1, fun z hp hi => ?_⟩
  have hp' : Projective (Decomp.integrand (Fz z) s) := by
    intro c x hc hx
    rw [initial_value c3 c4 z fun k => mul_pos hc (hx k), initial_value c3 c4 z hx]
    exact hp c x hc hx
  have heq : EqOn (fun w : Fin n → ℝ => Decomp.integrand (Fz z) s (Fin.snoc w (1 - ∑ k, w k)))
      (fun w => integrandAt polys z (Fin.snoc w (1 - ∑ k, w k))) (Simplex n) := by
    intro w hw
    refine initial_value c3 c4 z fun i => ?_
    refine Fin.lastCases ?_ (fun k => ?_) i
    · rw [Fin.snoc_last]; linarith [hw.2]
    · rw [Fin.snoc_castSucc]; exact hw.1 k
  have hi' : DeltaIntegrable (Decomp.integrand (Fz z) s) := (integrableOn_congr_fun heq measurableSet_simplex).2 hi
  have hd : deltaIntegral (Decomp.integrand (Fz z) s) = deltaIntegral (integrandAt polys z) := setIntegral_congr_fun measurableSet_simplex heq
  obtain ⟨g1, g2⟩ := d2 (Fz z) hp' hi'
  obtain ⟨i1, i2⟩ := e2 (Fz z) g1
  exact ⟨i1, by rw [i2, g2, hd]⟩

/-- The strategies without a primary decomposition. -/
theorem sectorsNoPrimary_spec {o : Options} {polys : List (SPoly (n + 1) ℝ (Poly 1 ℚ))} (hE : Euclidean polys) (hQ : ∀ p ∈ polys, Q (exponentOf p))
    (hD : DecomposableNoPrimary o polys) {ss : List (Squash.Sector (n + 1) ℝ (Poly 1 ℚ))} (h : sectorsNoPrimary o polys = some ss) :
    (∀ s ∈ ss, Pos Q polys.length s ∧ StandardForm (List.finRange (n + 1)) s) ∧
      ∀ z, IntegrableOn (integrandAt polys z) (region o) →
        (∀ s ∈ ss, CubeIntegrable (Decomp.integrand (Fz z) s)) ∧
        (ss.map fun s => cubeIntegral (Decomp.integrand (Fz z) s)).sum = ∫ x in region o, integrandAt polys z x := by
  unfold sectorsNoPrimary at h
  rw [Option.bind_eq_some_iff] at h
  obtain ⟨s, hs, h⟩ := h
  have hz := hD.2 s hs
  obtain ⟨c1, c2, c3, c4⟩ := mkSector_core hE hQ hs
  have hprep : Prepared o s := by
    obtain ⟨h1, h2⟩ := mkSector_terms hs
    by_cases hm : o.method = .iterative
    · exact Or.inl hm
    · have hd : polys ≠ [] ∧ ∀ p ∈ polys, (p.terms.map (·.1)).Nodup := by
        have := hD.1
        unfold DistinctMonomialsNoPrimary at this
        split at this
        · exact absurd (by assumption) hm
        · exact this
      refine Or.inr ⟨Nat.succ_pos n, ?_, fun q hq => ?_⟩
      · intro h0
        rw [h0] at h1
        exact hd.1 (List.length_eq_zero_iff.1 h1.symm)
      · obtain ⟨p, hp, k, hk⟩ := h2 q hq
        have e : q.poly.terms.map (·.1) = (p.terms.map (·.1)).map fun x => x + k := by
          rw [hk, List.map_map, List.map_map]
          rfl
        rw [e]
        exact (hd.2 p hp).map (add_left_injective _)
  obtain ⟨e1, e2⟩ := secondarySectors_spec (l := [s]) (fun t ht => by rw [List.mem_singleton.1 ht]; exact ⟨⟨c1, c2, hprep⟩, hz⟩) h
  refine ⟨e1, fun z hi => ?_⟩
  have hpos : ∀ᵐ x : Fin (n + 1) → ℝ, x ∈ (region o : Set (Fin (n + 1) → ℝ)) → ∀ k, 0 < x k := by
    have hall : ∀ᵐ x : Fin (n + 1) → ℝ, ∀ k, x k ≠ 0 := by
      rw [ae_all_iff]
      intro k
      have := Measure.addHaar_submodule volume (LinearMap.ker (LinearMap.proj (R := ℝ) (φ := fun _ : Fin (n + 1) => ℝ) k)) (by
        intro h0
        have : (Pi.single k 1 : Fin (n + 1) → ℝ) ∈ (LinearMap.ker (LinearMap.proj (R := ℝ) (φ := fun _ : Fin (n + 1) => ℝ) k)) := by rw [h0]; trivial
        simp at this)
      rw [ae_iff]
      refine measure_mono_null ?_ this
      intro x hx
      simp only [ne_eq, not_not, mem_setOf_eq] at hx
      simpa using hx
    filter_upwards [hall] with x hx hr k
    have h0 : 0 ≤ x k := by
      unfold region at hr
      split at hr
      · exact (hr k).le
      · exact hr.1 k
    exact lt_of_le_of_ne h0 (Ne.symm (hx k))
  have hms : MeasurableSet (region o : Set (Fin (n + 1) → ℝ)) := by
    unfold region
    split
    · have : {x : Fin (n + 1) → ℝ | ∀ k, 0 < x k} = ⋂ k, {x | 0 < x k} := by ext x; simp
      rw [this]
      exact MeasurableSet.iInter fun k => measurableSet_lt measurable_const (measurable_pi_apply k)
    · exact measurableSet_Icc
  have heq : ∀ᵐ x : Fin (n + 1) → ℝ, x ∈ (region o : Set (Fin (n + 1) → ℝ)) → Decomp.integrand (Fz z) s x = integrandAt polys z x := by
    filter_upwards [hpos] with x hx hr
    exact initial_value c3 c4 z (hx hr)
  have hint : IntegrableOn (Decomp.integrand (Fz z) s) (region o) :=
    Integrable.congr hi (((ae_restrict_iff' hms).2 heq).mono fun x h => h.symm)
  obtain ⟨i1, i2⟩ := e2 (Fz z) fun t ht => by rw [List.mem_singleton.1 ht]; exact hint
  refine ⟨i1, ?_⟩
  rw [i2, List.map_singleton, List.sum_singleton]
  exact setIntegral_congr_ae hms heq

end Package
end SecDec
