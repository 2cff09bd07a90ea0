import Verif.Props.Polynomial
import Verif.Proof.Decomp
/-
Properties C15, C16: the iterative sector decomposition.
Specification vocabulary: `Verif/Spec/Decomp.lean`, `Verif/Spec/Squash.lean`.
-/
set_option linter.unusedSectionVars false
set_option linter.style.setOption false
namespace SecDec.Decomp
open SecDec SecDec.Squash MeasureTheory

variable {n : Nat} {R E : Type}
variable {V : Type} [NormedAddCommGroup V] [NormedSpace ℝ V]

theorem cubeIntegral_eq (f : (Fin n → ℝ) → V) : cubeIntegral f = ∫ x in oc n, f x :=
  (setIntegral_congr_set oc_ae).symm

theorem cubeIntegrable_iff (f : (Fin n → ℝ) → V) : CubeIntegrable f ↔ IntegrableOn f (oc n) :=
  (integrableOn_congr_set_ae oc_ae).symm

theorem phi_congr (a : Fin n) {r r' : List (Fin n)} (h : r.Perm r') : phi a r = phi a r' := by
  funext y i; simp [phi, h.mem_iff]

theorem dom_congr (a : Fin n) {r r' : List (Fin n)} (h : r.Perm r') : dom a r = dom a r' := by
  ext x; simp [dom, h.mem_iff]

/-! ### C15 -/

/-- C15: one iteration step.  If the integral of a sector exists (for an arbitrary integrand `F` of
its polynomials), then the integrals of all subsectors exist and add up to it. -/
theorem C15_iteration_step_preserves_integral (s : Sector n ℝ E) (indices : List (Fin n))
    (hnd : indices.Nodup) (subs : List (Sector n ℝ E)) (h : iterationStep s indices = .ok subs)
    (F : List (ℝ × Option E) → List (ℝ × Option E) → V)
    (hint : CubeIntegrable (integrand F s)) :
    (∀ t ∈ subs, CubeIntegrable (integrand F t)) ∧
    (subs.map (fun t => cubeIntegral (integrand F t))).sum = cubeIntegral (integrand F s) := by
  unfold iterationStep at h
  cases hS : findSingularSet s indices with
  | error e => simp [hS, Except.bind] at h
  | ok S =>
    simp only [hS, Except.bind] at h
    obtain ⟨hsub, hlen, _⟩ := findSingularSet_ok hS
    have hSnd : S.Nodup := hsub.nodup hnd
    have hne : S ≠ [] := by rintro rfl; simp at hlen
    have hf := mapM_except_forall₂ h
    have hsw := swappedSets_spec S hSnd
    -- one subsector per element of `S`
    have hpair : List.Forall₂ (fun a t => ∃ rest, rest.Perm (S.erase a) ∧
        subsector s (a :: rest) = .ok t) S subs := by
      rw [List.forall₂_iff_get] at hf hsw ⊢
      refine ⟨hsw.1.trans hf.1, fun i h1 h2 => ?_⟩
      have h3 : i < (swappedSets S).length := by rw [← hsw.1]; exact h1
      obtain ⟨rest, hr, hp⟩ := hsw.2 i h1 h3
      have := hf.2 i h3 h2
      rw [hr] at this
      exact ⟨rest, hp, this⟩
    rw [cubeIntegrable_iff] at hint
    have hval : List.Forall₂ (fun a t => IntegrableOn (integrand F t) (oc n) ∧
        ∫ y in oc n, integrand F t y = ∫ x in dom a (S.erase a), integrand F s x) S subs := by
      refine hpair.imp ?_
      rintro a t ⟨rest, hp, ht⟩
      have ha : a ∉ rest := by rw [hp.mem_iff]; exact hSnd.not_mem_erase
      have hrnd : rest.Nodup := hp.nodup_iff.2 (hSnd.erase a)
      have heq : ∀ y ∈ oc n, integrand F t y = y a ^ rest.length • integrand F s (phi a rest y) := by
        intro y hy
        exact subsector_integrand ha hrnd ht F y (fun i => (mem_oc.1 hy i).1.ne')
      rw [← dom_congr a hp, integral_dom a rest ha hrnd, setIntegral_congr_fun measurableSet_oc heq]
      refine ⟨?_, rfl⟩
      rw [integrableOn_congr_fun heq measurableSet_oc, ← integrable_dom_iff a rest ha hrnd]
      exact hint.mono_set (fun x hx => hx.1)
    constructor
    · intro t ht
      rw [cubeIntegrable_iff]
      obtain ⟨i, hi, rfl⟩ := List.mem_iff_getElem.1 ht
      exact ((List.forall₂_iff_get.1 hval).2 i (by rw [hval.length_eq]; exact hi) hi).1
    · rw [cubeIntegral_eq, cube_split S hne _ hSnd hint]
      congr 1
      clear * - hval
      generalize hT : S.erase = T at hval
      clear hT
      induction hval with
      | nil => rfl
      | cons h _ ih => rw [List.map_cons, List.map_cons, ih, cubeIntegral_eq, h.2]

theorem iterative_induction (P : Sector n R E → List (Sector n R E) → Prop) (indices : List (Fin n))
    (hend : ∀ s, iterationStep s indices = .error .endOfDecomposition → P s [s])
    (hstep : ∀ s subs rs, iterationStep s indices = .ok subs → List.Forall₂ P subs rs →
      P s rs.flatten) (fuel : Nat) (s : Sector n R E) (ts : List (Sector n R E))
    (h : iterativeDecomposition indices fuel s = some (.ok ts)) : P s ts := by
  induction fuel generalizing s ts with
  | zero => simp [iterativeDecomposition] at h
  | succ fuel ih =>
    rw [iterativeDecomposition] at h
    cases hs : iterationStep s indices with
    | error e =>
      rw [hs] at h
      cases e with
      | endOfDecomposition =>
        simp at h; subst h
        exact hend s hs
      | assertion => simp at h
      | emptyArray => simp at h
    | ok subs =>
      simp only [hs, Option.map_eq_some_iff] at h
      obtain ⟨rs, hrs, h⟩ := h
      have hrs := mapM_option_forall₂ hrs
      cases hm : rs.mapM id with
      | error e => simp [hm, Except.map] at h
      | ok out =>
        simp only [hm, Except.map, Except.ok.injEq] at h
        subst h
        have hm := mapM_except_forall₂ hm
        refine hstep s subs out hs ?_
        rw [List.forall₂_iff_get] at hrs hm ⊢
        refine ⟨hrs.1.trans hm.1, fun i h1 h2 => ?_⟩
        have h3 : i < rs.length := by rw [← hrs.1]; exact h1
        apply ih
        rw [hrs.2 i h1 h3]
        congr 1
        exact hm.2 i h3 h2

/-- C15: the whole iterative decomposition.  If it returns, the integrals of the resulting sectors
exist and add up to the integral of the initial sector, for every integrand whose integral exists. -/
theorem C15_iterative_decomposition_preserves_integral (s : Sector n ℝ E) (indices : List (Fin n))
    (hnd : indices.Nodup) (fuel : Nat) (ts : List (Sector n ℝ E))
    (h : iterativeDecomposition indices fuel s = some (.ok ts))
    (F : List (ℝ × Option E) → List (ℝ × Option E) → V)
    (hint : CubeIntegrable (integrand F s)) :
    (∀ t ∈ ts, CubeIntegrable (integrand F t)) ∧
    (ts.map (fun t => cubeIntegral (integrand F t))).sum = cubeIntegral (integrand F s) := by
  refine iterative_induction (fun s ts => CubeIntegrable (integrand F s) →
    (∀ t ∈ ts, CubeIntegrable (integrand F t)) ∧
    (ts.map (fun t => cubeIntegral (integrand F t))).sum = cubeIntegral (integrand F s)) indices
    ?_ ?_ fuel s ts h hint
  · intro s _ hs
    simpa using hs
  · intro s subs rs hs hrec hi
    obtain ⟨h1, h2⟩ := C15_iteration_step_preserves_integral s indices hnd subs hs F hi
    rw [← h2]
    clear * - h1 hrec
    induction hrec with
    | nil => simp
    | cons hp _ ih =>
      obtain ⟨a1, a2⟩ := hp (h1 _ (by simp))
      obtain ⟨b1, b2⟩ := ih (fun t ht => h1 t (by simp [ht]))
      constructor
      · intro t ht
        rw [List.flatten_cons, List.mem_append] at ht
        rcases ht with ht | ht
        · exact a1 t ht
        · exact b1 t ht
      · rw [List.flatten_cons, List.map_append, List.sum_append, a2, b2]
        simp

/-! ### C16 -/

/-- C16: the constructor `Sector(cast, other, Jacobian)` raises exactly if there is no polynomial in `cast`, or one
without terms. -/
theorem C16_constructor_raises {K : Type} [Field K] (hn : 0 < n) (cast other : List (SPoly n K E)) (jac : Expo n × K) :
    mkSector cast other jac = none ↔ cast = [] ∨ ∃ p ∈ cast, p.terms = [] := by
  classical
  have key : ∀ p : SPoly n K E, refactorizeAll p = none ↔ p.terms = [] := by
    intro p
    unfold refactorizeAll Poly.refactorizeMethod
    constructor
    · intro h
      by_contra hne
      obtain ⟨r, hr⟩ := Poly.C05_refactorize_total (⟨[((fun _ => 0), 1)]⟩, ⟨p.terms⟩) [] hne
      obtain ⟨-, -, k, -, h3, -⟩ := Poly.C05_refactorize _ _ _ hr
      rw [hr] at h
      simp [h3] at h
    · intro h
      rw [Poly.C05_refactorize_empty _ [] h hn]
      rfl
  unfold mkSector
  cases cast with
  | nil => simp
  | cons p l =>
    rw [if_neg (by simp), Option.map_eq_none_iff]
    have : ∀ l : List (SPoly n K E), l.mapM refactorizeAll = none ↔ ∃ p ∈ l, p.terms = [] := by
      intro l
      induction l with
      | nil => simp
      | cons p l ih =>
        rw [List.mapM_cons]
        cases h : refactorizeAll p with
        | none => simp [(key p).1 h]
        | some q =>
          have hp : p.terms ≠ [] := fun h' => by rw [(key p).2 h'] at h; simp at h
          cases h2 : l.mapM refactorizeAll with
          | none => simp [hp, ← ih, h2]
          | some r =>
            have := mt ih.2 (by simp [h2])
            simp only [List.mem_cons, exists_eq_or_imp, hp, false_or, this]
            simp
    rw [this]; simp

example : mkSector ([] : List (SPoly 1 ℚ Unit)) [] = none := (C16_constructor_raises (by decide) [] [] _).2 (Or.inl rfl)

/-- C16: the constructor `Sector(cast, other, Jacobian)` pulls out all common powers and does not
change the values of the polynomials. -/
theorem C16_constructor_refactorizes {K : Type} [Field K] (hn : 0 < n) (cast other : List (SPoly n K E))
    (jac : Expo n × K) (s : Sector n K E) (h : mkSector cast other jac = some s) :
    Refactorized s ∧ s.jac = jac ∧ s.other = other ∧
    ∀ x : Fin n → K, (∀ i, x i ≠ 0) →
      (s.value x).cast = cast.map (fun p => (p.eval x, p.exponent)) := by
  unfold mkSector at h
  split_ifs at h
  rw [Option.map_eq_some_iff] at h
  obtain ⟨c, hc, rfl⟩ := h
  have hc := mapM_option_forall₂ hc
  have key : ∀ (p : SPoly n K E) (q : SProd n K E), refactorizeAll p = some q →
      (q.poly.terms ≠ [] ∧ ∀ i, (∀ t ∈ q.poly.terms, 0 ≤ t.1 i) ∧ ∃ t ∈ q.poly.terms, t.1 i = 0) ∧
      ∀ x : Fin n → K, (∀ i, x i ≠ 0) →
        (q.mono.2 * Poly.mono x q.mono.1 * q.poly.eval x, q.poly.exponent) = (p.eval x, p.exponent) := by
    intro p q hq
    unfold refactorizeAll Poly.refactorizeMethod Poly.refactorize at hq
    rw [Option.bind_eq_some_iff] at hq
    obtain ⟨r, hr, hq⟩ := hq
    obtain ⟨k, h1, _, h3, h4⟩ := Poly.foldlM_refactorizeOne _ _ _ hr
    simp only [List.isEmpty_nil, if_true, List.mem_finRange, true_implies] at h1
    simp only [h3, Poly.shiftBy, List.map_cons, List.map_nil, List.head?_cons, Option.map_some,
      Option.some.injEq] at hq
    subst hq
    have hmin : ∀ i, r.2.IsMinExp i 0 := by
      intro i
      rw [h4, Poly.isMinExp_shiftBy]
      simpa using h1 i
    refine ⟨⟨?_, fun i => ⟨(hmin i).2, (hmin i).1⟩⟩, ?_⟩
    · obtain ⟨⟨t, ht, _⟩, _⟩ := hmin ⟨0, hn⟩
      exact List.ne_nil_of_mem ht
    · intro x hx
      congr 1
      unfold SPoly.eval Poly.eval
      simp only [h4, Poly.shiftBy, List.map_map, one_mul]
      rw [← List.sum_map_mul_left]
      congr 1
      apply List.map_congr_left
      intro t _
      simp only [Function.comp]
      have e1 : Poly.mono x (t.1 + -k) * Poly.mono x ((fun _ => 0) + k) = Poly.mono x t.1 := by
        unfold Poly.mono
        rw [← Finset.prod_mul_distrib]
        apply Finset.prod_congr rfl
        intro i _
        rw [← zpow_add₀ (hx i)]
        congr 1
        simp
      rw [← e1]; ring
  refine ⟨?_, rfl, rfl, ?_⟩
  · intro q hq
    obtain ⟨i, hi, rfl⟩ := List.mem_iff_getElem.1 hq
    exact (key _ _ ((List.forall₂_iff_get.1 hc).2 i (by rw [hc.length_eq]; exact hi) hi)).1
  · intro x hx
    unfold Sector.value
    simp only
    clear * - hc key hx
    induction hc with
    | nil => rfl
    | cons h _ ih => rw [List.map_cons, List.map_cons, ih, (key _ _ h).2 x hx]

/-- C16: on a sector made by the constructor (`Refactorized`), `find_singular_set` does not fail:
either it reports the end of the decomposition, and then the sector is in standard form; or it
returns a set of at least two of the `indices` that nullifies a polynomial not yet in standard form. -/
theorem C16_find_singular_set (s : Sector n R E) (indices : List (Fin n)) (href : Refactorized s) :
    (findSingularSet s indices = .error .endOfDecomposition ∧ StandardForm indices s) ∨
    (∃ S, findSingularSet s indices = .ok S ∧ ¬ StandardForm indices s ∧
      S.Sublist indices ∧ 2 ≤ S.length ∧
      ∃ p ∈ s.cast, ∀ t ∈ p.poly.terms, ∃ i ∈ S, 0 < t.1 i) := by
  cases h : findSingularSet s indices with
  | error e =>
    obtain ⟨rfl, hst⟩ := findSingularSet_error href h
    exact Or.inl ⟨rfl, hst⟩
  | ok S =>
    obtain ⟨h1, h2, p, hp, h3, h4⟩ := findSingularSet_ok h
    refine Or.inr ⟨S, rfl, ?_, h1, h2, p, hp, ?_⟩
    · intro hst
      obtain ⟨t, ht, h0⟩ := hst p hp
      have : hasConst indices p.poly = true := by
        simp only [hasConst, Poly.hasConstantTerm, List.any_eq_true, List.all_eq_true, beq_iff_eq]
        exact ⟨t, ht, h0⟩
      rw [this] at h3; simp at h3
    · simpa [Poly.becomesZeroFor] using h4

theorem step_refactorized {s : Sector n R E} {indices : List (Fin n)} (hnd : indices.Nodup)
    (href : Refactorized s) {subs : List (Sector n R E)} (h : iterationStep s indices = .ok subs) :
    ∀ t ∈ subs, Refactorized t := by
  unfold iterationStep at h
  cases hS : findSingularSet s indices with
  | error e => simp [hS, Except.bind] at h
  | ok S =>
    simp only [hS, Except.bind] at h
    obtain ⟨hsub, hlen, _⟩ := findSingularSet_ok hS
    have hSnd : S.Nodup := hsub.nodup hnd
    have hf := mapM_except_forall₂ h
    have hsw := swappedSets_spec S hSnd
    intro t ht
    obtain ⟨i, hi, rfl⟩ := List.mem_iff_getElem.1 ht
    rw [List.forall₂_iff_get] at hf hsw
    have h3 : i < (swappedSets S).length := by rw [hf.1]; exact hi
    have h1 : i < S.length := by rw [hsw.1]; exact h3
    obtain ⟨rest, hr, hp⟩ := hsw.2 i h1 h3
    have := hf.2 i h3 hi
    rw [hr] at this
    refine subsector_refactorized ?_ href this
    rw [hp.mem_iff]; exact hSnd.not_mem_erase

theorem step_error {s : Sector n R E} {indices : List (Fin n)} (hnd : indices.Nodup)
    (href : Refactorized s) {e : Err} (h : iterationStep s indices = .error e) :
    e = .endOfDecomposition ∧ StandardForm indices s := by
  unfold iterationStep at h
  cases hS : findSingularSet s indices with
  | error e' =>
    simp only [hS, Except.bind] at h
    cases h
    exact findSingularSet_error href hS
  | ok S =>
    exfalso
    simp only [hS, Except.bind] at h
    obtain ⟨hsub, hlen, _⟩ := findSingularSet_ok hS
    have hsw := swappedSets_spec S (hsub.nodup hnd)
    obtain ⟨S', hS', herr⟩ := mapM_except_error h
    obtain ⟨i, hi, rfl⟩ := List.mem_iff_getElem.1 hS'
    rw [List.forall₂_iff_get] at hsw
    obtain ⟨rest, hr, _⟩ := hsw.2 i (by rw [hsw.1]; exact hi) hi
    simp only [List.get_eq_getElem] at hr
    rw [hr] at herr
    obtain ⟨t, ht⟩ := subsector_ok (s := s) (a := S.get ⟨i, by rw [hsw.1]; exact hi⟩) (rest := rest)
      (fun p hp => (href p hp).1)
    simp only [List.get_eq_getElem] at ht
    rw [ht] at herr
    cases herr

/-- C16: every sector returned by `iterative_decomposition` is in standard form, and the
decomposition never ends with an exception. -/
theorem C16_iterative_decomposition_standard_form (s : Sector n R E) (indices : List (Fin n))
    (hnd : indices.Nodup) (href : Refactorized s) (fuel : Nat) (out : Except Err (List (Sector n R E)))
    (h : iterativeDecomposition indices fuel s = some out) :
    ∃ ts, out = .ok ts ∧ ∀ t ∈ ts, StandardForm indices t ∧ Refactorized t := by
  induction fuel generalizing s out with
  | zero => simp [iterativeDecomposition] at h
  | succ fuel ih =>
    rw [iterativeDecomposition] at h
    cases hs : iterationStep s indices with
    | error e =>
      obtain ⟨rfl, hst⟩ := step_error hnd href hs
      simp only [hs, Option.some.injEq] at h
      subst h
      exact ⟨[s], rfl, by simpa using ⟨hst, href⟩⟩
    | ok subs =>
      have hsubs := step_refactorized hnd href hs
      simp only [hs, Option.map_eq_some_iff] at h
      obtain ⟨rs, hrs, rfl⟩ := h
      have hrs := mapM_option_forall₂ hrs
      have : ∃ out, rs.mapM id = .ok out ∧ ∀ l ∈ out, ∀ t ∈ l, StandardForm indices t ∧ Refactorized t := by
        clear * - hrs ih hsubs
        induction hrs with
        | nil => exact ⟨[], rfl, by simp⟩
        | cons hp _ ih2 =>
          obtain ⟨out, ho, hout⟩ := ih2 (fun t ht => hsubs t (by simp [ht]))
          obtain ⟨ts, rfl, hts⟩ := ih _ (hsubs _ (by simp)) _ hp
          refine ⟨ts :: out, ?_, ?_⟩
          · rw [List.mapM_cons, ho]; rfl
          · intro l hl
            rcases List.mem_cons.1 hl with rfl | hl
            · exact hts
            · exact hout l hl
      obtain ⟨out, ho, hout⟩ := this
      refine ⟨out.flatten, by rw [ho]; rfl, ?_⟩
      intro t ht
      obtain ⟨l, hl, ht⟩ := List.mem_flatten.1 ht
      exact hout l hl t ht

/-! ### non-vacuity and a defect -/

/-- the sector with one `cast` polynomial with the given terms -/
def oneCast (jac mono : Expo 3 × R) (ex : Option E) (other : List (SPoly 3 R E))
    (terms : List (Expo 3 × R)) : Sector 3 R E :=
  { jac := jac, cast := [⟨mono, ⟨terms, ex⟩⟩], other := other }

/-- `c₁ x₁ x₂ + c₂ x₀ x₂² + c₃ x₀² x₁²` -/
def loopA (c₁ c₂ c₃ : R) : List (Expo 3 × R) := [(![0, 1, 1], c₁), (![1, 0, 2], c₂), (![2, 2, 0], c₃)]
/-- `c₁ x₁ x₂ + c₂ x₂² + c₃ x₀³ x₁²` -/
def loopB (c₁ c₂ c₃ : R) : List (Expo 3 × R) := [(![0, 1, 1], c₁), (![0, 0, 2], c₂), (![3, 2, 0], c₃)]

theorem loopA_refactorized (jac mono : Expo 3 × R) (ex : Option E) (other : List (SPoly 3 R E))
    (c₁ c₂ c₃ : R) : Refactorized (oneCast jac mono ex other (loopA c₁ c₂ c₃)) := by
  intro p hp
  simp only [oneCast, List.mem_singleton] at hp
  subst hp
  refine ⟨by simp [loopA], fun i => ?_⟩
  fin_cases i <;> simp [loopA]

theorem loopA_step (jac mono : Expo 3 × R) (ex : Option E) (other : List (SPoly 3 R E)) (c₁ c₂ c₃ : R) :
    ∃ subs jac' mono' other', iterationStep (oneCast jac mono ex other (loopA c₁ c₂ c₃)) [0, 1, 2]
      = .ok subs ∧ oneCast jac' mono' ex other' (loopB c₁ c₂ c₃) ∈ subs := by
  have hS : findSingularSet (oneCast jac mono ex other (loopA c₁ c₂ c₃)) [0, 1, 2] = .ok [0, 1] := rfl
  obtain ⟨t1, ht1⟩ := subsector_ok (s := oneCast jac mono ex other (loopA c₁ c₂ c₃)) (a := 1)
    (rest := [0]) (fun p hp => (loopA_refactorized jac mono ex other c₁ c₂ c₃ p hp).1)
  obtain ⟨t0, ht0⟩ := subsector_ok (s := oneCast jac mono ex other (loopA c₁ c₂ c₃)) (a := 0)
    (rest := [1]) (fun p hp => (loopA_refactorized jac mono ex other c₁ c₂ c₃ p hp).1)
  have hform : t0 = oneCast t0.jac (Function.update (remapExpo [0, 1] mono.1) 0
      (remapExpo [0, 1] mono.1 0 + 1), mono.2) ex t0.other (loopB c₁ c₂ c₃) := by
    have : subsector (oneCast jac mono ex other (loopA c₁ c₂ c₃)) [0, 1] = .ok (oneCast
        (jacShift [0, 1] (remapExpo [0, 1] jac.1), jac.2) (Function.update (remapExpo [0, 1] mono.1) 0
      (remapExpo [0, 1] mono.1 0 + 1), mono.2) ex
      (other.map (fun p => { p with terms := remapTerms [0, 1] p.terms }))
      [(Function.update (remapExpo [0, 1] ![0, 1, 1]) 0 (remapExpo [0, 1] ![0, 1, 1] 0 - 1), c₁),
       (Function.update (remapExpo [0, 1] ![1, 0, 2]) 0 (remapExpo [0, 1] ![1, 0, 2] 0 - 1), c₂),
       (Function.update (remapExpo [0, 1] ![2, 2, 0]) 0 (remapExpo [0, 1] ![2, 2, 0] 0 - 1), c₃)]) := rfl
    rw [ht0] at this
    injection this with this
    rw [this]
    unfold oneCast loopB
    simp only
    congr 5
    · refine Prod.ext ?_ rfl; dsimp only; decide
    · congr 2
      · decide
      · congr 2; decide
  refine ⟨[t0, t1], t0.jac, _, t0.other, ?_, by rw [← hform]; simp⟩
  unfold iterationStep
  rw [hS]
  show (swappedSets [0, 1]).mapM _ = _
  have : swappedSets ([0, 1] : List (Fin 3)) = [[0, 1], [1, 0]] := rfl
  rw [this, List.mapM_cons, ht0, List.mapM_cons, ht1]
  rfl

theorem loopB_step (jac mono : Expo 3 × R) (ex : Option E) (other : List (SPoly 3 R E)) (c₁ c₂ c₃ : R) :
    ∃ subs jac' mono' other', iterationStep (oneCast jac mono ex other (loopB c₁ c₂ c₃)) [0, 1, 2]
      = .ok subs ∧ oneCast jac' mono' ex other' (loopA c₁ c₂ c₃) ∈ subs := by
  have hne : ∀ p ∈ (oneCast jac mono ex other (loopB c₁ c₂ c₃)).cast, p.poly.terms ≠ [] := by
    intro p hp
    simp only [oneCast, List.mem_singleton] at hp
    subst hp
    simp [loopB]
  have hS : findSingularSet (oneCast jac mono ex other (loopB c₁ c₂ c₃)) [0, 1, 2] = .ok [0, 2] := rfl
  obtain ⟨t1, ht1⟩ := subsector_ok (s := oneCast jac mono ex other (loopB c₁ c₂ c₃)) (a := 2)
    (rest := [0]) hne
  obtain ⟨t0, ht0⟩ := subsector_ok (s := oneCast jac mono ex other (loopB c₁ c₂ c₃)) (a := 0)
    (rest := [2]) hne
  have hform : t0 = oneCast t0.jac (Function.update (remapExpo [0, 2] mono.1) 0
      (remapExpo [0, 2] mono.1 0 + 1), mono.2) ex t0.other (loopA c₁ c₂ c₃) := by
    have : subsector (oneCast jac mono ex other (loopB c₁ c₂ c₃)) [0, 2] = .ok (oneCast
        (jacShift [0, 2] (remapExpo [0, 2] jac.1), jac.2) (Function.update (remapExpo [0, 2] mono.1) 0
      (remapExpo [0, 2] mono.1 0 + 1), mono.2) ex
      (other.map (fun p => { p with terms := remapTerms [0, 2] p.terms }))
      [(Function.update (remapExpo [0, 2] ![0, 1, 1]) 0 (remapExpo [0, 2] ![0, 1, 1] 0 - 1), c₁),
       (Function.update (remapExpo [0, 2] ![0, 0, 2]) 0 (remapExpo [0, 2] ![0, 0, 2] 0 - 1), c₂),
       (Function.update (remapExpo [0, 2] ![3, 2, 0]) 0 (remapExpo [0, 2] ![3, 2, 0] 0 - 1), c₃)]) := rfl
    rw [ht0] at this
    injection this with this
    rw [this]
    unfold oneCast loopA
    simp only
    congr 5
    · refine Prod.ext ?_ rfl; dsimp only; decide
    · congr 2
      · decide
      · congr 2; decide
  refine ⟨[t0, t1], t0.jac, _, t0.other, ?_, by rw [← hform]; simp⟩
  unfold iterationStep
  rw [hS]
  show (swappedSets [0, 2]).mapM _ = _
  have : swappedSets ([0, 2] : List (Fin 3)) = [[0, 2], [2, 0]] := rfl
  rw [this, List.mapM_cons, ht0, List.mapM_cons, ht1]
  rfl

theorem none_of_sub {indices : List (Fin n)} {fuel : Nat} {s t : Sector n R E}
    {subs : List (Sector n R E)} (h : iterationStep s indices = .ok subs) (ht : t ∈ subs)
    (hn : iterativeDecomposition indices fuel t = none) :
    iterativeDecomposition indices (fuel + 1) s = none := by
  rw [iterativeDecomposition, h]
  simp only [Option.map_eq_none_iff]
  cases hm : subs.mapM (iterativeDecomposition indices fuel) with
  | none => rfl
  | some rs =>
    exfalso
    have hm := mapM_option_forall₂ hm
    obtain ⟨i, hi, rfl⟩ := List.mem_iff_getElem.1 ht
    have := (List.forall₂_iff_get.1 hm).2 i hi (by rw [← hm.length_eq]; exact hi)
    simp only [List.get_eq_getElem] at this
    rw [hn] at this
    cases this

/-- C16, the limit of the claim: the iterative decomposition does not always return.  For
`c₁ x₁ x₂ + c₂ x₀ x₂² + c₃ x₀² x₁²` (all variables decomposed, arbitrary coefficients, exponent,
Jacobian and other polynomials) the recursion does not end at any depth. -/
theorem C16_iterative_decomposition_may_not_terminate (jac mono : Expo 3 × R) (ex : Option E)
    (other : List (SPoly 3 R E)) (c₁ c₂ c₃ : R) (fuel : Nat) :
    iterativeDecomposition [0, 1, 2] fuel (oneCast jac mono ex other (loopA c₁ c₂ c₃)) = none ∧
    iterativeDecomposition [0, 1, 2] fuel (oneCast jac mono ex other (loopB c₁ c₂ c₃)) = none := by
  induction fuel generalizing jac mono other with
  | zero => exact ⟨rfl, rfl⟩
  | succ fuel ih =>
    constructor
    · obtain ⟨subs, j, m, o, h1, h2⟩ := loopA_step jac mono ex other c₁ c₂ c₃
      exact none_of_sub h1 h2 (ih j m o).2
    · obtain ⟨subs, j, m, o, h1, h2⟩ := loopB_step jac mono ex other c₁ c₂ c₃
      exact none_of_sub h1 h2 (ih j m o).1

/-- hypotheses of C15/C16: a sector that is decomposed in one step into two sectors, `x₀ + x₁`. -/
example : (iterativeDecomposition [0, 1] 2
    ({ jac := (fun _ => 0, 1), cast := [⟨(fun _ => 0, 1), ⟨[(![1, 0], 1), (![0, 1], 1)], some 2⟩⟩]
       other := [] } : Sector 2 Int Int)).map (fun r => match r with
        | .ok ts => ts.map (fun t => (List.ofFn t.jac.1, t.cast.map (fun p =>
            (List.ofFn p.mono.1, p.poly.terms.map (fun t => (List.ofFn t.1, t.2))))))
        | .error _ => []) =
    some [([1, 0], [([1, 0], [([0, 0], 1), ([0, 1], 1)])]),
          ([0, 1], [([0, 1], [([1, 0], 1), ([0, 0], 1)])])] := rfl

example (jac mono : Expo 3 × ℝ) (c₁ c₂ c₃ : ℝ) :
    Refactorized (oneCast jac mono (some (1 : ℝ)) [] (loopA c₁ c₂ c₃)) :=
  loopA_refactorized _ _ _ _ _ _ _

/-- the integrability hypothesis: bounded integrands, here the product of all polynomials of
`x₀ + x₁` -/
example : CubeIntegrable (integrand (E := ℝ) (fun c _ => (c.map (·.1)).prod)
    ({ jac := (fun _ => 0, 1), cast := [⟨(fun _ => 0, 1), ⟨[(![1, 0], 1), (![0, 1], 1)], some 2⟩⟩]
       other := [] } : Sector 2 ℝ ℝ)) := by
  have : (integrand (E := ℝ) (fun c _ => (c.map (·.1)).prod)
    ({ jac := (fun _ => 0, 1), cast := [⟨(fun _ => 0, 1), ⟨[(![1, 0], 1), (![0, 1], 1)], some 2⟩⟩]
       other := [] } : Sector 2 ℝ ℝ)) = fun x => x 0 + x 1 := by
    funext x
    simp [integrand, Sector.value, SPoly.eval, Poly.eval, Poly.mono, Fin.prod_univ_two]
  rw [this]
  apply ContinuousOn.integrableOn_compact isCompact_Icc
  fun_prop

end SecDec.Decomp
