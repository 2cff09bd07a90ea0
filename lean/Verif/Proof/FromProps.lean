import Mathlib.LinearAlgebra.Matrix.Adjugate
import Mathlib.LinearAlgebra.Matrix.NonsingularInverse
import Mathlib.Algebra.BigOperators.Field
import Verif.Proof.Hom
import Verif.Spec.FromProps
set_option linter.unusedSectionVars false
namespace SecDec
namespace FromProps
open Poly Matrix
variable {P D : Nat} {R : Type} [CommRing R] [DecidableEq R]

/-- A homomorphic interpretation of polynomials, on graded classes of them. -/
structure Sem (P : Nat) (R A : Type) [CommRing R] [DecidableEq R] [CommRing A] where
  G : Int → Poly P R → Prop
  s : Poly P R → A
  gadd : ∀ {d p q}, G d p → G d q → G d (p.add q)
  gsub : ∀ {d p q}, G d p → G d q → G d (p.sub q)
  gneg : ∀ {d p}, G d p → G d p.neg
  gadd0 : ∀ {d p}, G d p → G d (p.addScalar 0)
  gmul1 : ∀ {d p}, G d p → G d (p.mulScalar 1)
  gmul : ∀ {d d' p q}, G d p → G d' q → G (d + d') (p.mul q)
  sadd : ∀ p q, s (p.add q) = s p + s q
  ssub : ∀ p q, s (p.sub q) = s p - s q
  sneg : ∀ p, s p.neg = - s p
  sadd0 : ∀ p, s (p.addScalar 0) = s p
  smul1 : ∀ p, s (p.mulScalar 1) = s p
  smul : ∀ {d d' p q}, G d p → G d' q → s (p.mul q) = s p * s q

variable {A : Type} [CommRing A]

theorem Sem.addTerm (S : Sem P R A) {d : Int} {p q : Poly P R} (hp : S.G d p) (hq : S.G d q) (i : Nat) :
    S.G d (addTerm p q i) ∧ S.s (addTerm p q i) = S.s p + (-1) ^ i * S.s q := by
  unfold FromProps.addTerm
  split
  · rename_i h
    refine ⟨S.gadd hp hq, ?_⟩
    rw [S.sadd, (Nat.even_iff.2 h).neg_one_pow, one_mul]
  · rename_i h
    refine ⟨S.gsub hp hq, ?_⟩
    rw [S.ssub, (Nat.odd_iff.2 (by omega)).neg_one_pow]; ring

theorem Sem.foldTerms (S : Sem P R A) {d : Int} {m : Nat} (l : List (Fin m)) (f : Fin m → Poly P R) (hf : ∀ i, S.G d (f i))
    (p : Poly P R) (hp : S.G d p) :
    S.G d (l.foldl (fun r i => FromProps.addTerm r (f i) (i.val + 1)) p) ∧
    S.s (l.foldl (fun r i => FromProps.addTerm r (f i) (i.val + 1)) p) =
      S.s p + (l.map (fun i => (-1) ^ (i.val + 1) * S.s (f i))).sum := by
  induction l generalizing p with
  | nil => simp [hp]
  | cons i l ih =>
    obtain ⟨h1, h2⟩ := S.addTerm hp (hf i) (i.val + 1)
    obtain ⟨h3, h4⟩ := ih _ h1
    refine ⟨h3, ?_⟩
    rw [List.foldl_cons, h4, h2]
    simp [add_assoc]

theorem Sem.det (S : Sem P R A) {d : Int} : ∀ (D : Nat) (M : Fin (D+1) → Fin (D+1) → Poly P R), (∀ i j, S.G d (M i j)) →
    S.G ((D+1 : Nat) * d) (FromProps.det D M) ∧ S.s (FromProps.det D M) = Matrix.det (Matrix.of (fun i j => S.s (M i j))) := by
  intro D
  induction D with
  | zero =>
    intro M hM
    refine ⟨by simpa [FromProps.det] using hM 0 0, ?_⟩
    rw [Matrix.det_fin_one]; rfl
  | succ D ih =>
    intro M hM
    have hm : ∀ i, S.G (d + (D+1 : Nat) * d) ((M 0 i).mul (FromProps.det D (minor M i))) ∧
        S.s ((M 0 i).mul (FromProps.det D (minor M i))) = S.s (M 0 i) * Matrix.det (Matrix.of (fun a b => S.s (minor M i a b))) := by
      intro i
      obtain ⟨h1, h2⟩ := ih (minor M i) (fun a b => hM _ _)
      exact ⟨S.gmul (hM 0 i) h1, by rw [S.smul (hM 0 i) h1, h2]⟩
    have hd : d + ((D+1 : Nat) : Int) * d = ((D+1+1 : Nat) : Int) * d := by push_cast; ring
    obtain ⟨h3, h4⟩ := S.foldTerms (List.finRange (D+1)) (fun i => (M 0 i.succ).mul (FromProps.det D (minor M i.succ)))
      (fun i => (hm i.succ).1) _ (hm 0).1
    rw [hd] at h3
    refine ⟨h3, ?_⟩
    show S.s ((List.finRange (D+1)).foldl _ _) = _
    rw [h4, Matrix.det_succ_row_zero, Fin.sum_univ_succ, (hm 0).2, ← List.ofFn_eq_map, List.sum_ofFn]
    congr 1
    · simp; rfl
    · refine Finset.sum_congr rfl fun i _ => ?_
      rw [(hm i.succ).2]
      simp only [Fin.val_succ]
      rw [mul_assoc]; rfl

theorem Sem.parallelDet (S : Sem P R A) {d : Int} (D : Nat) (M : Fin (D+1) → Fin (D+1) → Poly P R) (hM : ∀ i j, S.G d (M i j)) :
    S.s (FromProps.parallelDet D M) = Matrix.det (Matrix.of (fun i j => S.s (M i j))) := by
  rw [← (S.det D M hM).2]
  cases D with
  | zero => rfl
  | succ D =>
    have hm : ∀ i, S.G (d + (D+1 : Nat) * d) ((M 0 i).mul (FromProps.det D (minor M i))) := fun i =>
      S.gmul (hM 0 i) (S.det D (minor M i) (fun a b => hM _ _)).1
    have h := S.foldTerms (List.finRange (D+1)) (fun i => (M 0 i.succ).mul (FromProps.det D (minor M i.succ)))
      (fun i => hm i.succ)
    show S.s ((List.finRange (D+1)).foldl _ _) = S.s ((List.finRange (D+1)).foldl _ _)
    rw [(h _ (hm 0)).2, (h _ (S.gadd0 (hm 0))).2, S.sadd0]

theorem Sem.adjugate (S : Sem P R A) {d : Int} {D : Nat} (M : Fin (D+1+1) → Fin (D+1+1) → Poly P R) (hM : ∀ i j, S.G d (M i j))
    (i j : Fin (D+1+1)) : S.G ((D+1 : Nat) * d) (FromProps.adjugate M i j) ∧
      S.s (FromProps.adjugate M i j) = Matrix.adjugate (Matrix.of (fun a b => S.s (M a b))) i j := by
  obtain ⟨h1, h2⟩ := S.det D (fun a b => M (j.succAbove a) (i.succAbove b)) (fun a b => hM _ _)
  rw [Matrix.adjugate_fin_succ_eq_det_submatrix]
  have h3 : Matrix.submatrix (Matrix.of (fun a b => S.s (M a b))) j.succAbove i.succAbove =
      Matrix.of (fun a b => S.s (M (j.succAbove a) (i.succAbove b))) := rfl
  rw [h3, ← h2]
  unfold FromProps.adjugate
  simp only
  split
  · rename_i h
    exact ⟨h1, by rw [(Nat.even_iff.2 h).neg_one_pow, one_mul]⟩
  · rename_i h
    exact ⟨S.gneg h1, by rw [(Nat.odd_iff.2 (by omega)).neg_one_pow, S.sneg]; ring⟩

theorem Sem.mulAdjugate (S : Sem P R A) {d d' : Int} : ∀ (D : Nat) (M : Fin (D+1) → Fin (D+1) → Poly P R), (∀ i j, S.G d (M i j)) →
    ∀ (q : Poly P R), S.G d' q → ∀ i j, S.G (d' + (D : Int) * d) (FromProps.mulAdjugate D M q i j) ∧
      S.s (FromProps.mulAdjugate D M q i j) = S.s q * Matrix.adjugate (Matrix.of (fun a b => S.s (M a b))) i j
  | 0, M, hM, q, hq, i, j => by
    refine ⟨by simpa [FromProps.mulAdjugate] using S.gmul1 hq, ?_⟩
    simp only [FromProps.mulAdjugate]
    rw [S.smul1]
    haveI : Subsingleton (Fin (0+1)) := inferInstanceAs (Subsingleton (Fin 1))
    rw [Matrix.adjugate_subsingleton, Subsingleton.elim i j]; simp
  | D + 1, M, hM, q, hq, i, j => by
    obtain ⟨h1, h2⟩ := S.adjugate M hM i j
    exact ⟨S.gmul hq h1, by simp only [FromProps.mulAdjugate]; rw [S.smul hq h1, h2]⟩

theorem Sem.sum (S : Sem P R A) {d : Int} (l : List (Poly P R)) (hl : ∀ q ∈ l, S.G d q) (p : Poly P R) (hp : S.G d p) :
    S.G d (l.foldl Poly.add p) ∧ S.s (l.foldl Poly.add p) = S.s p + (l.map S.s).sum := by
  induction l generalizing p with
  | nil => simp [hp]
  | cons q l ih =>
    obtain ⟨h1, h2⟩ := ih (fun r hr => hl r (by simp [hr])) _ (S.gadd hp (hl q (by simp)))
    exact ⟨h1, by rw [List.foldl_cons, h2, S.sadd]; simp [add_assoc]⟩

/-! ### two interpretations -/

/-- The Laurent polynomials. -/
noncomputable def laurent (P : Nat) (R : Type) [CommRing R] [DecidableEq R] : Sem P R (AddMonoidAlgebra R (Fin P → Int)) where
  G _ _ := True
  s := toLaurent
  gadd _ _ := trivial
  gsub _ _ := trivial
  gneg _ := trivial
  gadd0 _ := trivial
  gmul1 _ := trivial
  gmul _ _ := trivial
  sadd p q := by rw [Poly.add, toLaurent_subOrAdd]; simp
  ssub p q := by rw [Poly.sub, toLaurent_subOrAdd]; simp [sub_eq_add_neg]
  sneg := toLaurent_neg
  sadd0 p := by
    rw [addScalar, subOrAddScalar, toLaurent_simplify, toLaurent_mk, List.map_cons, List.sum_cons]
    simp [toLaurent]
  smul1 p := by simp [mulScalar]
  smul _ _ := toLaurent_mul _ _

/-- The Laurent polynomials with restricted exponents. -/
noncomputable def laurentOn (S : Int → Expo P → Prop) (hS : ∀ d d' a b, S d a → S d' b → S (d + d') (a + b)) :
    Sem P R (AddMonoidAlgebra R (Fin P → Int)) :=
  { laurent P R with
    G := fun d p => RowsIn (S d) p
    gadd := rowsIn_add
    gsub := rowsIn_sub
    gneg := rowsIn_neg
    gadd0 := rowsIn_addScalar_zero
    gmul1 := fun h => rowsIn_mulScalar h 1
    gmul := fun hp hq => rowsIn_mul hp hq (hS _ _)
    smul := fun _ _ => toLaurent_mul _ _ }

section values
variable {K : Type} [Field K] [DecidableEq K] [Algebra K R]

/-- The value in `R` at the point `x`. -/
noncomputable def rev (x : Fin P → K) (p : Poly P R) : R := (p.terms.map (fun t => t.2 * algebraMap K R (mono x t.1))).sum

theorem rev_eq (x : Fin P → K) (p : Poly P R) :
    rev x p = lsum (fun e => AddMonoidHom.mulRight (algebraMap K R (mono x e))) p.terms := rfl

theorem rev_simplify (x : Fin P → K) (p : Poly P R) : rev x p.simplify = rev x p := by rw [rev_eq, rev_eq, lsum_simplify]

theorem rev_mul (x : Fin P → K) {p q : Poly P R} (hp : RowsIn (fun e => ∀ i, 0 ≤ e i) p) (hq : RowsIn (fun e => ∀ i, 0 ≤ e i) q) :
    rev x (p.mul q) = rev x p * rev x q := by
  rw [Poly.mul, rev_simplify]
  unfold rev RowsIn at *
  generalize p.terms = l at hp
  induction l with
  | nil => simp
  | cons s l ih =>
    simp only [List.flatMap_cons, List.map_append, List.sum_append, List.map_cons, List.sum_cons, add_mul]
    rw [ih (fun t ht => hp t (by simp [ht]))]
    congr 1
    rw [List.map_map, ← List.sum_map_mul_left]
    congr 1
    refine List.map_congr_left fun t ht => ?_
    simp only [Function.comp]
    by_cases hs0 : s.2 = 0
    · simp [hs0]
    by_cases ht0 : t.2 = 0
    · simp [ht0]
    rw [mono_add x _ _ (fun i _ => hq t ht ht0 i) (fun i _ => hp s (by simp) hs0 i), map_mul]; ring

/-- The values at a point, for homogeneous polynomials. -/
noncomputable def values (x : Fin P → K) : Sem P R R where
  G d p := RowsIn (Homog d) p
  s := rev x
  gadd := rowsIn_add
  gsub := rowsIn_sub
  gneg := rowsIn_neg
  gadd0 := rowsIn_addScalar_zero
  gmul1 h := rowsIn_mulScalar h 1
  gmul hp hq := rowsIn_mul hp hq homog_add
  sadd p q := by
    rw [Poly.add, subOrAdd, rev_simplify]; simp [rev]
  ssub p q := by
    rw [Poly.sub, subOrAdd, rev_simplify]
    simp only [rev, List.map_append, List.sum_append, List.map_map, if_true, sub_eq_add_neg]
    congr 1
    induction q.terms with
    | nil => simp
    | cons t l ih => simp only [List.map_cons, List.sum_cons, ih, Function.comp]; ring
  sneg p := by
    unfold rev Poly.neg
    simp only [List.map_map]
    induction p.terms with
    | nil => simp
    | cons t l ih => simp only [List.map_cons, List.sum_cons, ih, Function.comp]; ring
  sadd0 p := by rw [addScalar, subOrAddScalar, rev_simplify]; simp [rev]
  smul1 p := by simp [mulScalar]
  smul hp hq := rev_mul x (hp.mono fun _ h => h.1) (hq.mono fun _ h => h.1)

theorem rowsIn_linear (c : Fin P → R) {S : Expo P → Prop} (h : ∀ i, c i ≠ 0 → S (fun k => if k = i then (1 : Int) else 0)) :
    RowsIn S (linear c) := by
  unfold linear
  simp only
  split
  · exact rowsIn_zero _
  · intro t ht _
    simp only [List.mem_filterMap] at ht
    obtain ⟨i, _, hi⟩ := ht
    split at hi
    · simp at hi
    · rename_i h0
      simp only [Option.some.injEq] at hi
      subst hi
      exact h i h0

theorem homog_linear (c : Fin P → R) : RowsIn (Homog 1) (linear c) := by
  unfold linear
  simp only
  split
  · exact rowsIn_zero _
  · intro t ht _
    simp only [List.mem_filterMap] at ht
    obtain ⟨i, _, hi⟩ := ht
    split at hi
    · simp at hi
    · simp only [Option.some.injEq] at hi
      subst hi
      refine ⟨fun k => ?_, by simp⟩
      simp only
      split <;> simp

theorem rev_linear (x : Fin P → K) (c : Fin P → R) : rev x (linear c) = ∑ i, c i * algebraMap K R (x i) := by
  have h : ∀ l : List (Fin P), ((l.filterMap (fun i => if c i = 0 then none else
      some ((fun k => if k = i then (1 : Int) else 0 : Expo P), c i))).map
        (fun t => t.2 * algebraMap K R (mono x t.1))).sum = (l.map (fun i => c i * algebraMap K R (x i))).sum := by
    intro l
    induction l with
    | nil => simp
    | cons i l ih =>
      rw [List.filterMap_cons]
      by_cases hi : c i = 0
      · simp [hi, ih]
      · simp only [hi, if_false, List.map_cons, List.sum_cons, ih]
        congr 2
        unfold mono
        rw [Finset.prod_eq_single i] <;> simp +contextual
  rw [← List.sum_ofFn, List.ofFn_eq_map, ← h]
  unfold linear rev
  simp only
  split
  · rename_i h0
    rw [List.isEmpty_iff] at h0
    rw [h0]
    simp [zeroPoly]
  · rfl

theorem asInt_eq {num : R → Option Int} {q : Poly P R} (h : ∀ t ∈ q.terms, Exact num t.2) : asInt num q = q := by
  unfold asInt
  split
  · rename_i l hl
    suffices hs : l = q.terms by rw [hs]
    generalize q.terms = l' at h hl
    induction l' generalizing l with
    | nil => simp only [List.mapM_nil] at hl; cases hl; rfl
    | cons t l' ih =>
      rw [List.mapM_cons] at hl
      simp only [Option.bind_eq_bind, Option.bind_eq_some_iff, Option.map_eq_some_iff] at hl
      obtain ⟨u, ⟨z, hz, rfl⟩, v, hv, h2⟩ := hl
      cases h2
      rw [ih v (fun t ht => h t (by simp [ht])) hv]
      congr 1
      exact Prod.ext rfl (h t (by simp) z hz).symm
  · rfl

theorem exact_linear {num : R → Option Int} {c : Fin P → R} (h : ∀ i, Exact num (c i)) (h0 : Exact num 0) :
    asInt num (linear c) = linear c := by
  refine asInt_eq ?_
  intro t ht
  unfold linear at ht
  simp only at ht
  split at ht
  · simp only [zeroPoly, List.mem_singleton] at ht
    rw [ht]; exact h0
  · simp only [List.mem_filterMap] at ht
    obtain ⟨i, _, hi⟩ := ht
    split at hi
    · simp at hi
    · simp only [Option.some.injEq] at hi
      subst hi
      exact h i

theorem homog_asInt {num : R → Option Int} {q : Poly P R} {S : Expo P → Prop}
    (h0 : ∀ z, num 0 = some z → (z : R) = 0) (h : RowsIn S q) : RowsIn S (asInt num q) := by
  unfold asInt
  split
  · rename_i l hl
    intro t ht ht0
    have : ∃ s ∈ q.terms, s.1 = t.1 ∧ (num s.2).map (fun z : Int => (z : R)) = some t.2 := by
      clear h
      generalize q.terms = l' at hl
      induction l' generalizing l with
      | nil => simp only [List.mapM_nil] at hl; cases hl; simp at ht
      | cons s l' ih =>
        rw [List.mapM_cons] at hl
        simp only [Option.bind_eq_bind, Option.bind_eq_some_iff, Option.map_eq_some_iff] at hl
        obtain ⟨u, ⟨z, hz, rfl⟩, v, hv, h2⟩ := hl
        cases h2
        rcases List.mem_cons.1 ht with rfl | ht
        · exact ⟨s, by simp, rfl, by simp [hz]⟩
        · obtain ⟨s', hs', h3⟩ := ih v ht hv
          exact ⟨s', by simp [hs'], h3⟩
    obtain ⟨s, hs, h1, h2⟩ := this
    rw [← h1]
    refine h s hs fun hs0 => ht0 ?_
    rw [hs0, Option.map_eq_some_iff] at h2
    obtain ⟨z, hz, h3⟩ := h2
    rw [← h3, h0 z hz]
  · exact h

variable [Invertible (2 : R)]

theorem doubleSum_sem (S : Sem P R A) {num : R → Option Int} {p : Props P D R} (hM : ∀ a b, S.G 1 (matM num p a b)) (hQ : ∀ a, S.G 1 (vecQ p a)) :
    S.G ((D : Int) + 2) (doubleSum num p) ∧
    S.s (doubleSum num p) = ∑ i, ∑ j, S.s (vecQ p i) * Matrix.adjugate (Matrix.of (fun a b => S.s (matM num p a b))) i j * S.s (vecQ p j) := by
  have ht : ∀ i j, S.G ((D : Int) + 2) ((FromProps.mulAdjugate D (matM num p) (vecQ p i) i j).mul (vecQ p j)) ∧
      S.s ((FromProps.mulAdjugate D (matM num p) (vecQ p i) i j).mul (vecQ p j)) =
        S.s (vecQ p i) * Matrix.adjugate (Matrix.of (fun a b => S.s (matM num p a b))) i j * S.s (vecQ p j) := by
    intro i j
    obtain ⟨h1, h2⟩ := S.mulAdjugate D (matM num p) hM (vecQ p i) (hQ i) i j
    refine ⟨?_, by rw [S.smul h1 (hQ j), h2]⟩
    have := S.gmul h1 (hQ j)
    convert this using 1
    ring
  set L := (List.finRange (D+1)).flatMap (fun i => (List.finRange (D+1)).map (fun j =>
      (FromProps.mulAdjugate D (matM num p) (vecQ p i) i j).mul (vecQ p j))) with hL
  have hG : ∀ q ∈ L, S.G ((D : Int) + 2) q := by
    intro q hq
    simp only [hL, List.mem_flatMap, List.mem_map] at hq
    obtain ⟨i, _, j, _, rfl⟩ := hq
    exact (ht i j).1
  have hs : (L.map S.s).sum = ∑ i, ∑ j, S.s (vecQ p i) * Matrix.adjugate (Matrix.of (fun a b => S.s (matM num p a b))) i j * S.s (vecQ p j) := by
    rw [hL, List.map_flatMap, List.flatMap_def, List.sum_flatten, List.map_map, ← List.sum_ofFn, List.ofFn_eq_map]
    congr 1
    refine List.map_congr_left fun i _ => ?_
    rw [← List.sum_ofFn, List.ofFn_eq_map]
    simp only [Function.comp, List.map_map]
    congr 1
    exact List.map_congr_left fun j _ => (ht i j).2
  have hne : L ≠ [] := by
    intro h
    have : (FromProps.mulAdjugate D (matM num p) (vecQ p 0) 0 0).mul (vecQ p 0) ∈ L := by
      simp only [hL, List.mem_flatMap, List.mem_map]
      exact ⟨0, List.mem_finRange _, 0, List.mem_finRange _, rfl⟩
    rw [h] at this; simp at this
  unfold doubleSum
  rw [← hL, ← hs]
  cases hc : L with
  | nil => exact absurd hc hne
  | cons t ts =>
    rw [hc] at hG
    have := S.sum ts (fun q hq => hG q (by simp [hq])) (t.addScalar 0) (S.gadd0 (hG t (by simp)))
    exact ⟨this.1, by simp only; rw [this.2, S.sadd0]; simp⟩

theorem matM_eq {num : R → Option Int} {p : Props P D R} (h : IntegerForm num p) (a b : Fin (D+1)) :
    matM num p a b = linear (fun i => if a = b then p.quad i a b else p.quad i (min a b) (max a b) * ⅟2) := by
  refine exact_linear (fun i => ?_) h.1
  have := h.2 i (min a b) (max a b) (le_trans (min_le_left _ _) (le_max_left _ _))
  by_cases hab : a = b
  · subst hab; simpa using this
  · have h2 : min a b ≠ max a b := fun h => hab (by
      rcases le_total a b with h3 | h3
      · simpa [min_eq_left h3, max_eq_right h3] using h
      · simpa [min_eq_right h3, max_eq_left h3] using h.symm)
    simpa [hab, h2] using this

theorem homog_matM {num : R → Option Int} {p : Props P D R} (h0 : ∀ z, num 0 = some z → (z : R) = 0) (a b : Fin (D+1)) :
    RowsIn (Homog 1) (matM num p a b) := homog_asInt h0 (homog_linear _)

end values

section square
variable {K E : Type} [Field K] [AddCommGroup E] [Module K E]
variable {m : Nat}

theorem sum_sym (h2 : (2 : K) ≠ 0) (c g : Fin m → Fin m → K) (hg : ∀ a b, g a b = g b a) :
    (∑ a, ∑ b, if a ≤ b then c a b * g a b else 0) =
      ∑ a, ∑ b, (if a = b then c a b else c (min a b) (max a b) * 2⁻¹) * g a b := by
  set h : Fin m → Fin m → K := fun a b => if a ≤ b then c a b * g a b else 0 with hh
  have h1 : ∀ a b, (if a = b then c a b else c (min a b) (max a b) * 2⁻¹) * g a b = (h a b + h b a) * 2⁻¹ := by
    intro a b
    rcases lt_trichotomy a b with hab | hab | hab
    · simp only [hh, hab.ne, hab.le, not_le.2 hab, if_true, if_false, min_eq_left hab.le, max_eq_right hab.le]; ring
    · subst hab
      simp only [hh, le_refl, if_true]
      field_simp; ring
    · simp only [hh, hab.ne', hab.le, not_le.2 hab, if_true, if_false, min_eq_right hab.le, max_eq_left hab.le]
      rw [hg a b]; ring
  simp only [h1]
  rw [show (∑ a, ∑ b, (h a b + h b a) * 2⁻¹) = (∑ a, ∑ b, h a b) * 2⁻¹ + (∑ a, ∑ b, h b a) * 2⁻¹ by
    simp only [add_mul, Finset.sum_add_distrib, Finset.sum_mul]]
  rw [Finset.sum_comm (f := fun a b => h b a), ← mul_add, ← two_mul, mul_inv_cancel₀ h2, mul_one]

theorem complete_square (A : Matrix (Fin m) (Fin m) K) (hA : Aᵀ = A) (hdet : A.det ≠ 0) (B : LinearMap.BilinForm K E)
    (hB : ∀ u v, B u v = B v u) (q : Fin m → E) :
    ∃ v : Fin m → E, ∀ k : Fin m → E,
      (∑ a, ∑ b, A a b * B (k a) (k b)) - 2 * ∑ a, B (k a) (q a) =
      (∑ a, ∑ b, A a b * B (k a - v a) (k b - v b)) - (∑ a, ∑ b, A.adjugate a b * B (q a) (q b)) / A.det := by
  have hAs : ∀ a b, A b a = A a b := fun a b => congrFun (congrFun hA a) b
  set v : Fin m → E := fun a => ∑ b, A⁻¹ a b • q b with hv
  have hmul : A * A⁻¹ = 1 := Matrix.mul_nonsing_inv A (Ne.isUnit hdet)
  have hAv : ∀ a, ∑ b, A a b • v b = q a := by
    intro a
    simp only [hv, Finset.smul_sum, smul_smul]
    rw [Finset.sum_comm]
    have : ∀ c, ∑ b, (A a b * A⁻¹ b c) • q c = (1 : Matrix (Fin m) (Fin m) K) a c • q c := by
      intro c
      rw [← Finset.sum_smul, ← hmul, Matrix.mul_apply]
    simp only [this, Matrix.one_apply, ite_smul, one_smul, zero_smul]
    simp
  refine ⟨v, fun k => ?_⟩
  have e1 : ∀ w : Fin m → E, ∑ a, ∑ b, A a b * B (w a) (v b) = ∑ a, B (w a) (q a) := by
    intro w
    refine Finset.sum_congr rfl fun a _ => ?_
    rw [← hAv a, map_sum]
    simp
  have e2 : ∑ a, ∑ b, A a b * B (v a) (k b) = ∑ a, B (k a) (q a) := by
    rw [Finset.sum_comm, ← e1 k]
    refine Finset.sum_congr rfl fun a _ => Finset.sum_congr rfl fun b _ => ?_
    rw [hAs, hB]
  have e3 : ∑ a, B (v a) (q a) = (∑ a, ∑ b, A.adjugate a b * B (q a) (q b)) / A.det := by
    rw [Finset.sum_div]
    refine Finset.sum_congr rfl fun a _ => ?_
    simp only [hv, map_sum, LinearMap.sum_apply, map_smul, LinearMap.smul_apply, smul_eq_mul]
    rw [Finset.sum_div]
    refine Finset.sum_congr rfl fun b _ => ?_
    rw [Matrix.inv_def, Matrix.smul_apply, Ring.inverse_eq_inv', smul_eq_mul, hB (q b)]
    field_simp
  have e4 : ∑ a, ∑ b, A a b * B (k a - v a) (k b - v b) =
      (∑ a, ∑ b, A a b * B (k a) (k b)) - (∑ a, ∑ b, A a b * B (k a) (v b)) - (∑ a, ∑ b, A a b * B (v a) (k b))
        + ∑ a, ∑ b, A a b * B (v a) (v b) := by
    simp only [← Finset.sum_sub_distrib, ← Finset.sum_add_distrib]
    refine Finset.sum_congr rfl fun a _ => Finset.sum_congr rfl fun b _ => ?_
    simp only [map_sub, LinearMap.sub_apply]; ring
  rw [e4, e1, e2, e1, e3]; ring

end square
end FromProps
end SecDec
