import Mathlib.Data.List.MinMax
import Mathlib.Algebra.GroupWithZero.Basic
import Mathlib.Algebra.GroupWithZero.Units.Basic
import Verif.Proof.PolyCanon
set_option linter.unusedSectionVars false
namespace SecDec
namespace Poly
variable {n : Nat} {R : Type} [CommRing R] [DecidableEq R]

/-- `single` as additive hom. -/
noncomputable def laurentHom (e : Expo n) : R →+ AddMonoidAlgebra R (Fin n → Int) where
  toFun c := AddMonoidAlgebra.single e c
  map_zero' := by simp
  map_add' := AddMonoidAlgebra.single_add _

theorem toLaurent_eq (p : Poly n R) : p.toLaurent = lsum laurentHom p.terms := rfl

theorem toLaurent_simplify (p : Poly n R) : p.simplify.toLaurent = p.toLaurent := by
  rw [toLaurent_eq, toLaurent_eq, lsum_simplify]

theorem toLaurent_mk (l : List (Expo n × R)) :
    (⟨l⟩ : Poly n R).toLaurent = (l.map (fun t => AddMonoidAlgebra.single t.1 t.2)).sum := rfl

theorem toLaurent_neg (p : Poly n R) : p.neg.toLaurent = - p.toLaurent := by
  rw [neg, toLaurent_mk, toLaurent, List.map_map]
  induction p.terms with
  | nil => simp
  | cons t l ih => simp [ih, add_comm]

theorem toLaurent_subOrAdd (p q : Poly n R) (s : Bool) :
    (p.subOrAdd q s).toLaurent = p.toLaurent + (if s then - q.toLaurent else q.toLaurent) := by
  rw [subOrAdd, toLaurent_simplify, toLaurent_mk, List.map_append, List.sum_append]
  congr 1
  cases s
  · simp [toLaurent]
  · have := toLaurent_neg q
    simpa [neg, toLaurent_mk] using this

theorem toLaurent_zero : (zeroPoly : Poly n R).toLaurent = 0 := by simp [zeroPoly, toLaurent]

theorem toLaurent_mul (p q : Poly n R) : (p.mul q).toLaurent = p.toLaurent * q.toLaurent := by
  rw [mul, toLaurent_simplify, toLaurent_mk, toLaurent, toLaurent]
  induction p.terms with
  | nil => simp
  | cons t l ih =>
    simp only [List.flatMap_cons, List.map_append, List.sum_append, List.map_cons, List.sum_cons,
      add_mul, ih]
    congr 1
    induction q.terms with
    | nil => simp
    | cons u m ih2 =>
      simp only [List.map_cons, List.sum_cons, mul_add, ih2, AddMonoidAlgebra.single_mul_single]
      rw [add_comm u.1, mul_comm u.2]

theorem toLaurent_iterativePow (p : Poly n R) (k : Nat) (hk : 1 ≤ k) :
    (iterativePow p p k).toLaurent = p.toLaurent ^ k := by
  induction k using Nat.strong_induction_on with
  | _ k ih =>
    rw [iterativePow]
    split
    · have : k = 1 := by omega
      subst this; simp
    · simp only
      split
      · rename_i h
        rw [toLaurent_mul, ih (k/2) (by omega) (by omega), ← pow_add]
        congr 1; omega
      · rename_i h
        rw [toLaurent_mul, toLaurent_mul, ih (k/2) (by omega) (by omega), ← pow_add, ← pow_succ]
        congr 1; omega

/-- The exponent rows of `simplify` come from the input (or it is the zero polynomial). -/
theorem simplify_expo_subset (p : Poly n R) (t : Expo n × R) (ht : t ∈ p.simplify.terms) :
    (∃ u ∈ p.terms, u.1 = t.1) ∨ t.1 = 0 := by
  rw [simplify_nz] at ht
  split at ht
  · right
    simp [zeroPoly] at ht
    rw [ht]; rfl
  · left
    have := (List.mem_filter.1 ht).1
    have h2 := (List.of_mem_zip this).1
    obtain ⟨u, hu, hu2⟩ := List.mem_map.1 h2
    exact ⟨u, by simpa [sortedTerms] using hu, hu2⟩

end Poly

namespace Poly
variable {n : Nat} {K : Type} [Field K] [DecidableEq K]

/-- Evaluation as additive functional. -/
def evalHom (x : Fin n → K) (e : Expo n) : K →+ K := AddMonoidHom.mulRight (mono x e)

theorem eval_eq (p : Poly n K) (x : Fin n → K) : p.eval x = lsum (evalHom x) p.terms := rfl

theorem eval_simplify (p : Poly n K) (x : Fin n → K) : p.simplify.eval x = p.eval x := by
  rw [eval_eq, eval_eq, lsum_simplify]

theorem mono_zero (x : Fin n → K) : mono x 0 = 1 := by simp [mono]

theorem mono_add (x : Fin n → K) (a b : Expo n)
    (ha : ∀ i, x i = 0 → 0 ≤ a i) (hb : ∀ i, x i = 0 → 0 ≤ b i) :
    mono x (a + b) = mono x a * mono x b := by
  unfold mono
  rw [← Finset.prod_mul_distrib]
  apply Finset.prod_congr rfl
  intro i _
  by_cases h : x i = 0
  · obtain ⟨k, hk⟩ := Int.eq_ofNat_of_zero_le (ha i h)
    obtain ⟨l, hl⟩ := Int.eq_ofNat_of_zero_le (hb i h)
    rw [Pi.add_apply, hk, hl, ← Int.natCast_add]
    simp only [zpow_natCast, pow_add]
  · exact zpow_add₀ h _ _

theorem eval_mk (l : List (Expo n × K)) (x : Fin n → K) :
    (⟨l⟩ : Poly n K).eval x = (l.map (fun t => t.2 * mono x t.1)).sum := rfl

theorem eval_neg (p : Poly n K) (x : Fin n → K) : p.neg.eval x = - p.eval x := by
  rw [neg, eval_mk, eval, List.map_map]
  induction p.terms with
  | nil => simp
  | cons t l ih => simp only [List.map_cons, List.sum_cons, ih]; simp [add_comm]

theorem eval_zero (x : Fin n → K) : (zeroPoly : Poly n K).eval x = 0 := by simp [zeroPoly, eval]

theorem eval_subOrAdd (p q : Poly n K) (s : Bool) (x : Fin n → K) :
    (p.subOrAdd q s).eval x = p.eval x + (if s then - q.eval x else q.eval x) := by
  rw [subOrAdd, eval_simplify, eval_mk, List.map_append, List.sum_append]
  congr 1
  cases s
  · simp [eval]
  · have := eval_neg q x
    simpa [neg, eval_mk, Function.comp_def] using this

theorem eval_mul (p q : Poly n K) (x : Fin n → K) (hp : p.Defined x) (hq : q.Defined x) :
    (p.mul q).eval x = p.eval x * q.eval x := by
  rw [mul, eval_simplify, eval_mk, eval, eval]
  unfold Defined at hp hq
  generalize p.terms = lp at hp ⊢
  generalize q.terms = lq at hq ⊢
  induction lp with
  | nil => simp
  | cons t l ih =>
    simp only [List.flatMap_cons, List.map_append, List.sum_append, List.map_cons, List.sum_cons,
      add_mul, ih (fun t ht => hp t (List.mem_cons_of_mem _ ht))]
    congr 1
    have ht := hp t (List.mem_cons_self)
    clear ih
    induction lq with
    | nil => simp
    | cons u m ih2 =>
      simp only [List.map_cons, List.sum_cons, mul_add, ih2 (fun t ht => hq t (List.mem_cons_of_mem _ ht))]
      rw [mono_add x u.1 t.1 (hq u List.mem_cons_self) ht]
      ring

theorem Defined.simplify {p : Poly n K} {x : Fin n → K} (hp : p.Defined x) : p.simplify.Defined x := by
  intro t ht i hi
  rcases simplify_expo_subset p t ht with ⟨u, hu, h⟩ | h
  · rw [← h]; exact hp u hu i hi
  · rw [h]; simp

theorem Defined.mul {p q : Poly n K} {x : Fin n → K} (hp : p.Defined x) (hq : q.Defined x) :
    (p.mul q).Defined x := by
  apply Defined.simplify
  intro t ht i hi
  obtain ⟨s, hs, h⟩ := List.mem_flatMap.1 ht
  obtain ⟨u, hu, rfl⟩ := List.mem_map.1 h
  exact add_nonneg (hq u hu i hi) (hp s hs i hi)

theorem iterativePow_eval (p : Poly n K) (x : Fin n → K) (hp : p.Defined x) (k : Nat) (hk : 1 ≤ k) :
    (iterativePow p p k).Defined x ∧ (iterativePow p p k).eval x = p.eval x ^ k := by
  induction k using Nat.strong_induction_on with
  | _ k ih =>
    rw [iterativePow]
    split
    · have : k = 1 := by omega
      subst this; exact ⟨hp, by simp⟩
    · simp only
      obtain ⟨h1, h2⟩ := ih (k/2) (by omega) (by omega)
      split
      · rename_i h
        refine ⟨h1.mul h1, ?_⟩
        rw [eval_mul _ _ _ h1 h1, h2, ← pow_add]
        congr 1; omega
      · rename_i h
        refine ⟨(h1.mul h1).mul hp, ?_⟩
        rw [eval_mul _ _ _ (h1.mul h1) hp, eval_mul _ _ _ h1 h1, h2, ← pow_add, ← pow_succ]
        congr 1; omega

theorem mono_update (x : Fin n → K) (i : Fin n) (v : K) (e : Expo n) :
    mono (Function.update x i v) e = v ^ (e i) * ∏ k ∈ Finset.univ.erase i, x k ^ (e k) := by
  unfold mono
  rw [← Finset.mul_prod_erase _ _ (Finset.mem_univ i)]
  congr 1
  · simp
  · apply Finset.prod_congr rfl
    intro k hk
    rw [Function.update_of_ne (Finset.ne_of_mem_erase hk)]

theorem mono_update_expo (x : Fin n → K) (i : Fin n) (k : Int) (e : Expo n) :
    mono x (Function.update e i k) = x i ^ k * ∏ j ∈ Finset.univ.erase i, x j ^ (e j) := by
  unfold mono
  rw [← Finset.mul_prod_erase _ _ (Finset.mem_univ i)]
  congr 1
  · simp
  · apply Finset.prod_congr rfl
    intro k hk
    rw [Function.update_of_ne (Finset.ne_of_mem_erase hk)]

theorem replaceCoeff_eq (v : K) (t : Expo n × K) (i : Fin n) (h : v = 0 → 0 ≤ t.1 i) :
    replaceCoeff v t i = t.2 * v ^ (t.1 i) := by
  unfold replaceCoeff
  split
  · rename_i hv
    subst hv
    split
    · rename_i h0; simp [h0]
    · rename_i h0; rw [zero_zpow _ h0, mul_zero]
  · split
    · rename_i h1; subst h1; simp
    · ring

theorem replace_eval (p : Poly n K) (i : Fin n) (v : K) (x : Fin n → K)
    (h : ∀ t ∈ p.terms, v = 0 → 0 ≤ t.1 i) :
    (p.replace i v).eval x = p.eval (Function.update x i v) := by
  unfold replace eval
  simp only [List.map_map]
  congr 1
  apply List.map_congr_left
  intro t ht
  simp only [Function.comp]
  rw [replaceCoeff_eq v t i (h t ht), mono_update, mono_update_expo]
  simp only [zpow_zero]
  ring

theorem replaceRemove_eval (p : Poly (n+1) K) (i : Fin (n+1)) (v : K) (x : Fin n → K)
    (h : ∀ t ∈ p.terms, v = 0 → 0 ≤ t.1 i) :
    (p.replaceRemove i v).eval x = p.eval (i.insertNth v x) := by
  unfold replaceRemove eval
  simp only [List.map_map]
  congr 1
  apply List.map_congr_left
  intro t ht
  simp only [Function.comp]
  rw [replaceCoeff_eq v t i (h t ht)]
  unfold mono
  rw [Fin.prod_univ_succAbove _ i]
  simp
  ring

end Poly
end SecDec
