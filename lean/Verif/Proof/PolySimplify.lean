import Mathlib.Algebra.BigOperators.Group.Finset.Basic
import Mathlib.Algebra.BigOperators.Fin
import Mathlib.Algebra.MonoidAlgebra.Basic
import Mathlib.Data.List.GetD
import Mathlib.Tactic.Ring
import Mathlib.Tactic.Abel
import Verif.Proof.ArgSort
import Verif.Spec.Poly
set_option linter.unusedSectionVars false
namespace SecDec
namespace Poly
variable {n : Nat} {R : Type} [CommRing R] [DecidableEq R]

/-- Key used for sorting. -/
def key (t : Expo n × R) : List Int := List.ofFn t.1

theorem key_inj {a b : Expo n} (h : List.ofFn a = List.ofFn b) : a = b := List.ofFn_injective h

/-- Sorted terms. -/
def sortedTerms (p : Poly n R) : List (Expo n × R) :=
  p.terms.mergeSort (fun a b => rowLe (List.ofFn a.1) (List.ofFn b.1))

theorem takeIdx_terms (p : Poly n R) :
    takeIdx p.terms (argsort2D (p.expolist.map List.ofFn)) = p.sortedTerms := by
  have := takeIdx_argsort2D_map p.terms (fun t => List.ofFn t.1)
  rw [sortedTerms, ← this, expolist, List.map_map]
  rfl

theorem simplify_eq (p : Poly n R) :
    p.simplify =
      (let ex := p.sortedTerms.map (·.1)
       let cs' := mergeLoop ex (p.sortedTerms.map (·.2))
       let nz := (ex.zip cs').filter (fun t => decide (t.2 ≠ 0))
       if nz.length = 0 then zeroPoly else ⟨nz⟩) := by
  unfold simplify
  rw [← takeIdx_terms p, ← takeIdx_map, ← takeIdx_map]
  rfl

/-! ### The merge loop -/

/-- Loop invariant after the iterations `1, ..., i-1`. -/
structure MInv {M : Type} [AddCommGroup M] (f : Expo n → R →+ M) (ex : List (Expo n)) (cs0 : List R)
    (i : Nat) (s : MergeState R) : Prop where
  len : s.coeffs.length = cs0.length
  d1 : 1 ≤ s.dist
  di : s.dist ≤ i
  sum : ∑ k ∈ Finset.range cs0.length, f (ex.getD k 0) (s.coeffs.getD k 0)
      = ∑ k ∈ Finset.range cs0.length, f (ex.getD k 0) (cs0.getD k 0)
  prev : ∀ a, a < i - s.dist → ex.getD a 0 = ex.getD (i - s.dist) 0 → s.coeffs.getD a 0 = 0
  gap : ∀ a, i - s.dist < a → a < i → s.coeffs.getD a 0 = 0
  uniq : ∀ a b, a < b → b ≤ i - s.dist → ex.getD a 0 = ex.getD b 0 →
    s.coeffs.getD a 0 = 0 ∨ s.coeffs.getD b 0 = 0

theorem getD_set_eq (l : List R) (i k : Nat) (v : R) (h : i < l.length) :
    (l.set i v).getD k 0 = if k = i then v else l.getD k 0 := by
  simp only [List.getD_eq_getElem?_getD, List.getElem?_set]
  by_cases hk : i = k
  · subst hk; simp [h]
  · simp [hk, Ne.symm hk]

theorem mergeStep_inv {M : Type} [AddCommGroup M] (f : Expo n → R →+ M) (ex : List (Expo n))
    (cs0 : List R) (hsorted : ∀ a b, a ≤ b → b < cs0.length →
      rowLe (List.ofFn (ex.getD a 0)) (List.ofFn (ex.getD b 0)) = true)
    (i : Nat) (hi : i < cs0.length) (s : MergeState R) (h : MInv f ex cs0 i s) :
    MInv f ex cs0 (i+1) (mergeStep ex s i) := by
  obtain ⟨len, d1, di, sum, prev, gap, uniq⟩ := h
  set j := i - s.dist with hj
  have hji : j < i := by omega
  have sandwich : ∀ a, a ≤ j → ex.getD a 0 = ex.getD i 0 → ex.getD j 0 = ex.getD i 0 := by
    intro a haj hae
    apply key_inj
    apply rowLe_antisymm
    · exact hsorted j i (by omega) hi
    · rw [← hae]; exact hsorted a j haj (by omega)
  unfold mergeStep
  split
  · rename_i hz
    have e : i + 1 - (s.dist + 1) = j := by omega
    refine ⟨len, by simp, by simp; omega, sum, ?_, ?_, ?_⟩
    · simpa [e] using prev
    · intro a h1 h2
      simp only [e] at h1
      rcases Nat.lt_or_ge a i with h3 | h3
      · exact gap a h1 h3
      · have : a = i := by omega
        subst this; exact hz
    · simpa [e] using uniq
  · rename_i hnz
    have ex0 : (fun _ => 0 : Expo n) = 0 := rfl
    simp only [ex0, ← hj]
    split
    · rename_i hmatch
      have g : ∀ k, ((s.coeffs.set i (s.coeffs.getD i 0 + s.coeffs.getD j 0)).set j 0).getD k 0
          = if k = j then 0 else if k = i then s.coeffs.getD i 0 + s.coeffs.getD j 0
            else s.coeffs.getD k 0 := by
        intro k
        rw [getD_set_eq _ _ _ _ (by simp; omega), getD_set_eq _ _ _ _ (by omega)]
      refine ⟨by simp [len], by simp, by simp, ?_, ?_, ?_, ?_⟩
      · rw [← sum]
        have : ∀ k, f (ex.getD k 0) (((s.coeffs.set i (s.coeffs.getD i 0 + s.coeffs.getD j 0)).set j 0).getD k 0)
          = f (ex.getD k 0) (s.coeffs.getD k 0) +
            ((if k = i then f (ex.getD i 0) (s.coeffs.getD j 0) else 0)
              - (if k = j then f (ex.getD i 0) (s.coeffs.getD j 0) else 0)) := by
          intro k
          rw [g k]
          by_cases h1 : k = j
          · have : k ≠ i := by omega
            subst h1
            rw [if_pos rfl, if_neg this, if_pos rfl, hmatch]; simp
          · by_cases h2 : k = i
            · subst h2; simp [h1]
            · simp [h1, h2]
        simp only []
        rw [Finset.sum_congr rfl (fun k _ => this k), Finset.sum_add_distrib, Finset.sum_sub_distrib]
        rw [Finset.sum_ite_eq', Finset.sum_ite_eq']
        have hjl : j < cs0.length := by omega
        simp [hi, hjl]
      · intro a ha hae
        simp only [Nat.add_sub_cancel] at ha hae ⊢
        rw [g]
        by_cases h1 : a = j
        · simp [h1]
        · rw [if_neg h1, if_neg (by omega)]
          rcases Nat.lt_or_ge a j with h3 | h3
          · exact prev a h3 (by rw [hae, hmatch])
          · exact gap a (by omega) ha
      · intro a h1 h2; simp only [Nat.add_sub_cancel] at h1; omega
      · intro a b hab hb hae
        simp only [Nat.add_sub_cancel] at hb ⊢
        rw [g, g]
        by_cases h1 : a = j
        · simp [h1]
        · by_cases h2 : b = j
          · simp [h2]
          · rw [if_neg h1, if_neg h2, if_neg (show a ≠ i by omega)]
            by_cases h3 : b = i
            · left
              rcases Nat.lt_or_ge a j with h4 | h4
              · exact prev a h4 (by rw [hae, h3, hmatch])
              · exact gap a (by omega) (by omega)
            · rw [if_neg h3]
              rcases Nat.lt_or_ge j b with h4 | h4
              · right; exact gap b h4 (by omega)
              · exact uniq a b hab h4 hae
    · rename_i hno
      refine ⟨len, by simp, by simp, sum, ?_, ?_, ?_⟩
      · intro a ha hae
        simp only [Nat.add_sub_cancel] at ha hae
        rcases Nat.lt_or_ge j a with h3 | h3
        · exact gap a h3 ha
        · exact absurd (sandwich a h3 hae) hno
      · intro a h1 h2; simp only [Nat.add_sub_cancel] at h1; omega
      · intro a b hab hb hae
        simp only [Nat.add_sub_cancel] at hb
        by_cases h3 : b = i
        · subst h3; left
          rcases Nat.lt_or_ge j a with h3 | h3
          · exact gap a h3 hab
          · exact absurd (sandwich a h3 hae) hno
        · rcases Nat.lt_or_ge j b with h4 | h4
          · right; exact gap b h4 (by omega)
          · exact uniq a b hab h4 hae

theorem mergeLoop_inv {M : Type} [AddCommGroup M] (f : Expo n → R →+ M) (ex : List (Expo n))
    (cs0 : List R) (hsorted : ∀ a b, a ≤ b → b < cs0.length →
      rowLe (List.ofFn (ex.getD a 0)) (List.ofFn (ex.getD b 0)) = true)
    (k : Nat) (hk : k + 1 ≤ cs0.length) :
    MInv f ex cs0 (k+1) ((List.range' 1 k).foldl (mergeStep ex) { coeffs := cs0, dist := 1 }) := by
  induction k with
  | zero =>
    refine ⟨rfl, by simp, by simp, rfl, ?_, ?_, ?_⟩ <;> intros <;> simp at * <;> omega
  | succ k ih =>
    rw [List.range'_concat, List.foldl_append]
    have := mergeStep_inv f ex cs0 hsorted (k+1) (by omega) _ (ih (by omega))
    simpa [Nat.add_comm] using this

theorem mergeLoop_spec {M : Type} [AddCommGroup M] (f : Expo n → R →+ M) (ex : List (Expo n))
    (cs0 : List R) (hsorted : ∀ a b, a ≤ b → b < cs0.length →
      rowLe (List.ofFn (ex.getD a 0)) (List.ofFn (ex.getD b 0)) = true) :
    (mergeLoop ex cs0).length = cs0.length ∧
    (∑ k ∈ Finset.range cs0.length, f (ex.getD k 0) ((mergeLoop ex cs0).getD k 0)
      = ∑ k ∈ Finset.range cs0.length, f (ex.getD k 0) (cs0.getD k 0)) ∧
    (∀ a b, a < b → b < cs0.length → ex.getD a 0 = ex.getD b 0 →
      (mergeLoop ex cs0).getD a 0 = 0 ∨ (mergeLoop ex cs0).getD b 0 = 0) := by
  rcases Nat.eq_zero_or_pos cs0.length with h0 | hpos
  · have : cs0 = [] := List.eq_nil_of_length_eq_zero h0
    subst this
    simp [mergeLoop]
  · have h := mergeLoop_inv f ex cs0 hsorted (cs0.length - 1) (by omega)
    rw [show (cs0.length - 1 + 1) = cs0.length by omega] at h
    change MInv f ex cs0 cs0.length { coeffs := mergeLoop ex cs0, dist := _ } at h
    obtain ⟨len, d1, di, sum, prev, gap, uniq⟩ := h
    simp only at *
    refine ⟨len, sum, ?_⟩
    intro a b hab hb hae
    rcases Nat.lt_or_ge (cs0.length - ((List.range' 1 (cs0.length - 1)).foldl (mergeStep ex) { coeffs := cs0, dist := 1 }).dist) b with h | h
    · right; exact gap b h hb
    · exact uniq a b hab h hae

end Poly
end SecDec
