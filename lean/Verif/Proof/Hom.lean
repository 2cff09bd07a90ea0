import Verif.Proof.PolyArith
import Verif.Proof.PolyCanon
/-
The exponents of the rows (with nonzero coefficients) of polynomials.
-/
set_option linter.unusedSectionVars false
namespace SecDec
namespace Poly
variable {n : Nat} {R : Type} [CommRing R] [DecidableEq R]

/-- All rows with a nonzero coefficient are in `S`. -/
def RowsIn (S : Expo n → Prop) (p : Poly n R) : Prop := ∀ t ∈ p.terms, t.2 ≠ 0 → S t.1

theorem RowsIn.mono {S T : Expo n → Prop} {p : Poly n R} (h : RowsIn S p) (hST : ∀ e, S e → T e) : RowsIn T p :=
  fun t ht h0 => hST _ (h t ht h0)

theorem rowsIn_simplify {S : Expo n → Prop} {p : Poly n R} (h : RowsIn S p) : RowsIn S p.simplify := by
  intro t ht h0
  rw [simplify_nz] at ht
  split at ht
  · simp only [zeroPoly, List.mem_singleton] at ht
    rw [ht] at h0; exact absurd rfl h0
  · have h1 := coeffOf_of_mem (nz_sorted p) ht
    rw [lsum_nz] at h1
    by_contra hc
    apply h0
    rw [← h1]
    unfold lsum
    apply List.sum_eq_zero
    intro y hy
    rw [List.mem_map] at hy
    obtain ⟨s, hs, rfl⟩ := hy
    unfold coeffHom
    by_cases hse : s.1 = t.1
    · by_cases hs0 : s.2 = 0
      · simp [hs0]
      · exact absurd (hse ▸ h s hs hs0) hc
    · simp [hse]

theorem rowsIn_zero (S : Expo n → Prop) : RowsIn S (zeroPoly : Poly n R) := by
  intro t ht h0
  simp only [zeroPoly, List.mem_singleton] at ht
  rw [ht] at h0; exact absurd rfl h0

theorem rowsIn_subOrAdd {S : Expo n → Prop} {p q : Poly n R} (hp : RowsIn S p) (hq : RowsIn S q) (b : Bool) :
    RowsIn S (p.subOrAdd q b) := by
  refine rowsIn_simplify ?_
  intro t ht h0
  simp only [List.mem_append, List.mem_map] at ht
  rcases ht with ht | ⟨s, hs, rfl⟩
  · exact hp t ht h0
  · refine hq s hs fun hs0 => h0 ?_
    cases b <;> simp [hs0]

theorem rowsIn_add {S : Expo n → Prop} {p q : Poly n R} (hp : RowsIn S p) (hq : RowsIn S q) : RowsIn S (p.add q) :=
  rowsIn_subOrAdd hp hq _
theorem rowsIn_sub {S : Expo n → Prop} {p q : Poly n R} (hp : RowsIn S p) (hq : RowsIn S q) : RowsIn S (p.sub q) :=
  rowsIn_subOrAdd hp hq _

theorem rowsIn_neg {S : Expo n → Prop} {p : Poly n R} (hp : RowsIn S p) : RowsIn S p.neg := by
  intro t ht h0
  simp only [neg, List.mem_map] at ht
  obtain ⟨s, hs, rfl⟩ := ht
  exact hp s hs fun hs0 => h0 (by simp [hs0])

theorem rowsIn_addScalar_zero {S : Expo n → Prop} {p : Poly n R} (hp : RowsIn S p) : RowsIn S (p.addScalar 0) := by
  refine rowsIn_simplify ?_
  intro t ht h0
  simp only [List.mem_cons] at ht
  rcases ht with rfl | ht
  · exact absurd rfl h0
  · exact hp t ht h0

theorem rowsIn_mulScalar {S : Expo n → Prop} {p : Poly n R} (hp : RowsIn S p) (c : R) : RowsIn S (p.mulScalar c) := by
  unfold mulScalar
  split
  · exact hp
  · split
    · exact rowsIn_zero S
    · intro t ht h0
      simp only [List.mem_map] at ht
      obtain ⟨s, hs, rfl⟩ := ht
      exact hp s hs fun hs0 => h0 (by simp [hs0])

theorem rowsIn_mul {S T U : Expo n → Prop} {p q : Poly n R} (hp : RowsIn S p) (hq : RowsIn T q)
    (h : ∀ a b, S a → T b → U (a + b)) : RowsIn U (p.mul q) := by
  refine rowsIn_simplify ?_
  intro t ht h0
  simp only [List.mem_flatMap, List.mem_map] at ht
  obtain ⟨s, hs, u, hu, rfl⟩ := ht
  show U (u.1 + s.1)
  rw [add_comm]
  exact h _ _ (hp s hs fun hs0 => h0 (by simp [hs0])) (hq u hu fun hu0 => h0 (by simp [hu0]))

/-- Non-negative powers, total degree `d`. -/
def Homog (d : Int) (e : Expo n) : Prop := (∀ i, 0 ≤ e i) ∧ ∑ i, e i = d

theorem homog_add {d d' : Int} (a b : Expo n) (ha : Homog d a) (hb : Homog d' b) : Homog (d + d') (a + b) :=
  ⟨fun i => add_nonneg (ha.1 i) (hb.1 i), by simp [Finset.sum_add_distrib, ha.2, hb.2]⟩

end Poly
end SecDec
