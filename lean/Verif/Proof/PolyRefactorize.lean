import Verif.Proof.PolyArith
set_option linter.unusedSectionVars false
namespace SecDec
namespace Poly
variable {n : Nat} {R : Type}

/-- `m` is the minimum of the exponents of variable `i` in `p`. -/
def IsMinExp (p : Poly n R) (i : Fin n) (m : Int) : Prop :=
  (∃ t ∈ p.terms, t.1 i = m) ∧ ∀ t ∈ p.terms, m ≤ t.1 i

theorem minPower_eq_some (p : Poly n R) (i : Fin n) (m : Int) :
    p.minPower i = some m ↔ p.IsMinExp i m := by
  unfold minPower IsMinExp
  rw [List.min?_eq_some_iff]
  simp only [List.mem_map, forall_exists_index, and_imp, forall_apply_eq_imp_iff₂]

theorem minPower_eq_none (p : Poly n R) (i : Fin n) : p.minPower i = none ↔ p.terms = [] := by
  unfold minPower
  rw [List.min?_eq_none_iff]
  simp

/-- Add the vector `k` to every exponent row. -/
def shiftBy (p : Poly n R) (k : Fin n → Int) : Poly n R := ⟨p.terms.map (fun t => (t.1 + k, t.2))⟩

theorem shiftPower_eq (p : Poly n R) (i : Fin n) (m : Int) :
    p.shiftPower i m = p.shiftBy (Pi.single i m) := by
  unfold shiftPower shiftBy
  congr 1
  apply List.map_congr_left
  intro t _
  refine Prod.ext ?_ rfl
  funext j
  by_cases h : j = i
  · subst h; simp
  · simp [h]

theorem shiftBy_shiftBy (p : Poly n R) (k l : Fin n → Int) :
    (p.shiftBy k).shiftBy l = p.shiftBy (k + l) := by
  unfold shiftBy
  simp [List.map_map, Function.comp_def, add_assoc]

theorem shiftBy_zero (p : Poly n R) : p.shiftBy 0 = p := by
  unfold shiftBy; simp

theorem isMinExp_shiftBy (p : Poly n R) (k : Fin n → Int) (i : Fin n) (m : Int) :
    (p.shiftBy k).IsMinExp i m ↔ p.IsMinExp i (m - k i) := by
  unfold IsMinExp shiftBy
  simp only [List.mem_map, forall_exists_index, and_imp]
  constructor
  · rintro ⟨⟨t, ⟨u, hu, rfl⟩, h2⟩, h3⟩
    refine ⟨⟨u, hu, by simp at h2; omega⟩, ?_⟩
    intro t ht
    have := h3 _ t ht rfl
    simp at this; omega
  · rintro ⟨⟨t, ht, h2⟩, h3⟩
    refine ⟨⟨_, ⟨t, ht, rfl⟩, by simp; omega⟩, ?_⟩
    rintro _ u hu rfl
    have := h3 u hu
    simp; omega

theorem IsMinExp.unique {p : Poly n R} {i : Fin n} {m m' : Int} (h : p.IsMinExp i m)
    (h' : p.IsMinExp i m') : m = m' := by
  obtain ⟨⟨t, ht, h1⟩, h2⟩ := h
  obtain ⟨⟨t', ht', h1'⟩, h2'⟩ := h'
  have := h2 t' ht'; have := h2' t ht
  omega

theorem foldlM_refactorizeOne (l : List (Fin n)) (prod res : Poly n R × Poly n R)
    (h : l.foldlM refactorizeOne prod = some res) :
    ∃ k : Fin n → Int, (∀ i ∈ l, prod.2.IsMinExp i (k i)) ∧ (∀ i, i ∉ l → k i = 0) ∧
      res.1 = prod.1.shiftBy k ∧ res.2 = prod.2.shiftBy (-k) := by
  induction l generalizing prod with
  | nil =>
    simp only [List.foldlM_nil, Option.pure_def, Option.some.injEq] at h
    subst h
    exact ⟨0, by simp, by simp, by simp [shiftBy_zero], by simp [shiftBy_zero]⟩
  | cons i l ih =>
    rw [List.foldlM_cons] at h
    unfold refactorizeOne at h
    cases hm : prod.2.minPower i with
    | none => simp [hm] at h
    | some m =>
      simp only [hm, Option.bind_eq_bind, Option.bind_some] at h
      obtain ⟨k, h1, h2, h3, h4⟩ := ih _ h
      rw [minPower_eq_some] at hm
      simp only [shiftPower_eq, shiftBy_shiftBy] at h1 h3 h4
      refine ⟨Pi.single i m + k, ?_, ?_, h3, ?_⟩
      · intro j hj
        by_cases hji : j = i
        · subst hji
          by_cases hjl : j ∈ l
          · have := h1 j hjl
            rw [isMinExp_shiftBy] at this
            simpa [add_comm] using this
          · simpa [h2 j hjl] using hm
        · have hjl : j ∈ l := by
            rcases List.mem_cons.1 hj with h | h
            · exact absurd h hji
            · exact h
          have := h1 j hjl
          rw [isMinExp_shiftBy] at this
          simpa [hji] using this
      · intro j hj
        have h5 : j ≠ i := fun h => hj (by simp [h])
        have h6 : j ∉ l := fun h => hj (by simp [h])
        simp [h5, h2 j h6]
      · rw [h4]; congr 1; rw [neg_add]; congr 1
        funext j; by_cases hji : j = i
        · subst hji; simp
        · simp [hji]

theorem foldlM_refactorizeOne_isSome (l : List (Fin n)) (prod : Poly n R × Poly n R)
    (h : prod.2.terms ≠ []) : (l.foldlM refactorizeOne prod).isSome := by
  induction l generalizing prod with
  | nil => simp
  | cons i l ih =>
    rw [List.foldlM_cons]
    unfold refactorizeOne
    cases hm : prod.2.minPower i with
    | none => rw [minPower_eq_none] at hm; exact absurd hm h
    | some m =>
      simp only [Option.bind_eq_bind, Option.bind_some]
      apply ih
      simpa [shiftPower] using h

theorem foldlM_refactorizeOne_none (l : List (Fin n)) (prod : Poly n R × Poly n R)
    (h : prod.2.terms = []) (hl : l ≠ []) : l.foldlM refactorizeOne prod = none := by
  cases l with
  | nil => exact absurd rfl hl
  | cons i l =>
    rw [List.foldlM_cons]
    unfold refactorizeOne
    rw [(minPower_eq_none prod.2 i).2 h]
    rfl

theorem toLaurent_shiftBy [CommRing R] (p : Poly n R) (k : Fin n → Int) :
    (p.shiftBy k).toLaurent = AddMonoidAlgebra.single k 1 * p.toLaurent := by
  unfold shiftBy toLaurent
  simp only [List.map_map]
  induction p.terms with
  | nil => simp
  | cons t l ih =>
    simp only [List.map_cons, List.sum_cons, mul_add, ih, AddMonoidAlgebra.single_mul_single, one_mul,
      Function.comp]
    rw [add_comm k]

end Poly
end SecDec
