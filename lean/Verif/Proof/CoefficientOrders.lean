import Verif.Model.Coefficient
import Verif.Spec.Coefficient
import Mathlib.Algebra.MvPolynomial.SchwartzZippel
import Mathlib.Tactic.Linarith
/-
Proofs for C66: the leading orders.
-/
namespace SecDec
namespace Coeff
open CoeffSpec Polynomial
variable {K : Type*} [Field K] {v n : ℕ}

theorem restrict_monomial (r : Fin v → K) (x : Fin v) (m : Fin v →₀ ℕ) (c : K) :
    restrict r x (MvPolynomial.monomial m c) = C (MvPolynomial.eval r (MvPolynomial.monomial (m.erase x) c)) * X ^ (m x) := by
  unfold restrict
  rw [MvPolynomial.aeval_monomial, MvPolynomial.eval_monomial]
  rw [Finsupp.prod_fintype _ _ (by simp), Finsupp.prod_fintype _ _ (by simp)]
  rw [← Finset.mul_prod_erase _ _ (Finset.mem_univ x), ← Finset.mul_prod_erase _ (fun i => r i ^ (m.erase x) i) (Finset.mem_univ x)]
  rw [if_pos rfl, Finsupp.erase_same, pow_zero, one_mul, map_mul, map_prod]
  have : ∏ i ∈ Finset.univ.erase x, (if i = x then (X : K[X]) else C (r i)) ^ m i = ∏ i ∈ Finset.univ.erase x, C (r i ^ (m.erase x) i) := by
    refine Finset.prod_congr rfl fun i hi => ?_
    rw [if_neg (Finset.ne_of_mem_erase hi), Finsupp.erase_ne (Finset.ne_of_mem_erase hi), C_pow]
  rw [this]
  show C c * _ = _
  ring

theorem coeff_restrict (r : Fin v → K) (x : Fin v) (P : MvPolynomial (Fin v) K) (k : ℕ) :
    (restrict r x P).coeff k = MvPolynomial.eval r (coefficientOf x k P) := by
  have e : restrict r x P = ∑ m ∈ P.support, restrict r x (MvPolynomial.monomial m (P.coeff m)) := by
    conv_lhs => rw [P.as_sum]
    unfold restrict
    rw [map_sum]
  rw [e, finsetSum_coeff, coefficientOf, map_sum, Finset.sum_filter]
  refine Finset.sum_congr rfl fun m _ => ?_
  rw [restrict_monomial, coeff_C_mul, coeff_X_pow]
  by_cases h : m x = k
  · rw [if_pos h.symm, if_pos h, mul_one]
  · rw [if_neg (Ne.symm h), if_neg h, mul_zero]

theorem coefficientOf_below {x : Fin v} {P : MvPolynomial (Fin v) K} {k : ℕ} (h : k < lowest x P) : coefficientOf x k P = 0 := by
  refine Finset.sum_eq_zero fun m hm => ?_
  rw [Finset.mem_filter, MvPolynomial.mem_support_iff] at hm
  exact absurd (Nat.sInf_le (s := {k | ∃ m, P.coeff m ≠ 0 ∧ m x = k}) ⟨m, hm.1, hm.2⟩) (by unfold lowest at h; omega)

theorem coeff_coefficientOf (x : Fin v) (P : MvPolynomial (Fin v) K) (m : Fin v →₀ ℕ) :
    (coefficientOf x (m x) P).coeff (m.erase x) = P.coeff m := by
  classical
  unfold coefficientOf
  rw [MvPolynomial.coeff_sum]
  simp only [MvPolynomial.coeff_monomial]
  rw [Finset.sum_eq_single m]
  · simp
  · intro m' hm' hne
    rw [Finset.mem_filter] at hm'
    rw [if_neg]
    intro e
    refine hne (Finsupp.ext fun j => ?_)
    by_cases hj : j = x
    · rw [hj, hm'.2]
    · have := DFunLike.congr_fun e j
      rwa [Finsupp.erase_ne hj, Finsupp.erase_ne hj] at this
  · intro hm
    rw [Finset.mem_filter, MvPolynomial.mem_support_iff] at hm
    simp only [and_true, not_not] at hm
    simp [hm]

theorem coefficientOf_lowest {x : Fin v} {P : MvPolynomial (Fin v) K} (h : P ≠ 0) : coefficientOf x (lowest x P) P ≠ 0 := by
  obtain ⟨m0, h0⟩ := MvPolynomial.ne_zero_iff.1 h
  obtain ⟨m, hm, e⟩ := Nat.sInf_mem (s := {k | ∃ m, P.coeff m ≠ 0 ∧ m x = k}) ⟨m0 x, m0, h0, rfl⟩
  intro h'
  apply hm
  rw [← coeff_coefficientOf x P m, e]
  show (coefficientOf x (lowest x P) P).coeff _ = 0
  rw [h', MvPolynomial.coeff_zero]

/-- The order of a polynomial as a Laurent series. -/
theorem order_poly {p : K[X]} {k : ℕ} (h0 : ∀ j < k, p.coeff j = 0) (hk : p.coeff k ≠ 0) :
    ((p : PowerSeries K) : LaurentSeries K) ≠ 0 ∧ ((p : PowerSeries K) : LaurentSeries K).order = k := by
  have hc : ∀ j : ℕ, ((p : PowerSeries K) : LaurentSeries K).coeff (j : ℤ) = p.coeff j := fun j => by
    rw [LaurentSeries.coeff_coe_powerSeries, Polynomial.coeff_coe]
  have hne : ((p : PowerSeries K) : LaurentSeries K).coeff (k : ℤ) ≠ 0 := by rw [hc]; exact hk
  have h1 : ((p : PowerSeries K) : LaurentSeries K) ≠ 0 := fun h => hne (by rw [h]; rfl)
  refine ⟨h1, le_antisymm (HahnSeries.order_le_of_coeff_ne_zero hne) ?_⟩
  by_contra hlt
  push Not at hlt
  have h2 := HahnSeries.coeff_order_eq_zero.not.2 h1
  rcases lt_or_ge ((p : PowerSeries K) : LaurentSeries K).order 0 with hn | hn
  · refine h2 ?_
    rw [PowerSeries.coeff_coe, if_pos hn]
  · obtain ⟨j, hj⟩ := Int.eq_ofNat_of_zero_le hn
    rw [hj, hc, h0 j (by omega)] at h2
    exact h2 rfl

theorem order_restrict {x : Fin v} {P : MvPolynomial (Fin v) K} {r : Fin v → K}
    (h : MvPolynomial.eval r (coefficientOf x (lowest x P) P) ≠ 0) :
    (((restrict r x P : K[X]) : PowerSeries K) : LaurentSeries K) ≠ 0 ∧
      (((restrict r x P : K[X]) : PowerSeries K) : LaurentSeries K).order = lowest x P := by
  refine order_poly (fun j hj => ?_) ?_
  · rw [coeff_restrict, coefficientOf_below hj, map_zero]
  · rw [coeff_restrict]; exact h

theorem order_laurent {x : Fin v} {N D : MvPolynomial (Fin v) K} {r : Fin v → K}
    (hN : MvPolynomial.eval r (coefficientOf x (lowest x N) N) ≠ 0) (hD : MvPolynomial.eval r (coefficientOf x (lowest x D) D) ≠ 0) :
    laurent (restrict r x N) (restrict r x D) ≠ 0 ∧
      (laurent (restrict r x N) (restrict r x D)).order = (lowest x N : ℤ) - lowest x D := by
  obtain ⟨h1, h2⟩ := order_restrict hN
  obtain ⟨h3, h4⟩ := order_restrict hD
  have h5 : laurent (restrict r x N) (restrict r x D) ≠ 0 := div_ne_zero h1 h3
  refine ⟨h5, ?_⟩
  have h6 : laurent (restrict r x N) (restrict r x D) * (((restrict r x D : K[X]) : PowerSeries K) : LaurentSeries K) =
      (((restrict r x N : K[X]) : PowerSeries K) : LaurentSeries K) := div_mul_cancel₀ _ h3
  have h7 := HahnSeries.order_mul h5 h3
  rw [h6, h2, h4] at h7
  omega

/-! ### The loop -/

theorem seriesZero_iff {f : LaurentSeries K} (hf : f ≠ 0) (m : ℤ) : seriesZero f m ↔ m ≤ f.order := by
  constructor
  · intro h
    by_contra hlt
    push Not at hlt
    exact HahnSeries.coeff_order_eq_zero.not.2 hf (h _ hlt)
  · intro h k hk
    exact HahnSeries.coeff_eq_zero_of_lt_order (by omega)

/-- What the loop returns for one regulator. -/
theorem loop_apply (f : Fin n → LaurentSeries K) (hf : ∀ i, f i ≠ 0) (maxorder : ℤ) (orders : Fin n → ℤ)
    (h : ∀ i, orders i = 0 ∨ (0 ≤ orders i ∧ orders i ≤ (f i).order ∧ orders i ≤ maxorder + 1)) (i : Fin n) :
    loop f maxorder orders i = if (f i).order ≤ max 0 (maxorder + 1) then (f i).order else 0 := by
  induction orders using loop.induct f maxorder with
  | case1 orders hex ih =>
    rw [loop, dif_pos hex]
    refine ih fun j => ?_
    unfold advance
    by_cases hr : retry f maxorder orders j
    · rw [if_pos hr]
      have h1 := (seriesZero_iff (hf j) _).1 hr.1
      have h2 := hr.2
      have h3 := h j
      right; refine ⟨?_, ?_, ?_⟩ <;> omega
    · rw [if_neg hr]; exact h j
  | case2 orders hex =>
    rw [loop, dif_neg hex]
    have hr : ¬ retry f maxorder orders i := fun h => hex ⟨i, h⟩
    unfold retry at hr
    rw [seriesZero_iff (hf i)] at hr
    unfold ldegree
    rw [seriesZero_iff (hf i)]
    have := h i
    split <;> split <;> first | rfl | omega

/-- A regulator whose series vanishes identically does not disturb. -/
theorem loop_zero (f : Fin n → LaurentSeries K) (maxorder : ℤ) (orders : Fin n → ℤ) (i : Fin n) (hf : f i = 0) :
    loop f maxorder orders i = 0 := by
  induction orders using loop.induct f maxorder with
  | case1 orders hex ih => rw [loop, dif_pos hex]; exact ih
  | case2 orders hex =>
    rw [loop, dif_neg hex]
    unfold ldegree
    rw [if_pos]
    intro k _
    rw [hf]; rfl

/-! ### Random numbers -/

theorem coefficientOf_totalDegree (x : Fin v) (k : ℕ) (P : MvPolynomial (Fin v) K) : (coefficientOf x k P).totalDegree ≤ P.totalDegree := by
  refine MvPolynomial.totalDegree_finsetSum_le fun m hm => ?_
  rw [Finset.mem_filter] at hm
  refine (MvPolynomial.totalDegree_monomial_le _ _).trans ?_
  refine le_trans ?_ (MvPolynomial.le_totalDegree hm.1)
  rw [Finsupp.sum_fintype _ _ (by simp), Finsupp.sum_fintype _ _ (by simp)]
  refine Finset.sum_le_sum fun j _ => ?_
  by_cases hj : j = x
  · rw [hj, Finsupp.erase_same]; exact Nat.zero_le _
  · rw [Finsupp.erase_ne hj]; exact le_rfl

/-- The polynomial which must not vanish. -/
noncomputable def discriminant (reg : Fin n → Fin v) (N D : MvPolynomial (Fin v) K) : MvPolynomial (Fin v) K :=
  N * D * ∏ i, (coefficientOf (reg i) (lowest (reg i) N) N * coefficientOf (reg i) (lowest (reg i) D) D)

theorem generic_iff (reg : Fin n → Fin v) (N D : MvPolynomial (Fin v) K) (r : Fin v → K) :
    Generic reg N D r ↔ MvPolynomial.eval r (discriminant reg N D) ≠ 0 := by
  unfold discriminant Generic
  rw [map_mul, map_mul, map_prod]
  simp only [map_mul]
  constructor
  · rintro ⟨h1, h2, h3⟩
    exact mul_ne_zero (mul_ne_zero h1 h2) (Finset.prod_ne_zero_iff.2 fun i _ => mul_ne_zero (h3 i).1 (h3 i).2)
  · intro h
    have h1 := left_ne_zero_of_mul h
    have h2 := Finset.prod_ne_zero_iff.1 (right_ne_zero_of_mul h)
    exact ⟨left_ne_zero_of_mul h1, right_ne_zero_of_mul h1,
      fun i => ⟨left_ne_zero_of_mul (h2 i (Finset.mem_univ i)), right_ne_zero_of_mul (h2 i (Finset.mem_univ i))⟩⟩

theorem discriminant_ne_zero (reg : Fin n → Fin v) {N D : MvPolynomial (Fin v) K} (hN : N ≠ 0) (hD : D ≠ 0) : discriminant reg N D ≠ 0 :=
  mul_ne_zero (mul_ne_zero hN hD) (Finset.prod_ne_zero_iff.2 fun _ _ => mul_ne_zero (coefficientOf_lowest hN) (coefficientOf_lowest hD))

theorem discriminant_totalDegree (reg : Fin n → Fin v) (N D : MvPolynomial (Fin v) K) :
    (discriminant reg N D).totalDegree ≤ (n + 1) * (N.totalDegree + D.totalDegree) := by
  unfold discriminant
  refine (MvPolynomial.totalDegree_mul _ _).trans ?_
  have h1 := MvPolynomial.totalDegree_mul N D
  have h2 := (MvPolynomial.totalDegree_finsetProd Finset.univ
    fun i : Fin n => coefficientOf (reg i) (lowest (reg i) N) N * coefficientOf (reg i) (lowest (reg i) D) D).trans
    (Finset.sum_le_card_nsmul _ _ (N.totalDegree + D.totalDegree) fun i _ =>
      (MvPolynomial.totalDegree_mul _ _).trans (add_le_add (coefficientOf_totalDegree _ _ _) (coefficientOf_totalDegree _ _ _)))
  simp only [Finset.card_univ, Fintype.card_fin, smul_eq_mul] at h2
  linarith

end Coeff
end SecDec
