import Verif.Proof.Series
import Mathlib.Order.WithBot
import Mathlib.Algebra.Order.Monoid.Unbundled.WithTop
/-
C33: arithmetic of (nested, truncated) Laurent series in `secdecutil::Series`.
-/
namespace SecDec
namespace Cxx
set_option linter.unusedSectionVars false
variable {S T K : Type*} [Field S] [Field K] [Cpp S T] {ι : S →+* K} {R : T → K → Prop} {U : T → Prop} {p : String}
  {s s1 s2 : Series T} {A B : HahnSeries ℤ K}

theorem err_sum {z : Series T} (h4 : z.orderMax = Series.sumMax s1 s2)
    (h5 : z.truncated = (s1.truncated || s2.truncated)) : errOrder z = min (errOrder s1) (errOrder s2) := by
  unfold errOrder
  rw [h4, h5]
  unfold Series.sumMax
  cases s1.truncated <;> cases s2.truncated <;>
    simp only [Bool.or_false, Bool.or_true, Bool.false_eq_true, if_true, if_false, min_top_left,
      min_top_right, ← WithTop.coe_min, WithTop.coe_inj] <;> (split_ifs <;> omega)

theorem err_mul {z : Series T} (h4 : z.orderMax = Series.mulMax s1 s2) (h1 : s1.orderMin ≤ s1.orderMax)
    (h2 : s2.orderMin ≤ s2.orderMax) (h5 : z.truncated = (s1.truncated || s2.truncated)) :
    errOrder z = min (errOrder s1 + s2.orderMin) (s1.orderMin + errOrder s2) := by
  unfold errOrder
  rw [h4, h5]
  unfold Series.mulMax
  cases s1.truncated <;> cases s2.truncated <;>
    simp only [Bool.or_false, Bool.or_true, Bool.false_eq_true, if_true, if_false, WithTop.top_add,
      WithTop.add_top, min_top_left, min_top_right, ← WithTop.coe_add, ← WithTop.coe_min, WithTop.coe_inj] <;> omega

/-- C33, sum: never fails; it is the expansion of the exact sum, with the neglected terms of the operands'
lower truncation order and the lower leading order. -/
theorem C33_add (hs : Sound ι R U) (h1 : Expands R p s1 A) (h2 : Expands R p s2 B) :
    ∃ z, Series.add s1 s2 = some z ∧ Expands R p z (A + B) ∧
      errOrder z = min (errOrder s1) (errOrder s2) ∧ z.orderMin = min s1.orderMin s2.orderMin := by
  obtain ⟨z, z1, z2, z3, z4, z5⟩ := add_ok hs h1 h2
  exact ⟨z, z1, z2, err_sum z4 z5, z3⟩

/-- C33, difference. -/
theorem C33_sub (hs : Sound ι R U) (h1 : Expands R p s1 A) (h2 : Expands R p s2 B) :
    ∃ z, Series.subtract s1 s2 = some z ∧ Expands R p z (A - B) ∧
      errOrder z = min (errOrder s1) (errOrder s2) ∧ z.orderMin = min s1.orderMin s2.orderMin := by
  obtain ⟨z, z1, z2, z3, z4, z5⟩ := sub_ok hs h1 h2
  exact ⟨z, z1, z2, err_sum z4 z5, z3⟩

/-- C33, product: never fails; it is the expansion of the exact product up to the neglected terms of each
operand times the leading term of the other one. -/
theorem C33_mul (hs : Sound ι R U) (h1 : Expands R p s1 A) (h2 : Expands R p s2 B) :
    ∃ z, Series.multiply s1 s2 = some z ∧ Expands R p z (A * B) ∧
      errOrder z = min (errOrder s1 + s2.orderMin) (s1.orderMin + errOrder s2) ∧
      z.orderMin = s1.orderMin + s2.orderMin := by
  obtain ⟨z, z1, z2, z3, z4, z5⟩ := mul_ok hs h1 h2
  exact ⟨z, z1, z2, err_mul z4 h1.le h2.le z5, z3⟩

/-- C33, quotient by a series with an invertible leading coefficient: never fails; it is the expansion of
the exact quotient. If an operand is truncated, all orders they determine are
computed (relative to the leading order, as many as the shorter truncated operand has); a quotient of exact
series is exact if the denominator has a single term, and otherwise has as many orders as the longer operand. -/
theorem C33_div (hs : Sound ι R U) (h1 : Expands R p s1 A) (h2 : Expands R p s2 B) (hU : LeadUnit U s2) :
    ∃ z, Series.divide s1 s2 = some z ∧ Expands R p z (A / B) ∧ z.orderMin = s1.orderMin - s2.orderMin ∧
      (s1.truncated = true ∨ s2.truncated = true →
        errOrder z = min (errOrder s1 + (-s2.orderMin : ℤ)) (errOrder s2 + (s1.orderMin - 2 * s2.orderMin : ℤ))) ∧
      (s1.truncated = false → s2.truncated = false → s2.orderMin = s2.orderMax → errOrder z = ⊤) ∧
      (s1.truncated = false → s2.truncated = false → s2.orderMin ≠ s2.orderMax →
        errOrder z = (s1.orderMin - s2.orderMin +
          max (s1.orderMax - s1.orderMin + 1) (s2.orderMax - s2.orderMin + 1) : ℤ)) := by
  obtain ⟨z, z1, z2, z3, z4, z5⟩ := div_ok hs h1 h2 hU
  have l1 := h1.len
  have l2 := h2.len
  have e1 := h1.le
  have e2 := h2.le
  refine ⟨z, z1, z2, z3, ?_, ?_, ?_⟩
  · intro ht
    have hz : z.truncated = true := by
      rw [z5]; split_ifs
      · simpa using ht
      · rfl
    unfold errOrder
    rw [hz, z4]
    unfold Series.divMax
    revert ht
    cases s1.truncated <;> cases s2.truncated <;>
      simp only [Bool.false_eq_true, if_true, if_false, WithTop.top_add,
        WithTop.add_top, min_top_left, min_top_right, ← WithTop.coe_add, ← WithTop.coe_min, WithTop.coe_inj,
        or_self, or_true, true_or, false_implies, true_implies] <;> omega
  · intro t1 t2 he
    unfold errOrder
    rw [z5, if_pos he, t1, t2]; simp
  · intro t1 t2 he
    unfold errOrder
    rw [z5, if_neg he, if_pos rfl, z4, WithTop.coe_inj]
    simp only [Series.divMax, t1, t2, Bool.false_eq_true, if_false]
    omega

/-- C33, sign, and multiplication and division by a scalar: exact with unchanged orders. -/
theorem C33_neg (hs : Sound ι R U) (h : Expands R p s A) :
    ∃ z, Series.negate s = some z ∧ Expands R p z (-A) ∧ errOrder z = errOrder s ∧ z.orderMin = s.orderMin := by
  obtain ⟨z, z1, z2, z3, z4, z5⟩ := neg_ok hs h
  exact ⟨z, z1, z2, by simp [errOrder, z4, z5], z3⟩

theorem C33_mul_scalar (hs : Sound ι R U) (h : Expands R p s A) (c : S) (fromLeft : Bool) :
    ∃ z, Series.multiplyScalar fromLeft s c = some z ∧ Expands R p z (constHom ι c * A) ∧
      errOrder z = errOrder s ∧ z.orderMin = s.orderMin := by
  cases fromLeft with
  | true =>
    obtain ⟨z, z1, z2, z3, z4, z5⟩ := smul_ok hs c h
    exact ⟨z, z1, z2, by simp [errOrder, z4, z5], z3⟩
  | false =>
    obtain ⟨z, z1, z2, z3, z4, z5⟩ := muls_ok hs c h
    exact ⟨z, z1, by rw [mul_comm]; exact z2, by simp [errOrder, z4, z5], z3⟩

theorem C33_div_scalar (hs : Sound ι R U) (h : Expands R p s A) (c : S) (hc : c ≠ 0) :
    ∃ z, Series.divideScalar s c = some z ∧ Expands R p z (A / constHom ι c) ∧
      errOrder z = errOrder s ∧ z.orderMin = s.orderMin := by
  obtain ⟨z, z1, z2, z3, z4, z5⟩ := divs_ok hs c hc h
  exact ⟨z, z1, z2, by simp [errOrder, z4, z5], z3⟩

/-- C33, sums and differences with a scalar: the scalar is an exact series (whatever the leading order
of the other operand is), so only the neglected terms of the series remain. -/
theorem C33_add_scalar (hs : Sound ι R U) (h : Expands R p s A) (c : S) :
    (∃ z, Series.addScalar s c = some z ∧ Expands R p z (A + constHom ι c) ∧ errOrder z = errOrder s) ∧
    (∃ z, Series.scalarAdd c s = some z ∧ Expands R p z (constHom ι c + A) ∧ errOrder z = errOrder s) ∧
    (∃ z, Series.subScalar s c = some z ∧ Expands R p z (A - constHom ι c) ∧ errOrder z = errOrder s) ∧
    (∃ z, Series.scalarSub c s = some z ∧ Expands R p z (constHom ι c - A) ∧ errOrder z = errOrder s) := by
  obtain ⟨w, w1, w2, w3, w4, w5⟩ := ofScalar_ok hs c h
  have hw : errOrder w = ⊤ := by simp [errOrder, w5]
  refine ⟨?_, ?_, ?_, ?_⟩
  · obtain ⟨z, z1, z2, z3, _⟩ := C33_add hs h w2
    exact ⟨z, by simp [Series.addScalar, w1, z1], z2, by rw [z3, hw, min_top_right]⟩
  · obtain ⟨z, z1, z2, z3, _⟩ := C33_add hs w2 h
    exact ⟨z, by simp [Series.scalarAdd, w1, z1], z2, by rw [z3, hw, min_top_left]⟩
  · obtain ⟨z, z1, z2, z3, _⟩ := C33_sub hs h w2
    exact ⟨z, by simp [Series.subScalar, w1, z1], z2, by rw [z3, hw, min_top_right]⟩
  · obtain ⟨z, z1, z2, z3, _⟩ := C33_sub hs w2 h
    exact ⟨z, by simp [Series.scalarSub, w1, z1], z2, by rw [z3, hw, min_top_left]⟩

/-- C33, a scalar divided by a series. -/
theorem C33_scalar_div (hs : Sound ι R U) (h : Expands R p s A) (hU : LeadUnit U s) (c : S) :
    ∃ z, Series.scalarDiv c s = some z ∧ Expands R p z (constHom ι c / A) ∧ z.orderMin = -s.orderMin ∧
      (s.truncated = true → errOrder z = errOrder s + (- 2 * s.orderMin : ℤ)) := by
  obtain ⟨w, w1, w2, w3, w4, w5⟩ := ofScalar_ok hs c h
  have hw : errOrder w = ⊤ := by simp [errOrder, w5]
  obtain ⟨z, z1, z2, z3, z4, _⟩ := C33_div hs w2 h hU
  refine ⟨z, by simp [Series.scalarDiv, w1, z1], z2, by rw [z3, w3, zero_sub], fun ht => ?_⟩
  rw [z4 (Or.inr ht), hw, WithTop.top_add, min_top_left, w3]
  congr 2; ring

/-- C33: different expansion parameters are an error in every binary operation. -/
theorem C33_mismatch (h : s1.param ≠ s2.param) :
    Series.add s1 s2 = none ∧ Series.subtract s1 s2 = none ∧ Series.multiply s1 s2 = none ∧
      Series.divide s1 s2 = none := by
  simp [Series.add, Series.subtract, Series.multiply, Series.divide, h]

/-- C33: the coefficients can be numbers, or series in another parameter, to any depth: the hypotheses
`Sound` of the above theorems hold for a field, and hold for series if they hold for their coefficients. -/
theorem C33_nested :
    (∀ (K : Type*) [Field K], @Sound K K K _ _ (Cpp.ofField K) (RingHom.id K) Eq (· ≠ 0)) ∧
    (Sound ι R U → Sound (T := Series T) (constHom ι) (Expands R p) (LeadUnit U)) :=
  ⟨fun K _ => sound_field K, sound_series p⟩

/-- C33: the constructor accepts exactly the consistent arguments, so every series has
a coefficient for each order in its range. -/
theorem C33_constructor (a b : ℤ) (l : List T) (t : Bool) :
    (Series.make a b l t p).isSome ↔ a ≤ b ∧ (l.length : ℤ) = b - a + 1 := by
  unfold Series.make
  split_ifs <;> simp <;> omega

/-! ### examples -/
section examples
attribute [local instance] Cpp.ofField

/-- `1/x + 2 + O(x)`, and the exact series `3 + x`. -/
def ex1 : Series ℚ := ⟨-1, 0, [1, 2], true, "x"⟩
def ex2 : Series ℚ := ⟨0, 1, [3, 1], false, "x"⟩

example : Expands Eq "x" ex1 (HahnSeries.single (-1) (1 : ℚ) + HahnSeries.single 0 2 + HahnSeries.single 5 7) := by
  refine ⟨rfl, by decide, by decide, ?_, ?_, by simp [ex1]⟩
  · intro i hi
    have : i < -1 := hi
    simp only [HahnSeries.coeff_add]
    rw [HahnSeries.coeff_single_of_ne (by omega), HahnSeries.coeff_single_of_ne (by omega),
      HahnSeries.coeff_single_of_ne (by omega)]; simp
  · intro k x hx
    rcases k with _ | _ | k
    · simp [ex1] at hx; subst hx; norm_num [ex1, HahnSeries.coeff_single]
    · simp [ex1] at hx; subst hx; norm_num [ex1, HahnSeries.coeff_single]
    · simp [ex1] at hx

example : LeadUnit (· ≠ 0) ex2 := ⟨3, rfl, by norm_num⟩

/-- The product and the quotient computed by the model. -/
example : (Series.multiply ex1 ex2).map (fun z => (z.orderMin, z.orderMax, z.content, z.truncated))
    = some (-1, 0, [3, 7], true) := by decide +kernel
example : (Series.divide ex1 ex2).map (fun z => (z.orderMin, z.orderMax, z.content, z.truncated))
    = some (-1, 0, [1/3, 5/9], true) := by decide +kernel

end examples
end Cxx
end SecDec
