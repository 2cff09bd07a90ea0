import Mathlib.Data.Rat.Defs
import Mathlib.Algebra.Field.Rat
import Mathlib.Data.Fin.VecNotation
import Verif.Proof.PolyCalc
import Verif.Proof.PolyRefactorize
set_option linter.unusedSectionVars false
/-!
Properties C01–C05: the class `Polynomial`.
`toLaurent`, `eval`, `Defined`, `coeffOf` are the specification (`Verif/Spec/Poly.lean`).
-/
set_option linter.unnecessarySeqFocus false
namespace SecDec
namespace Poly
variable {n : Nat} {R : Type} [CommRing R] [DecidableEq R]
variable {K : Type} [Field K] [DecidableEq K]

/-! ### C01 arithmetic -/

/-- C01 (formal): the arithmetic operators compute in the ring of Laurent polynomials. -/
theorem C01_arith_formal (p q : Poly n R) (c : R) (k : Nat) :
    (p.add q).toLaurent = p.toLaurent + q.toLaurent ∧
    (p.sub q).toLaurent = p.toLaurent - q.toLaurent ∧
    p.neg.toLaurent = - p.toLaurent ∧
    (p.mul q).toLaurent = p.toLaurent * q.toLaurent ∧
    (p.addScalar c).toLaurent = p.toLaurent + AddMonoidAlgebra.single 0 c ∧
    (p.subScalar c).toLaurent = p.toLaurent - AddMonoidAlgebra.single 0 c ∧
    (p.rsubScalar c).toLaurent = AddMonoidAlgebra.single 0 c - p.toLaurent ∧
    (p.mulScalar c).toLaurent = p.toLaurent * AddMonoidAlgebra.single 0 c ∧
    (p.pow k).toLaurent = p.toLaurent ^ k := by
  have hadds : ∀ (p : Poly n R), (p.addScalar c).toLaurent = p.toLaurent + AddMonoidAlgebra.single 0 c := by
    intro p
    rw [addScalar, subOrAddScalar, toLaurent_simplify, toLaurent_mk, List.map_cons, List.sum_cons, add_comm]
    rfl
  refine ⟨?_, ?_, toLaurent_neg p, toLaurent_mul p q, hadds p, ?_, ?_, ?_, ?_⟩
  · rw [add, toLaurent_subOrAdd]; simp
  · rw [sub, toLaurent_subOrAdd]; simp [sub_eq_add_neg]
  · rw [subScalar, subOrAddScalar, toLaurent_simplify, toLaurent_mk, List.map_cons, List.sum_cons]
    have : (AddMonoidAlgebra.single (fun _ => (0:Int)) (-c) : AddMonoidAlgebra R (Fin n → Int))
        = - AddMonoidAlgebra.single 0 c := by
      rw [← AddMonoidAlgebra.single_neg]; rfl
    simp only [if_true, this, toLaurent]
    abel
  · rw [rsubScalar, hadds, toLaurent_neg]; abel
  · unfold mulScalar
    split
    · rename_i h; subst h
      rw [← AddMonoidAlgebra.one_def, mul_one]
    · split
      · rename_i h; subst h; simp [toLaurent_zero]
      · rw [toLaurent_mk, toLaurent, List.map_map]
        induction p.terms with
        | nil => simp
        | cons t l ih =>
          simp only [List.map_cons, List.sum_cons, add_mul, ih, Function.comp,
            AddMonoidAlgebra.single_mul_single, add_zero]
  · unfold pow
    split
    · rename_i h; subst h
      rw [pow_zero, AddMonoidAlgebra.one_def, toLaurent_mk]
      simp; rfl
    · rw [toLaurent_iterativePow p k (by omega)]

/-- C01 (values): the arithmetic operators compute the values at every point `x`; for products and
powers the negative powers must be defined at `x`. -/
theorem C01_arith_eval (p q : Poly n K) (c : K) (k : Nat) (x : Fin n → K) :
    (p.add q).eval x = p.eval x + q.eval x ∧
    (p.sub q).eval x = p.eval x - q.eval x ∧
    p.neg.eval x = - p.eval x ∧
    (p.addScalar c).eval x = p.eval x + c ∧
    (p.subScalar c).eval x = p.eval x - c ∧
    (p.rsubScalar c).eval x = c - p.eval x ∧
    (p.mulScalar c).eval x = p.eval x * c ∧
    (p.Defined x → q.Defined x → (p.mul q).eval x = p.eval x * q.eval x) ∧
    (p.Defined x → (p.pow k).eval x = p.eval x ^ k) := by
  have m0 : mono x (fun _ => 0 : Expo n) = 1 := mono_zero x
  have hadds : ∀ (p : Poly n K), (p.addScalar c).eval x = p.eval x + c := by
    intro p
    rw [addScalar, subOrAddScalar, eval_simplify, eval_mk, List.map_cons, List.sum_cons, add_comm]
    simp [m0, eval]
  refine ⟨?_, ?_, eval_neg p x, hadds p, ?_, ?_, ?_, eval_mul p q x, ?_⟩
  · rw [add, eval_subOrAdd]; simp
  · rw [sub, eval_subOrAdd]; simp [sub_eq_add_neg]
  · rw [subScalar, subOrAddScalar, eval_simplify, eval_mk, List.map_cons, List.sum_cons]
    simp only [if_true, eval, m0]; ring
  · rw [rsubScalar, hadds, eval_neg]; ring
  · unfold mulScalar
    split
    · rename_i h; subst h; simp
    · split
      · rename_i h; subst h; simp [eval_zero]
      · rw [eval_mk, eval, List.map_map]
        induction p.terms with
        | nil => simp
        | cons t l ih =>
          simp only [List.map_cons, List.sum_cons, add_mul, ih, Function.comp]
          ring
  · intro hp
    unfold pow
    split
    · rename_i h; subst h
      simp [eval_mk, m0]
    · exact (iterativePow_eval p x hp k (by omega)).2

/-- Non-vacuity: `x0^-1 + 2 x1` and `x0^-1 - 2 x1` are defined at (1/2, 0), and the product of the
two values is not trivial. -/
example : (⟨[(![-1, 0], 1), (![0, 1], 2)]⟩ : Poly 2 ℚ).Defined ![1/2, 0] ∧
    (⟨[(![-1, 0], 1), (![0, 1], -2)]⟩ : Poly 2 ℚ).Defined ![1/2, 0] := by
  constructor <;> · intro t ht i hi
                    fin_cases i <;> simp at ht hi ⊢ <;> rcases ht with rfl | rfl <;> simp

/-! ### C02 simplify -/

/-- Strict lexicographic order of exponent vectors. -/
def LexLt (a b : Expo n) : Prop := ∃ i, (∀ j, j < i → a j = b j) ∧ a i < b i

theorem lexLt_of_KLt {n : Nat} {a b : Expo n} (h : KLt a b) : LexLt a b := by
  obtain ⟨h1, h2⟩ := h
  induction n with
  | zero => exact absurd (Subsingleton.elim a b) h2
  | succ n ih =>
    rw [List.ofFn_succ, List.ofFn_succ] at h1
    rcases lt_trichotomy (a 0) (b 0) with h | h | h
    · exact ⟨0, by intro j hj; exact absurd hj (Fin.not_lt_zero j), h⟩
    · simp only [rowLe, h, lt_irrefl, if_false] at h1
      have hne : (fun i : Fin n => a i.succ) ≠ (fun i => b i.succ) := by
        intro heq
        apply h2
        funext i
        refine Fin.cases h (fun j => ?_) i
        exact congrFun heq j
      obtain ⟨i, hi, hlt⟩ := ih h1 hne
      refine ⟨i.succ, ?_, hlt⟩
      intro j hj
      refine Fin.cases (fun _ => h) (fun k hk => hi k ?_) j hj
      simpa using hk
    · have h' : ¬ a 0 < b 0 := by omega
      simp [rowLe, h, h'] at h1

/-- C02: `simplify` preserves the Laurent polynomial; its rows are strictly increasing in
lexicographic order (hence pairwise different); it has no zero coefficient unless it is the single
term `0`; there is always at least one term. -/
theorem C02_simplify_normal_form (p : Poly n R) :
    p.simplify.toLaurent = p.toLaurent ∧
    p.simplify.terms.Pairwise (fun a b => LexLt a.1 b.1) ∧
    ((∀ t ∈ p.simplify.terms, t.2 ≠ 0) ∨ (p.simplify.terms = [(0, 0)] ∧ p.toLaurent = 0)) ∧
    p.simplify.terms ≠ [] := by
  refine ⟨toLaurent_simplify p, ?_, ?_, ?_⟩
  · rw [simplify_nz]
    split
    · simp [zeroPoly]
    · exact (nz_sorted p).imp (fun h => lexLt_of_KLt h)
  · have h := toLaurent_simplify p
    rw [simplify_nz] at h ⊢
    split
    · rename_i h0
      right
      rw [if_pos h0] at h
      exact ⟨rfl, by rw [← h, toLaurent_zero]⟩
    · left; exact nz_ne_zero p
  · rw [simplify_nz]
    split
    · simp [zeroPoly]
    · rename_i h; intro h2; apply h; simpa using h2

/-- C02: the result only depends on the total coefficient of each exponent vector (so not on the
order or the repetition of terms), i.e. `simplify` decides equality of polynomials. -/
theorem C02_simplify_canonical (p q : Poly n R) :
    p.simplify = q.simplify ↔ ∀ e, p.coeffOf e = q.coeffOf e := by
  constructor
  · intro h e
    rw [← coeffOf_simplify p, ← coeffOf_simplify q, h]
  · exact simplify_canonical p q

/-- C02: `simplify` is idempotent. -/
theorem C02_simplify_idempotent (p : Poly n R) : p.simplify.simplify = p.simplify :=
  simplify_canonical _ _ (fun e => coeffOf_simplify p e)

/-- Non-vacuity: a polynomial with cancelling, repeated and zero terms. -/
example : (⟨[(![1], 2), (![0], 0), (![1], -2), (![0], 5), (![1], 3)]⟩ : Poly 1 ℤ).simplify
    ≠ (⟨[(![1], 2), (![0], 5)]⟩ : Poly 1 ℤ).simplify := by
  rw [Ne, C02_simplify_canonical]
  intro h
  have := h ![1]
  simp [coeffOf] at this

/-! ### C03 derive -/

/-- C03: `derive(i)` is the partial derivative in variable `i` (real, complex or any other
nontrivially normed field), wherever the polynomial is defined. -/
theorem C03_derive {𝕜 : Type} [NontriviallyNormedField 𝕜] [DecidableEq 𝕜]
    (p : Poly n 𝕜) (i : Fin n) (x : Fin n → 𝕜) (h : p.Defined x) :
    HasDerivAt (fun s => p.eval (Function.update x i s)) ((p.derive i).eval x) (x i) :=
  hasDerivAt_derive p i x h

example : (⟨[(![-1, 0], 1), (![0, 1], 2)]⟩ : Poly 2 ℝ).Defined ![1/2, 0] := by
  intro t ht i hi
  fin_cases i <;> simp at ht hi ⊢ <;> rcases ht with rfl | rfl <;> simp

/-! ### C04 replace -/

/-- C04: `replace(i, v)` substitutes `x_i = v`, with and without removal of the variable, if no
negative power of zero arises. -/
theorem C04_replace (p : Poly (n+1) K) (i : Fin (n+1)) (v : K)
    (h : v = 0 → ∀ t ∈ p.terms, 0 ≤ t.1 i) :
    (∀ x, (p.replace i v).eval x = p.eval (Function.update x i v)) ∧
    (∀ x, (p.replaceRemove i v).eval x = p.eval (i.insertNth v x)) :=
  ⟨fun x => replace_eval p i v x (fun t ht hv => h hv t ht),
   fun x => replaceRemove_eval p i v x (fun t ht hv => h hv t ht)⟩

/-- C04: after `replace` no term depends on the replaced variable, and the other exponents are
untouched. -/
theorem C04_replace_rows (p : Poly n K) (i : Fin n) (v : K) :
    (p.replace i v).terms.map (·.1) = p.terms.map (fun t => Function.update t.1 i 0) := by
  simp [replace, List.map_map, Function.comp_def]

/-- C04 (defect): for `v = 0` a negative power of the replaced variable is silently dropped instead
of raising a division by zero: `x0^-1` becomes `0`. -/
theorem C04_replace_zero_drops_pole :
    (replace (⟨[(![-1], 1)]⟩ : Poly 1 ℚ) 0 0).terms = [(![0], 0)] := by
  simp [replace, replaceCoeff]
  funext j; fin_cases j; rfl

example : (2 : ℚ) = 0 → ∀ t ∈ (⟨[(![-1, 3], 1)]⟩ : Poly 2 ℚ).terms, 0 ≤ t.1 0 := by norm_num
example : (0 : ℚ) = 0 → ∀ t ∈ (⟨[(![2, -3], 1), (![0, 0], 7)]⟩ : Poly 2 ℚ).terms, 0 ≤ t.1 0 := by
  simp

/-! ### C05 refactorize -/

/-- The parameters selected by a call `refactorize(prod, *parameters)`. -/
def Selected (parameters : List (Fin n)) (i : Fin n) : Prop := parameters = [] ∨ i ∈ parameters

/-- C05: complete description of the result of `refactorize`: the product (as Laurent polynomial)
is unchanged; the selected variables have minimal exponent zero in the new polynomial factor and the
exponents of the other variables are unchanged in both factors; coefficients are unchanged. -/
theorem C05_refactorize (prod res : Poly n R × Poly n R) (parameters : List (Fin n))
    (h : refactorize prod parameters = some res) :
    res.1.toLaurent * res.2.toLaurent = prod.1.toLaurent * prod.2.toLaurent ∧
    (∀ i, Selected parameters i →
      (∃ t ∈ res.2.terms, t.1 i = 0) ∧ ∀ t ∈ res.2.terms, 0 ≤ t.1 i) ∧
    (∃ k : Fin n → Int, (∀ i, ¬ Selected parameters i → k i = 0) ∧
      res.1.terms = prod.1.terms.map (fun t => (t.1 + k, t.2)) ∧
      res.2.terms = prod.2.terms.map (fun t => (t.1 - k, t.2))) := by
  unfold refactorize at h
  obtain ⟨k, h1, h2, h3, h4⟩ := foldlM_refactorizeOne _ _ _ h
  have hsel : ∀ i, Selected parameters i ↔
      i ∈ (if parameters.isEmpty then List.finRange n else parameters) := by
    intro i
    unfold Selected
    cases parameters with
    | nil => simp
    | cons a l => simp
  refine ⟨?_, ?_, k, ?_, ?_, ?_⟩
  · rw [h3, h4, toLaurent_shiftBy, toLaurent_shiftBy]
    rw [mul_mul_mul_comm, AddMonoidAlgebra.single_mul_single]
    simp only [mul_one, add_neg_cancel]
    rw [← AddMonoidAlgebra.one_def, one_mul]
  · intro i hi
    have := h1 i ((hsel i).1 hi)
    have h5 : res.2.IsMinExp i 0 := by
      rw [h4, isMinExp_shiftBy]; simpa using this
    exact h5
  · intro i hi
    exact h2 i (fun hc => hi ((hsel i).2 hc))
  · rw [h3]; rfl
  · rw [h4]
    simp [shiftBy, sub_eq_add_neg]

/-- C05: `refactorize` fails (numpy `ValueError`, minimum of an empty array) only if the polynomial
has no terms at all. -/
theorem C05_refactorize_total (prod : Poly n R × Poly n R) (parameters : List (Fin n))
    (h : prod.2.terms ≠ []) : ∃ res, refactorize prod parameters = some res := by
  unfold refactorize
  exact Option.isSome_iff_exists.1 (foldlM_refactorizeOne_isSome _ _ h)

theorem C05_refactorize_empty (prod : Poly n R × Poly n R) (parameters : List (Fin n))
    (h : prod.2.terms = []) (hn : 0 < n) : refactorize prod parameters = none := by
  unfold refactorize
  apply foldlM_refactorizeOne_none _ _ h
  cases parameters with
  | nil =>
    simp only [List.isEmpty_nil, if_true]
    intro hc
    have := congrArg List.length hc
    simp at this; omega
  | cons a l => simp

/-- C05: a second application changes nothing. -/
theorem C05_refactorize_idempotent (prod res : Poly n R × Poly n R) (parameters : List (Fin n))
    (h : refactorize prod parameters = some res) : refactorize res parameters = some res := by
  have hmin := (C05_refactorize prod res parameters h).2.1
  have hne : res.2.terms ≠ [] ∨ (if parameters.isEmpty then List.finRange n else parameters) = [] := by
    by_cases hs : (if parameters.isEmpty then List.finRange n else parameters) = []
    · exact Or.inr hs
    · left
      obtain ⟨i, hi⟩ := List.exists_mem_of_ne_nil _ hs
      have : Selected parameters i := by
        unfold Selected
        cases parameters with
        | nil => simp
        | cons a l => simpa using hi
      obtain ⟨⟨t, ht, _⟩, _⟩ := hmin i this
      exact List.ne_nil_of_mem ht
  rcases hne with hne | hnil
  · obtain ⟨res2, h2⟩ := C05_refactorize_total res parameters hne
    obtain ⟨_, hmin2, k, hk, e1, e2⟩ := C05_refactorize res res2 parameters h2
    have hk0 : k = 0 := by
      funext i
      by_cases hs : Selected parameters i
      · have a : res.2.IsMinExp i 0 := hmin i hs
        have b : res2.2.IsMinExp i 0 := hmin2 i hs
        have : res2.2 = res.2.shiftBy (-k) := by
          cases h3 : res2.2 with
          | mk l => rw [h3] at e2; simp only [shiftBy, Poly.mk.injEq]; simpa [sub_eq_add_neg] using e2
        rw [this, isMinExp_shiftBy] at b
        have := a.unique b
        simp at this; simp [← this]
      · exact hk i hs
    subst hk0
    rw [h2]
    congr 1
    refine Prod.ext ?_ ?_
    · cases hr : res2.1; cases hr' : res.1; rw [hr, hr'] at e1; simpa using e1
    · cases hr : res2.2; cases hr' : res.2; rw [hr, hr'] at e2; simpa using e2
  · unfold refactorize
    rw [hnil]; rfl

/-- Non-vacuity: `1 * (x0^2 x1 + 3 x0^3)` with parameter 0 selected. -/
example : ∃ res, refactorize ((⟨[(![0,0], 1)]⟩ : Poly 2 ℤ), (⟨[(![2,1], 1), (![3,0], 3)]⟩ : Poly 2 ℤ)) [0]
    = some res ∧ res.2.terms ≠ [] := by
  obtain ⟨res, h⟩ := C05_refactorize_total ((⟨[(![0,0], 1)]⟩ : Poly 2 ℤ), (⟨[(![2,1], 1), (![3,0], 3)]⟩ : Poly 2 ℤ))
    [0] (by simp)
  refine ⟨res, h, ?_⟩
  obtain ⟨_, _, k, _, _, h2⟩ := C05_refactorize _ _ _ h
  rw [h2]; simp

/-! ### has_constant_term and becomes_zero_for -/

/-- `has_constant_term()`: some row is the zero vector; for a simplified polynomial without negative
powers this means exactly that its value at the origin is non-zero. -/
theorem C05_has_constant_term (p : Poly n K) (_hnn : ∀ t ∈ p.terms, ∀ i, 0 ≤ t.1 i)
    (hs : p.simplify = p) (h0 : p.terms ≠ [(0, 0)]) :
    p.hasConstantTerm none = true ↔ p.eval (fun _ => 0) ≠ 0 := by
  have hsorted : p.terms.Pairwise (fun a b => KLt a.1 b.1) ∧ (∀ t ∈ p.terms, t.2 ≠ 0) := by
    rw [simplify_nz] at hs
    split at hs
    · exfalso; apply h0; rw [← hs]; rfl
    · rw [← hs]; exact ⟨nz_sorted p, nz_ne_zero p⟩
  have hm : ∀ t ∈ p.terms, mono (fun _ => (0:K)) t.1 = if t.1 = 0 then 1 else 0 := by
    intro t ht
    split
    · rename_i h; rw [h, mono_zero]
    · rename_i h
      obtain ⟨i, hi⟩ := Function.ne_iff.1 h
      exact Finset.prod_eq_zero (Finset.mem_univ i) (zero_zpow _ hi)
  have hev : p.eval (fun _ => 0) = lsum (coeffHom 0) p.terms := by
    unfold eval lsum coeffHom
    congr 1
    apply List.map_congr_left
    intro t ht
    rw [hm t ht]
    split <;> simp
  rw [hev]
  have hc : p.hasConstantTerm none = true ↔ ∃ t ∈ p.terms, t.1 = 0 := by
    unfold hasConstantTerm
    simp only [List.any_eq_true, List.all_eq_true, List.mem_finRange, beq_iff_eq, forall_const]
    constructor
    · rintro ⟨t, ht, h⟩; exact ⟨t, ht, funext h⟩
    · rintro ⟨t, ht, h⟩; exact ⟨t, ht, fun i => by rw [h]; rfl⟩
  rw [hc]
  constructor
  · rintro ⟨t, ht, h⟩
    have := coeffOf_of_mem hsorted.1 ht
    rw [h] at this
    rw [this]
    exact hsorted.2 t ht
  · intro h
    by_contra hcon
    push Not at hcon
    exact h (lsum_coeff_of_not_mem hcon)

example : ∃ p : Poly 1 ℚ, (∀ t ∈ p.terms, ∀ i, 0 ≤ t.1 i) ∧ p.simplify = p ∧ p.terms ≠ [(0, 0)] ∧
    p.eval (fun _ => 0) = 2 := by
  set q : Poly 1 ℚ := ⟨[(![0], 2), (![1], 1)]⟩ with hq
  have hev : q.simplify.eval (fun _ => 0) = 2 := by
    rw [eval_simplify]; simp [hq, eval, mono]
  refine ⟨q.simplify, ?_, C02_simplify_idempotent q, ?_, hev⟩
  · intro t ht i
    rcases simplify_expo_subset q t ht with ⟨u, hu, h⟩ | h
    · rw [← h]; fin_cases i; simp [hq] at hu; rcases hu with rfl | rfl <;> simp
    · rw [h]; simp
  · intro h
    rw [eval, h] at hev
    simp at hev

/-- `has_constant_term(indices)`: some term contains none of the variables `indices` (no variable at all without
`indices`). -/
theorem C05_has_constant_term_indices (p : Poly n K) (is : List (Fin n)) :
    (p.hasConstantTerm (some is) = true ↔ ∃ t ∈ p.terms, ∀ i ∈ is, t.1 i = 0) ∧
    (p.hasConstantTerm none = true ↔ ∃ t ∈ p.terms, ∀ i, t.1 i = 0) := by
  unfold hasConstantTerm
  simp [List.any_eq_true, List.all_eq_true]

example : (⟨[(![0, 1], 1), (![2, 0], 5)]⟩ : Poly 2 ℚ).hasConstantTerm (some [0]) = true ∧
    (⟨[(![0, 1], 1), (![2, 0], 5)]⟩ : Poly 2 ℚ).hasConstantTerm none = false := by decide +kernel

/-- `becomes_zero_for(zero_params)`: for a polynomial without negative powers a positive answer means
that it vanishes identically on `x_i = 0, i ∈ zero_params`; a negative answer exhibits a row that is
free of all `zero_params`. -/
theorem C05_becomes_zero_for (p : Poly n K) (hnn : ∀ t ∈ p.terms, ∀ i, 0 ≤ t.1 i) (zp : List (Fin n)) :
    (p.becomesZeroFor zp = true → ∀ x : Fin n → K, (∀ i ∈ zp, x i = 0) → p.eval x = 0) ∧
    (p.becomesZeroFor zp = false → ∃ t ∈ p.terms, ∀ i ∈ zp, t.1 i = 0) := by
  unfold becomesZeroFor
  constructor
  · intro h x hx
    simp only [List.all_eq_true, List.any_eq_true, decide_eq_true_eq] at h
    apply List.sum_eq_zero
    intro y hy
    obtain ⟨t, ht, rfl⟩ := List.mem_map.1 hy
    obtain ⟨i, hi, hpos⟩ := h t ht
    have : mono x t.1 = 0 := Finset.prod_eq_zero (Finset.mem_univ i)
      (by rw [hx i hi]; exact zero_zpow _ (by omega))
    rw [this, mul_zero]
  · intro h
    simp only [List.all_eq_false, List.any_eq_true, decide_eq_true_eq, not_exists, not_and] at h
    obtain ⟨t, ht, h⟩ := h
    refine ⟨t, ht, fun i hi => ?_⟩
    have := h i hi; have := hnn t ht i
    omega

end Poly
end SecDec
