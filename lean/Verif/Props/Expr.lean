import Verif.Proof.ExprDerive
import Verif.Proof.ExprReplace
import Verif.Proof.ExprNonint
/-
C04 for expression trees (substitution), C06 (derivatives of expression trees) and C07 (simplification of expression trees).
-/
namespace SecDec
namespace Expr

/-- C06: for every expression tree `e` and every open region `U` on which `e` is meaningful, the tree
returned by `derive(i)` is meaningful on `U` and its value is the partial derivative of the value of
`e` with respect to `x_i`, at every point of `U`.
(`derive` and `simplify` in the model carry a recursion bound `fuel`; the statement holds for every
bound for which a result is returned.) -/
theorem C06_derive_is_partial_derivative {n : Nat} {F : Type} [CommRing F] [DecidableEq F]
    (φ : F →+* ℂ) (M : Mode n F)
    (hM : M = Mode.strict ∨ M = Mode.flat ∨ ∃ dep, M = Mode.nonint φ dep)
    (U : Set (Fin n → ℂ)) (hU : IsOpen U) (e e' : Expr n F) (he : Adm M φ U e)
    (i : Fin n) (fuel : Nat) (h : derive fuel e i = some e') :
    Adm M φ U e' ∧ ∀ x ∈ U,
      HasDerivAt (fun s => eval φ (Function.update x i s) e) (eval φ x e') (x i) := by
  rcases hM with rfl | rfl | ⟨dep, rfl⟩
  · exact derive_ok hU fuel e e' he h
  · exact derive_ok hU fuel e e' he h
  · exact derive_ok hU fuel e e' he h

/-- C07 (partial): `simplify()` of every expression tree returns a tree with the same value, meaningful
on the same region.  Three kinds of trees are covered: arbitrary nesting, if the polynomials inside an
`ExponentiatedPolynomial` or `LogOfPolynomial` are `Good` (`Mode.strict`); trees whose exponents
are polynomials and whose coefficients are numbers, if these polynomials are `NotOnes`
(`Mode.flat`); and such trees with arbitrary bases, if no exponent of an `ExponentiatedPolynomial` is a
positive integer (`Mode.nonint`).  Missing part: an `ExponentiatedPolynomial` with a positive integer exponent, several
terms without any variable and all coefficients one; for those the claim is false, see `C07_simplify_changes_value`. -/
theorem C07_simplify_preserves_value_partial {n : Nat} {F : Type} [CommRing F] [DecidableEq F]
    (φ : F →+* ℂ) (M : Mode n F)
    (hM : M = Mode.strict ∨ M = Mode.flat ∨ ∃ dep, M = Mode.nonint φ dep)
    (U : Set (Fin n → ℂ)) (e e' : Expr n F) (he : Adm M φ U e)
    (fuel : Nat) (h : simplify fuel e = some e') :
    Adm M φ U e' ∧ ∀ x ∈ U, eval φ x e' = eval φ x e := by
  rcases hM with rfl | rfl | ⟨dep, rfl⟩
  · exact ((simplify_ok fuel).simp e e' he h).1
  · exact ((simplify_ok fuel).simp e e' he h).1
  · exact ((simplify_ok fuel).simp e e' he h).1

/-- The expression `(x**0 + x**0)**1 * x` (as it arises from `((x+1)**1 * y).replace(0, 1)`-like
substitutions). -/
def badProduct : Expr 1 ℤ :=
  .prod [.epoly [((fun _ => 0), .num 1), ((fun _ => 0), .num 1)] (.num 1), .poly [((fun _ => 1), .num 1)]]

/-- C07, defect: without the side condition the claim is false.  `Product.simplify` drops a factor
`ExponentiatedPolynomial` with exponent one and value two, because after becoming an unsimplified
`Polynomial` all its coefficients are one and all its exponents zero. -/
theorem C07_simplify_changes_value :
    ∃ e', simplify 10 badProduct = some e' ∧
      eval (Int.castRingHom ℂ) (fun _ => 1) e' = 1 ∧
      eval (Int.castRingHom ℂ) (fun _ => 1) badProduct = 2 := by
  refine ⟨.poly [((fun _ => 1), .num 1)], ?_, ?_, ?_⟩
  · with_unfolding_all rfl
  · rw [eval_poly]; simp [eval_num, Poly.mono]
  · rw [badProduct, eval_prod]
    simp only [List.map_cons, List.map_nil, List.prod_cons, List.prod_nil]
    rw [eval_epoly, eval_poly, eval_poly]; simp [eval_num, Poly.mono]; norm_num

/-! ### C04 for expression trees -/

/-- C04: `replace(index, value)` of every expression tree returns a tree whose value at `x` is the value
of the original at `x` with `x_index` set to `value`.  For `value = 0` the coefficients of the
polynomials must be plain numbers (`Mode.flat`), for other values trees may be nested arbitrarily.
`vpow k` is Python's `value**k`. -/
theorem C04_replace_tree {n : Nat} {F : Type} [CommRing F] [DecidableEq F]
    (M : Mode n F) (φ : F →+* ℂ) (U : Set (Fin n → ℂ)) (e e' : Expr n F) (he : Adm M φ U e)
    (v : F) (vpow : Int → F) (hpow : v ≠ 0 → ∀ k, φ (vpow k) = φ v ^ k)
    (hM : v = 0 → M = Mode.flat) (i : Fin n) (fuel : Nat) (h : replace v vpow i fuel e = some e')
    (x : Fin n → ℂ) : eval φ x e' = eval φ (Function.update x i (φ v)) e := by
  refine replace_val v vpow i hpow ?_ fuel e e' he h x
  intro hv c hc
  have := hM hv
  subst this
  exact hc

/-- C04: substituting zero keeps an expression with numeric coefficients and polynomial exponents
meaningful, at all points whose projection is in the original region. -/
theorem C04_replace_zero_meaningful {n : Nat} {F : Type} [CommRing F] [DecidableEq F]
    (φ : F →+* ℂ) (U : Set (Fin n → ℂ)) (e e' : Expr n F) (he : Adm Mode.flat φ U e)
    (vpow : Int → F) (i : Fin n) (fuel : Nat) (h : replace 0 vpow i fuel e = some e') :
    Adm Mode.flat φ {x | Function.update x i 0 ∈ U} e' :=
  replace_zero_adm vpow i fuel e e' he h

/-- C04: substituting one keeps an expression meaningful, if no exponent is a positive integer and the
exponents do not contain the variable. -/
theorem C04_replace_one_meaningful {n : Nat} {F : Type} [CommRing F] [DecidableEq F]
    (φ : F →+* ℂ) (dep : Fin n → Prop) (U : Set (Fin n → ℂ)) (e e' : Expr n F)
    (he : Adm (Mode.nonint φ dep) φ U e) (i : Fin n) (hi : ¬ dep i) (fuel : Nat)
    (h : replace 1 (fun _ => 1) i fuel e = some e') :
    Adm (Mode.nonint φ dep) φ {x | Function.update x i 1 ∈ U} e' :=
  replace_one_adm i hi fuel e e' he h

/-- C04, defect: `replace(index, 0)` of a polynomial does not substitute into the coefficients.  With
coefficient `x0 + 1` of the monomial `x0**0` the result still depends on `x0`. -/
theorem C04_replace_zero_skips_coefficients :
    ∃ e e' : Expr 1 ℤ, replace 0 (fun _ => 0) 0 5 e = some e' ∧
      eval (Int.castRingHom ℂ) (fun _ => 2) e' ≠ eval (Int.castRingHom ℂ) (Function.update (fun _ => 2) 0 0) e := by
  refine ⟨.poly [((fun _ => 0), .poly [((fun _ => 1), .num 1), ((fun _ => 0), .num 1)])], _, rfl, ?_⟩
  simp only [replaceRowsZero, List.map_cons, List.map_nil]
  rw [eval_poly, eval_poly]
  simp only [List.map_cons, List.map_nil, List.sum_cons, List.sum_nil, if_true]
  rw [eval_poly, eval_poly]
  simp [eval_num, Poly.mono]

/-! ### A concrete case meeting the hypotheses -/

/-- `x**(-2) * log(x) * exp(x*y) * x**exp(y)` in two variables. -/
def sample : Expr 2 ℤ :=
  .prod [.epoly [(![1, 0], .num 1)] (.num (-2)),
         .log (.poly [(![1, 0], .num 1)]),
         .exp (.poly [(![1, 1], .num 1)]),
         .pow (.poly [(![1, 0], .num 1)]) (.exp (.poly [(![0, 1], .num 1)]))]

/-- The right half planes. -/
def halfPlanes : Set (Fin 2 → ℂ) := {x | 0 < (x 0).re ∧ 0 < (x 1).re}

example : IsOpen halfPlanes := by
  have h0 : Continuous fun x : Fin 2 → ℂ => (x 0).re := Complex.continuous_re.comp (continuous_apply 0)
  have h1 : Continuous fun x : Fin 2 → ℂ => (x 1).re := Complex.continuous_re.comp (continuous_apply 1)
  exact (isOpen_lt continuous_const h0).inter (isOpen_lt continuous_const h1)

example : Adm Mode.strict (Int.castRingHom ℂ) halfPlanes sample := by
  have hm : ∀ (m : Fin 2 → ℤ), (∀ i, 0 ≤ m i) → ∀ x ∈ halfPlanes, DefinedAt x m :=
    fun m hm x _ i _ => hm i
  have hx : ∀ (m : Fin 2 → ℤ), (∀ i, 0 ≤ m i) → Adm Mode.strict (Int.castRingHom ℂ) halfPlanes (.poly [(m, .num 1)]) := by
    intro m h
    refine Adm.poly _ ?_ ?_ (fun _ _ => trivial) <;> intro t ht <;> simp at ht <;> subst ht
    · exact hm m h
    · exact Adm.num _
  have p10 : ∀ i, 0 ≤ (![1, 0] : Fin 2 → ℤ) i := by intro i; fin_cases i <;> simp
  have p01 : ∀ i, 0 ≤ (![0, 1] : Fin 2 → ℤ) i := by intro i; fin_cases i <;> simp
  have p11 : ∀ i, 0 ≤ (![1, 1] : Fin 2 → ℤ) i := by intro i; fin_cases i <;> simp
  have v10 : ∀ x : Fin 2 → ℂ, eval (Int.castRingHom ℂ) x (.poly [(![1, 0], .num 1)]) = x 0 := by
    intro x; rw [eval_poly]; simp [eval_num, Poly.mono]
  have s10 : ∀ x ∈ halfPlanes, eval (Int.castRingHom ℂ) x (.poly [(![1, 0], .num 1)]) ∈ Complex.slitPlane := by
    intro x hx; rw [v10]; exact Or.inl hx.1
  apply Adm.prod
  intro e he
  simp only [List.mem_cons, List.not_mem_nil, or_false] at he
  rcases he with rfl | rfl | rfl | rfl
  · exact Adm.epoly _ _ (hx _ p10) (Adm.num _) trivial (fun _ => rfl) (Or.inl s10)
  · exact Adm.log _ (hx _ p10) s10
  · exact Adm.exp _ (hx _ p11)
  · exact Adm.pow _ _ (hx _ p10) (Adm.exp _ (hx _ p01)) trivial s10

/-- `(x + 1)**y`, with `y` in the role of a regulator. -/
def sampleNonint : Expr 2 ℤ := .epoly [(![1, 0], .num 1), (![0, 0], .num 1)] (.poly [(![0, 1], .num 1)])

example : Adm (Mode.nonint (Int.castRingHom ℂ) (fun i => i = 1)) (Int.castRingHom ℂ) halfPlanes sampleNonint := by
  have hp : ∀ (ts : List ((Fin 2 → ℤ) × Expr 2 ℤ)), (∀ t ∈ ts, ∀ i, 0 ≤ t.1 i) → (∀ t ∈ ts, t.2 = .num 1) →
      Adm (Mode.nonint (Int.castRingHom ℂ) (fun i => i = 1)) (Int.castRingHom ℂ) halfPlanes (.poly ts) := by
    intro ts h0 h1
    refine Adm.poly _ (fun t ht x _ i _ => h0 t ht i) ?_ ?_ <;> intro t ht <;> rw [h1 t ht]
    · exact Adm.num _
    · exact ⟨1, rfl⟩
  have v01 : ∀ x : Fin 2 → ℂ, eval (Int.castRingHom ℂ) x (.poly [(![0, 1], .num 1)]) = x 1 := by
    intro x; rw [eval_poly]; simp [eval_num, Poly.mono]
  have hflat : Flat (.poly [(![0, 1], .num 1)] : Expr 2 ℤ) :=
    Flat.poly _ (by intro t ht; simp at ht; subst ht; exact ⟨1, rfl⟩)
  refine Adm.epoly _ _ (hp _ ?_ ?_) (hp _ ?_ ?_) ⟨hflat, ?_, ?_⟩ trivial (Or.inl ?_)
  · intro t ht i; simp at ht; rcases ht with rfl | rfl <;> fin_cases i <;> simp
  · intro t ht; simp at ht; rcases ht with rfl | rfl <;> rfl
  · intro t ht i; simp at ht; subst ht; fin_cases i <;> simp
  · intro t ht; simp at ht; subst ht; rfl
  · intro k
    refine ⟨fun _ => -1, fun _ => by norm_num, ?_⟩
    rw [v01]
    intro h
    have := congrArg Complex.re h
    simp at this
    have h2 : (0:ℝ) ≤ k := Nat.cast_nonneg k
    linarith
  · intro i hi x s _ _
    rw [v01, v01, Function.update_of_ne (fun h => hi h.symm)]
  · intro x hx
    rw [eval_poly]
    left
    have := hx.1
    simp [eval_num, Poly.mono]
    linarith

example : ∃ e', replace 1 (fun _ => 1) 0 20 sampleNonint = some e' :=
  Option.isSome_iff_exists.1 (by decide +kernel)

example : ∃ e', derive 20 sample 0 = some e' :=
  Option.isSome_iff_exists.1 (by decide +kernel)

example : ∃ e', simplify 20 sample = some e' :=
  Option.isSome_iff_exists.1 (by decide +kernel)

example : ∃ e', replace 1 (fun _ => 1) 0 20 sample = some e' :=
  Option.isSome_iff_exists.1 (by decide +kernel)

example : ∀ k : ℤ, (Int.castRingHom ℂ) 1 = (Int.castRingHom ℂ) 1 ^ k := by simp

end Expr
end SecDec
