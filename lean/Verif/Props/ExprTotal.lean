import Verif.Proof.ExprTotalD
import Verif.Props.Expr
/-
C37: the methods of expressions terminate.
-/
namespace SecDec
namespace Expr
variable {n : Nat} {F : Type} [CommRing F] [DecidableEq F]

/-- C37: `simplify()` terminates with a complete expression on every complete expression. In particular the `while changed` loops
of `Sum.simplify` and `Product.simplify` end, and the result does not depend on the recursion bound of the model. -/
theorem C37_simplify_terminates (e : Expr n F) (h : Complete e) : ∃ e', Complete e' ∧ Terminates (fun fuel => simplify fuel e) e' :=
  (simplify_ev h).terminates

/-- C37: `derive(i)` terminates with a complete expression. -/
theorem C37_derive_terminates (e : Expr n F) (i : Fin n) (h : Complete e) :
    ∃ e', Complete e' ∧ Terminates (fun fuel => derive fuel e i) e' :=
  (derive_ev i _ e (le_refl _) h).terminates

/-- C37: `replace(i, v)` terminates with a complete expression. -/
theorem C37_replace_terminates (e : Expr n F) (v : F) (vpow : Int → F) (i : Fin n) (h : Complete e) :
    ∃ e', Complete e' ∧ Terminates (fun fuel => replace v vpow i fuel e) e' :=
  (replace_ev v vpow i _ e (le_refl _) h).terminates

/-- C37 with C06: the derivative of every complete and meaningful expression exists as an expression, and its value is the
partial derivative. -/
theorem C37_derivative_exists (φ : F →+* ℂ) (M : Mode n F)
    (hM : M = Mode.strict ∨ M = Mode.flat ∨ ∃ dep, M = Mode.nonint φ dep)
    (U : Set (Fin n → ℂ)) (hU : IsOpen U) (e : Expr n F) (he : Adm M φ U e) (hc : Complete e) (i : Fin n) :
    ∃ e', Terminates (fun fuel => derive fuel e i) e' ∧ Complete e' ∧ Adm M φ U e' ∧ ∀ x ∈ U,
      HasDerivAt (fun s => eval φ (Function.update x i s) e) (eval φ x e') (x i) := by
  obtain ⟨e', h1, N, hN⟩ := C37_derive_terminates e i hc
  obtain ⟨h2, h3⟩ := C06_derive_is_partial_derivative φ M hM U hU e e' he i N (hN N (le_refl _))
  exact ⟨e', ⟨N, hN⟩, h1, h2, h3⟩

/-- An expression with an empty `Sum` is not complete, and `simplify` does not return (the program raises). -/
theorem C37_empty_sum (fuel : ℕ) : simplify fuel (.sum [] : Expr n F) = none := by
  cases fuel with
  | zero => rw [simplify]
  | succ fuel => cases fuel with
    | zero => rw [simplify, sumLoop]
    | succ fuel => rw [simplify, sumLoop]; rfl

/-- A complete nested expression: `(x + 0) * ((x)**2 * (0 + log(x)))`. -/
example : Complete (.prod [.sum [.poly [((fun _ => 1), .num 1)], const 0],
    .prod [.epoly [((fun _ => 1), .num 1)] (.num 2), .sum [const 0, .lpoly [((fun _ => 1), .num 1)]]]] : Expr 1 ℤ) := by
  refine .prod _ (by simp) ?_
  have hp : Complete (.poly [((fun _ => 1), .num 1)] : Expr 1 ℤ) := .poly _ (by simpa using .num 1)
  simp only [List.mem_cons, List.not_mem_nil, or_false, forall_eq_or_imp, forall_eq]
  refine ⟨complete_sum2 hp (complete_const 0), complete_prod2 (.epoly _ _ (by simpa using .num 1) (.num _))
    (complete_sum2 (complete_const 0) (.lpoly _ (by simpa using .num 1)))⟩

end Expr
end SecDec
