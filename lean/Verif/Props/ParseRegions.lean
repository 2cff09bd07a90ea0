import Verif.Proof.ParseRegions
import Mathlib.Algebra.Order.Field.Rat
import Mathlib.Tactic.FinCases
import Mathlib.Tactic.NormNum
/-
C71: the polynomials handed to `make_regions`.
-/
set_option linter.unusedSectionVars false
namespace SecDec
namespace ParseRegions
variable {Sym F : Type} [DecidableEq Sym] [Field F]

/-- **C71.** A polynomial rewritten in other variables has the same value for all values (not zero) of the symbols: variables that are no
longer variables go into the coefficients, new variables are taken out of the coefficients, in whatever order. -/
theorem C71_value {ρ : Sym → F} (hρ : ∀ s, ρ s ≠ 0) {p : NPoly Sym F} (hp : p.WellFormed) {new : List Sym} (hn : new.Nodup) :
    (transform p new true).val ρ = p.val ρ := transform_val hρ hp hn

/-- **C71.** With `add_missing_var_to_coeff=False` the variables that are no longer variables are set to one. -/
theorem C71_drop {ρ : Sym → F} (hρ : ∀ s, ρ s ≠ 0) {p : NPoly Sym F} (hp : p.WellFormed) {new : List Sym} (hn : new.Nodup)
    (hfree : ∀ t ∈ p.terms, ∀ v ∈ p.symbols, v ∉ new → Coef.Free v t.2) :
    (transform p new false).val ρ = p.val (fun v => if v ∈ p.symbols ∧ v ∉ new then 1 else ρ v) := transform_val_false hρ hp hn hfree

/-- **C71.** The result is a polynomial in the new variables, in the order given, and its coefficients do not contain these variables (if those of the
polynomial do not contain its variables). -/
theorem C71_shape {p : NPoly Sym F} (hfree : ∀ t ∈ p.terms, ∀ v ∈ p.symbols, Coef.Free v t.2) (new : List Sym) (add : Bool) :
    (transform p new add).symbols = new ∧
    ∀ t ∈ (transform p new add).terms, t.1.length = new.length ∧ ∀ v ∈ new, Coef.Free v t.2 := ⟨rfl, transform_terms hfree new add⟩

/-- **C71.** Every input becomes, in the order given, a polynomial with an exponent; the base and the exponent are polynomials in the variables of
the decomposition with the same values as before, and their coefficients do not contain these variables. -/
theorem C71_parse (inputs : List (Input Sym F)) {new : List Sym} (hn : new.Nodup) :
    (parseExpressions inputs new).length = inputs.length ∧
    ∀ (i : Nat) (a : Input Sym F) (b : NPoly Sym F × NPoly Sym F), inputs[i]? = some a → (parseExpressions inputs new)[i]? = some b → a.Ok →
      (∀ ρ : Sym → F, (∀ s, ρ s ≠ 0) → (b.1.val ρ, b.2.val ρ) = a.val ρ) ∧
      b.1.symbols = new ∧ b.2.symbols = new ∧
      (∀ t ∈ b.1.terms, t.1.length = new.length ∧ ∀ v ∈ new, Coef.Free v t.2) ∧
      ∀ t ∈ b.2.terms, t.1.length = new.length ∧ ∀ v ∈ new, Coef.Free v t.2 := by
  unfold parseExpressions
  refine ⟨by simp, fun i a b ha hb hok => ?_⟩
  rw [List.getElem?_map, ha, Option.map_some, Option.some.injEq] at hb
  subst hb
  have hone : ∀ ρ : Sym → F, (∀ s, ρ s ≠ 0) → (fromExpression (Sym := Sym) [([], (1 : F))] new).val ρ = 1 := by
    intro ρ hρ
    rw [fromExpression_val hρ hn]
    simp [Coef.val, monoVal]
  cases a with
  | exponentiated p e =>
    refine ⟨fun ρ hρ => ?_, rfl, rfl, transform_terms hok.2 new true, fromExpression_free e new⟩
    exact Prod.ext (transform_val hρ hok.1 hn) (fromExpression_val hρ hn e)
  | polynomial p =>
    refine ⟨fun ρ hρ => ?_, rfl, rfl, transform_terms hok.2 new true, fromExpression_free _ new⟩
    exact Prod.ext (transform_val hρ hok.1 hn) (hone ρ hρ)
  | pow c e =>
    refine ⟨fun ρ hρ => ?_, rfl, rfl, fromExpression_free c new, fromExpression_free e new⟩
    exact Prod.ext (fromExpression_val hρ hn c) (fromExpression_val hρ hn e)
  | expression c =>
    refine ⟨fun ρ hρ => ?_, rfl, rfl, fromExpression_free c new, fromExpression_free _ new⟩
    exact Prod.ext (fromExpression_val hρ hn c) (hone ρ hρ)

/-- **C71.** `Polynomial.from_expression` preserves the value and makes one term of all terms with the same powers. -/
theorem C71_from_expression (c : Coef Sym F) {gens : List Sym} (hg : gens.Nodup) :
    (∀ ρ : Sym → F, (∀ s, ρ s ≠ 0) → (fromExpression c gens).val ρ = Coef.val ρ c) ∧ (fromExpression c gens).symbols = gens ∧
    ((fromExpression c gens).terms.map Prod.fst).Nodup ∧
    ∀ t ∈ (fromExpression c gens).terms, t.1.length = gens.length ∧ ∀ v ∈ gens, Coef.Free v t.2 :=
  ⟨fun _ hρ => fromExpression_val hρ hg c, rfl, (fromExpression_terms c gens).1, fromExpression_free c gens⟩

/-! ### concrete cases -/

/-- `(3*z + z**2*m) * x**2 * y + 5 * x` in the variables x, y -/
def sample : NPoly String ℚ := ⟨["x", "y"], [([2, 1], [([("z", 1)], 3), ([("z", 2), ("m", 1)], 1)]), ([1, 0], [([], 5)])]⟩

example : sample.WellFormed ∧ (∀ t ∈ sample.terms, ∀ v ∈ sample.symbols, Coef.Free v t.2) ∧ ["z", "x"].Nodup ∧ (Input.polynomial sample).Ok := by
  have h1 : sample.WellFormed := by
    refine ⟨by decide, fun t ht => ?_⟩
    simp only [sample, List.mem_cons, List.not_mem_nil, or_false] at ht
    rcases ht with rfl | rfl <;> rfl
  have h2 : ∀ t ∈ sample.terms, ∀ v ∈ sample.symbols, Coef.Free v t.2 := by
    intro t ht v hv
    simp only [sample, List.mem_cons, List.not_mem_nil, or_false] at ht hv
    rcases ht with rfl | rfl <;> rcases hv with rfl | rfl <;> simp [Coef.Free] <;>
      (rintro a b (⟨rfl, -⟩ | ⟨rfl, -⟩) <;> decide)
  exact ⟨h1, h2, by decide, h1, h2⟩

/-- y goes into the coefficients, z comes out of them -/
example : (transform sample ["z", "x"] true).terms =
    [([1, 2], [([("y", 1)], 3)]), ([2, 2], [([("y", 1), ("m", 1)], 1)]), ([0, 1], [([("y", 0)], 5)])] := by decide +kernel

/-- all symbols have a value that is not zero -/
example : ∀ s : String, (fun _ => (2 : ℚ)) s ≠ 0 := by intro s; norm_num

end ParseRegions
end SecDec
