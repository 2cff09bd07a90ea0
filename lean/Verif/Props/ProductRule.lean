import Mathlib.Algebra.MvPolynomial.PDeriv
import Mathlib.RingTheory.Derivation.Lie
import Verif.Proof.ProductRule
/-
C08: `ProductRule` tracks derivatives of a product exactly, for every history of operations.
-/
namespace SecDec
namespace PRule

/-- C08: create `ProductRule(*fs)` and perform any history of `derive` and `simplify` calls on it and on
the objects so obtained (which all share and extend one cache).  Then
* an operation fails only if the client addresses an object that does not exist;
* every object, converted by `to_sum()` (which never raises), has the value of the iterated derivative
  of the product of all factors prescribed by the `derive` calls that created it;
* `replace` of every object gives the substitution `ρ` of that value, if it does so for the factors. -/
theorem C08_productRule_exact {m n : Nat} {E A : Type} [CommRing A]
    (D : Fin n → Derivation ℤ A A) (hcomm : ∀ k l a, D k (D l a) = D l (D k a))
    (val : E → A) (ops : Ops n E) (hs : Sound D val ops) (fs : Fin m → E) (hist : List (Op n)) :
    (run ops (start ops fs) hist = none ↔ wordRun [[]] hist = none) ∧
    ∀ heap ws, run ops (start ops fs) hist = some heap → wordRun [[]] hist = some ws →
      heap.objs.length = ws.length ∧
      ∀ (i : Nat) (o : Obj m n) (w : List (Fin n)), heap.objs[i]? = some o → ws[i]? = some w →
        (∃ L, toSum heap.cache o = some L ∧ sumVal val L = iterDeriv D w (∏ j, val (fs j))) ∧
        (∀ {E' B : Type} [CommRing B] (rep : E → E') (val' : E' → B) (ρ : A →+* B),
          (∀ e, val' (rep e) = ρ (val e)) →
          ∃ L, replace rep heap.cache o = some L ∧
            sumVal val' L = ρ (iterDeriv D w (∏ j, val (fs j)))) := by
  rcases run_inv hs hcomm hist (start_inv hs (fs := fs)) with ⟨h1, h2⟩ | ⟨h', ws', h1, h2, h3⟩
  · simp [h1, h2]
  · refine ⟨by simp [h1, h2], ?_⟩
    intro heap ws hh hw
    rw [h1] at hh; rw [h2] at hw
    simp only [Option.some.injEq] at hh hw
    subst hh; subst hw
    refine ⟨h3.len, ?_⟩
    intro i o w ho hw
    have hcl := h3.closed o (List.mem_of_getElem? ho)
    have hv := h3.vals i o w ho hw
    constructor
    · obtain ⟨L, l1, l2⟩ := mapM_obj o hcl h3.cache id val (RingHom.id A) (fun _ => rfl)
      exact ⟨L, by rw [toSum_eq_replace]; exact l1, by unfold sumVal; rw [l2, hv]; rfl⟩
    · intro E' B _ rep val' ρ hρ
      obtain ⟨L, l1, l2⟩ := mapM_obj o hcl h3.cache rep val' ρ hρ
      exact ⟨L, l1, by unfold sumVal; rw [l2, hv]⟩

/-- C08: if `simplify()` of a reachable object returns the zero polynomial, the value is zero. -/
theorem C08_productRule_zero {m n : Nat} {E A : Type} [CommRing A]
    (D : Fin n → Derivation ℤ A A) (hcomm : ∀ k l a, D k (D l a) = D l (D k a))
    (val : E → A) (ops : Ops n E) (hs : Sound D val ops) (fs : Fin m → E) (hist : List (Op n))
    (heap : Heap m n E) (ws : List (List (Fin n)))
    (hr : run ops (start ops fs) hist = some heap) (hw : wordRun [[]] hist = some ws)
    (i : Nat) (o : Obj m n) (w : List (Fin n)) (ho : heap.objs[i]? = some o) (hwi : ws[i]? = some w)
    (hz : (simplify ops heap.cache o).2 = true) : iterDeriv D w (∏ j, val (fs j)) = 0 := by
  rcases run_inv hs hcomm hist (start_inv hs (fs := fs)) with ⟨h1, _⟩ | ⟨h', ws', h1, h2, h3⟩
  · rw [h1] at hr; simp at hr
  · rw [h1] at hr; rw [h2] at hw
    simp only [Option.some.injEq] at hr hw
    subst hr; subst hw
    rw [← h3.vals i o w ho hwi]
    exact (simplify_ok hs h3.cache o (h3.closed o (List.mem_of_getElem? ho))).2.2 hz

/-! A concrete instance: multivariate polynomials with their partial derivatives. -/

open Classical in
/-- Polynomials as expressions. -/
noncomputable def mvOps (n : Nat) : Ops n (MvPolynomial (Fin n) ℤ) where
  derive p k := MvPolynomial.pderiv k p
  simplify p := p
  zeroD p := decide (p = 0)
  zeroS p := decide (p = 0)

example (n : Nat) : Sound (fun k => MvPolynomial.pderiv (R := ℤ) k) id (mvOps n) :=
  ⟨fun _ _ => rfl, fun _ => rfl, fun e h => by simpa [mvOps] using h, fun e h => by simpa [mvOps] using h⟩

example (n : Nat) (k l : Fin n) (a : MvPolynomial (Fin n) ℤ) :
    MvPolynomial.pderiv k (MvPolynomial.pderiv l a) = MvPolynomial.pderiv l (MvPolynomial.pderiv k a) := by
  have : ⁅(MvPolynomial.pderiv k : Derivation ℤ (MvPolynomial (Fin n) ℤ) (MvPolynomial (Fin n) ℤ)),
      (MvPolynomial.pderiv l : Derivation ℤ (MvPolynomial (Fin n) ℤ) (MvPolynomial (Fin n) ℤ))⁆ = 0 := by
    apply MvPolynomial.derivation_ext
    intro i
    rw [Derivation.commutator_apply]
    simp only [MvPolynomial.pderiv_X, Derivation.zero_apply]
    by_cases h1 : l = i <;> by_cases h2 : k = i <;> simp [Pi.single_apply, h1, h2]
  have := DFunLike.congr_fun this a
  rw [Derivation.commutator_apply] at this
  exact sub_eq_zero.1 this

example : wordRun (n := 2) [[]] [.derive 0 1, .derive 1 0, .simplify 2, .derive 0 0]
    = some [[], [1], [0, 1], [0]] := rfl

end PRule
end SecDec
