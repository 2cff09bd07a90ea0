import Mathlib.Data.Rat.Defs
import Mathlib.Algebra.Algebra.Rat
import Mathlib.LinearAlgebra.BilinearMap
import Mathlib.Data.Fin.VecNotation
import Verif.Proof.FromProps
/-!
Property C35: U and F of a list of propagators (`LoopIntegralFromPropagators`), determinants and adjugates.
-/
set_option linter.unusedSectionVars false
namespace SecDec
namespace FromProps
open Poly Matrix
variable {P D e : Nat} {R : Type} [CommRing R] [DecidableEq R]

/-- C35: `det` and `parallel_det` return the determinant, for matrices of any size. -/
theorem C35_det (M : Fin (D+1) → Fin (D+1) → Poly P R) :
    (det D M).toLaurent = Matrix.det (Matrix.of fun i j => (M i j).toLaurent) ∧
    (parallelDet D M).toLaurent = Matrix.det (Matrix.of fun i j => (M i j).toLaurent) :=
  ⟨((laurent P R).det (d := 0) D M fun _ _ => trivial).2, (laurent P R).parallelDet (d := 0) D M fun _ _ => trivial⟩

/-- C35: `adjugate` returns the adjugate (here from two rows on). -/
theorem C35_adjugate (M : Fin (D+1+1) → Fin (D+1+1) → Poly P R) (i j : Fin (D+1+1)) :
    (adjugate M i j).toLaurent = Matrix.adjugate (Matrix.of fun a b => (M a b).toLaurent) i j :=
  ((laurent P R).adjugate (d := 0) M (fun _ _ => trivial) i j).2

variable [Invertible (2 : R)]

/-- C35: every term of `U` has degree `L`, every term of `F` degree `L + 1` in the Feynman parameters, where `L = D + 1` is
the number of loop momenta. -/
theorem C35_degree {K : Type} [Field K] [DecidableEq K] (num : R → Option Int) (hnum : ∀ z, num 0 = some z → (z : R) = 0)
    (rules : R → K) (hrules : rules 0 = 0) (p : Props P D R) :
    (∀ t ∈ (preliminaryU num p).terms, t.2 ≠ 0 → (∀ i, 0 ≤ t.1 i) ∧ ∑ i, t.1 i = (D : Int) + 1) ∧
    (∀ t ∈ (preliminaryF num rules p).terms, t.2 ≠ 0 → (∀ i, 0 ≤ t.1 i) ∧ ∑ i, t.1 i = (D : Int) + 2) := by
  let S : Sem P R _ := laurentOn (fun d e => Homog d e) (fun _ _ => homog_add)
  have hM : ∀ a b, S.G 1 (matM num p a b) := fun a b => homog_asInt hnum (homog_linear _)
  have hU : S.G ((D : Int) + 1) (preliminaryU num p) := by
    have := (S.det D (matM num p) hM).1
    rw [mul_one] at this
    push_cast at this
    exact this
  have hF := (doubleSum_sem S hM (fun a => homog_linear _)).1
  have h2 : S.G ((D : Int) + 2) ((doubleSum num p).sub ((preliminaryU num p).mul (polyJ p))) := by
    refine S.gsub hF ?_
    have := S.gmul hU (show S.G 1 (polyJ p) from homog_linear _)
    rwa [add_assoc] at this
  have h3 : RowsIn (Homog ((D : Int) + 2)) (preliminaryF num rules p) := by
    refine rowsIn_simplify ?_
    intro t ht h0
    simp only [List.mem_map] at ht
    obtain ⟨s, hs, rfl⟩ := ht
    exact h2 s hs fun hs0 => h0 (by simp [hs0, hrules])
  exact ⟨hU, h3⟩

/-- C35: the derivative of `U` with respect to a Feynman parameter whose propagator is not quadratic in the loop momenta
vanishes, as assumed for `U_derivatives` (see `C35_U_derivatives_defect` for the converse). -/
theorem C35_U_derivative (num : R → Option Int) (hnum : ∀ z, num 0 = some z → (z : R) = 0) (p : Props P D R) (i : Fin P)
    (hi : notQuadratic p i = true) : ∀ c ∈ ((preliminaryU num p).derive i).coeffs, c = 0 := by
  have hq : ∀ a b, a ≤ b → p.quad i a b = 0 := by
    intro a b
    simp only [notQuadratic, List.all_eq_true, decide_eq_true_eq] at hi
    exact hi a (List.mem_finRange _) b (List.mem_finRange _)
  let S : Sem P R _ := laurentOn (fun _ e => e i = 0) (fun _ _ a b ha hb => by simp [ha, hb])
  have hM : ∀ a b, S.G 1 (matM num p a b) := fun a b => homog_asInt (S := fun e => e i = 0) hnum (rowsIn_linear (S := fun e => e i = 0) _ fun k hk => by
    show (if i = k then (1 : Int) else 0) = 0
    rw [if_neg]
    rintro rfl
    apply hk
    have h1 := hq (min a b) (max a b) (le_trans (min_le_left _ _) (le_max_left _ _))
    split
    · rename_i h; subst h; simpa using h1
    · rw [h1, zero_mul])
  have hU : RowsIn (fun e => e i = 0) (preliminaryU num p) := (S.det D (matM num p) hM).1
  intro c hc
  unfold Poly.coeffs Poly.derive at hc
  simp only at hc
  split at hc
  · simp only [zeroPoly, List.map_cons, List.map_nil, List.mem_singleton] at hc
    exact hc
  · simp only [List.map_map, List.mem_map, List.mem_filter, decide_eq_true_eq] at hc
    obtain ⟨t, ⟨ht, h1⟩, rfl⟩ := hc
    by_cases h0 : t.2 = 0
    · simp [h0]
    · exact absurd (hU t ht h0) h1

/-- The polynomials of the code at a point `x` of the Feynman parameters. -/
theorem at_point {K E : Type} [Field K] [DecidableEq K] [AddCommGroup E] [Module K E] [Algebra K R]
    (num : R → Option Int) (rules : R →ₗ[K] K) (sym : Fin e → R) (B : LinearMap.BilinForm K E)
    (p : Fin e → E) (m : Momentum P D e K) (input : Props P D R) (hden : Denotes input m sym rules B p)
    (hint : IntegerForm num input) (x : Fin P → K) :
    (2 : K) ≠ 0 ∧ (∀ c : K, rules (algebraMap K R c) = c) ∧ (∀ q : Poly P R, (applyRules rules q).eval x = rules (rev x q)) ∧
    (∀ a b, rev x (matM num input a b) = algebraMap K R (m.form x a b)) ∧
    (∀ a, rev x (vecQ input a) = ∑ l, algebraMap K R (m.linear x a l) * sym l) ∧
    (applyRules rules (preliminaryU num input)).eval x = (m.form x).det ∧
    (preliminaryF num rules input).eval x = (∑ a, ∑ b, (m.form x).adjugate a b *
      B (∑ l, m.linear x a l • p l) (∑ l, m.linear x b l • p l)) - (m.form x).det * m.const x ∧
    (m.form x)ᵀ = m.form x := by
  have halg : ∀ (r : R) (c : K), rules (r * algebraMap K R c) = rules r * c := by
    intro r c
    rw [mul_comm, ← Algebra.smul_def, map_smul, smul_eq_mul, mul_comm]
  have halg1 : ∀ c : K, rules (algebraMap K R c) = c := by
    intro c
    have := halg 1 c
    rwa [one_mul, hden.one, one_mul] at this
  have h2 : (2 : K) ≠ 0 := by
    intro h
    have h3 : (2 : R) = 0 := by
      have := congrArg (algebraMap K R) h
      rwa [map_ofNat, map_zero] at this
    have h4 : (1 : R) = 0 := by
      have := invOf_mul_self (2 : R)
      conv at this => lhs; rhs; rw [h3]
      rw [mul_zero] at this
      exact this.symm
    have := hden.one
    rw [h4, map_zero] at this
    exact zero_ne_one this
  have hhalf : (⅟2 : R) = algebraMap K R 2⁻¹ := by
    apply invOf_eq_right_inv
    have : (2 : R) = algebraMap K R 2 := (map_ofNat _ 2).symm
    rw [this, ← map_mul, mul_inv_cancel₀ h2, map_one]
  -- values of polynomials with expressions as coefficients
  have hev : ∀ q : Poly P R, (applyRules rules q).eval x = rules (rev x q) := by
    intro q
    unfold applyRules Poly.eval rev
    simp only [List.map_map]
    induction q.terms with
    | nil => simp
    | cons t l ih => simp only [List.map_cons, List.sum_cons, ih, map_add, Function.comp, halg]
  set A : Matrix (Fin (D+1)) (Fin (D+1)) K := m.form x with hA
  set qc : Fin (D+1) → Fin e → K := m.linear x with hqc
  have hMx : ∀ a b, rev x (matM num input a b) = algebraMap K R (A a b) := by
    intro a b
    rw [matM_eq hint, rev_linear, hA, Momentum.form, Matrix.of_apply, map_sum]
    refine Finset.sum_congr rfl fun i _ => ?_
    rw [map_mul]
    congr 1
    split
    · rename_i h; rw [hden.quad i a b (le_of_eq h)]
    · rw [hden.quad i _ _ (le_trans (min_le_left _ _) (le_max_left _ _)), hhalf, map_mul]
  have hQx : ∀ a, rev x (vecQ input a) = ∑ l, algebraMap K R (qc a l) * sym l := by
    intro a
    unfold vecQ
    rw [rev_linear]
    simp only [hden.lin, hhalf, hqc, Momentum.linear, map_sum, Finset.sum_mul, map_mul, map_neg]
    rw [Finset.sum_comm]
    refine Finset.sum_congr rfl fun i _ => ?_
    rw [← Finset.sum_neg_distrib, Finset.sum_mul]
    refine Finset.sum_congr rfl fun l _ => ?_
    ring
  have hJx : rules (rev x (polyJ input)) = m.const x := by
    unfold polyJ
    rw [rev_linear, map_sum, Momentum.const]
    refine Finset.sum_congr rfl fun i _ => ?_
    rw [halg, hden.cst, mul_comm]
  let S : Sem P R R := values x
  have h0' : ∀ z, num 0 = some z → (z : R) = 0 := fun z hz => (hint.1 z hz).symm
  have hM : ∀ a b, S.G 1 (matM num input a b) := homog_matM h0'
  have hmat : (Matrix.of fun a b => S.s (matM num input a b)) = (algebraMap K R).mapMatrix A := by
    ext a b; exact hMx a b
  obtain ⟨hUG, hUs⟩ := S.det D (matM num input) hM
  have hUx : rev x (preliminaryU num input) = algebraMap K R A.det := by
    show S.s (preliminaryU num input) = _
    unfold preliminaryU
    rw [hUs, hmat, ← RingHom.map_det]
  have hU : (applyRules rules (preliminaryU num input)).eval x = A.det := by rw [hev, hUx, halg1]
  set qv : Fin (D+1) → E := fun a => ∑ l, qc a l • p l with hqv
  have hBq : ∀ a b, B (qv a) (qv b) = ∑ l, ∑ l', qc a l * qc b l' * B (p l) (p l') := by
    intro a b
    simp only [hqv, map_sum, LinearMap.sum_apply, map_smul, LinearMap.smul_apply, smul_eq_mul, Finset.mul_sum]
    rw [Finset.sum_comm]
    refine Finset.sum_congr rfl fun l _ => Finset.sum_congr rfl fun l' _ => ?_
    ring
  have hF : (preliminaryF num rules input).eval x =
      (∑ a, ∑ b, A.adjugate a b * B (qv a) (qv b)) - A.det * m.const x := by
    unfold preliminaryF
    rw [eval_simplify]
    show (applyRules rules _).eval x = _
    rw [hev]
    show rules (S.s _) = _
    rw [S.ssub, S.smul (p := preliminaryU num input) hUG (show S.G 1 (polyJ input) from homog_linear _), (doubleSum_sem S hM (fun a => homog_linear _)).2,
      hmat, ← RingHom.map_adjugate]
    rw [map_sub]
    congr 1
    · rw [map_sum]
      refine Finset.sum_congr rfl fun a _ => ?_
      rw [map_sum]
      refine Finset.sum_congr rfl fun b _ => ?_
      show rules (rev x (vecQ input a) * algebraMap K R (A.adjugate a b) * rev x (vecQ input b)) = _
      rw [mul_right_comm, halg, hQx, hQx, mul_comm, hBq, Finset.sum_mul_sum, map_sum]
      congr 1
      refine Finset.sum_congr rfl fun l _ => ?_
      rw [map_sum]
      refine Finset.sum_congr rfl fun l' _ => ?_
      rw [mul_mul_mul_comm, ← map_mul, mul_comm (algebraMap K R _), halg, hden.scalar, mul_comm]
    · show rules (rev x (preliminaryU num input) * rev x (polyJ input)) = _
      rw [hUx, mul_comm, halg, hJx, mul_comm]
  have hAt : Aᵀ = A := by
    ext a b
    simp only [hA, Momentum.form, Matrix.transpose_apply, Matrix.of_apply]
    refine Finset.sum_congr rfl fun i _ => ?_
    by_cases h : a = b
    · subst h; rfl
    · rw [if_neg h, if_neg (Ne.symm h), min_comm, max_comm]
  exact ⟨h2, halg1, hev, hMx, hQx, hU, hF, hAt⟩

/-- The weighted sum of the propagators. -/
theorem sum_value {K E : Type} [Field K] [AddCommGroup E] [Module K E] (h2 : (2 : K) ≠ 0)
    (B : LinearMap.BilinForm K E) (hB : ∀ u v, B u v = B v u)
    (p : Fin e → E) (m : Momentum P D e K) (x : Fin P → K) (k : Fin (D+1) → E) :
    ∑ i, x i * m.value B p i k = (∑ a, ∑ b, m.form x a b * B (k a) (k b)) -
      2 * (∑ a, B (k a) (∑ l, m.linear x a l • p l)) + m.const x := by
  unfold Momentum.value Momentum.const
  simp only [mul_add, Finset.sum_add_distrib]
  congr 1
  rw [sub_eq_add_neg]
  congr 1
  · have : ∀ i, x i * (∑ a, ∑ b, if a ≤ b then m.quad i a b * B (k a) (k b) else 0) =
        ∑ a, ∑ b, ((if a = b then m.quad i a b else m.quad i (min a b) (max a b) * 2⁻¹) * x i) * B (k a) (k b) := by
      intro i
      rw [sum_sym h2 (m.quad i) (fun a b => B (k a) (k b)) (fun a b => hB _ _), Finset.mul_sum]
      refine Finset.sum_congr rfl fun a _ => ?_
      rw [Finset.mul_sum]
      refine Finset.sum_congr rfl fun b _ => ?_
      ring
    simp only [this]
    rw [Finset.sum_comm]
    refine Finset.sum_congr rfl fun a _ => ?_
    rw [Finset.sum_comm]
    refine Finset.sum_congr rfl fun b _ => ?_
    rw [Momentum.form, Matrix.of_apply, Finset.sum_mul]
  · simp only [Momentum.linear, map_sum, map_smul, smul_eq_mul, Finset.mul_sum, Finset.sum_mul]
    rw [Finset.sum_comm, ← Finset.sum_neg_distrib]
    refine Finset.sum_congr rfl fun a _ => ?_
    rw [Finset.sum_comm, ← Finset.sum_neg_distrib]
    refine Finset.sum_congr rfl fun l _ => ?_
    rw [← Finset.sum_neg_distrib]
    refine Finset.sum_congr rfl fun i _ => ?_
    field_simp

/-- C35: completing the square.  For all Feynman parameters `x` with `U(x) ≠ 0`, the sum of the propagators weighted with
the Feynman parameters is, as a function of the loop momenta, a quadratic form with determinant `U(x)` in shifted loop momenta
minus `F(x)/U(x)`; this holds for propagators that depend in any way on scalar products of the momenta, provided
the coefficients of the quadratic form are integers or symbolic (see `C35_truncation_defect`). -/
theorem C35_momentum_space {K E : Type} [Field K] [DecidableEq K] [AddCommGroup E] [Module K E] [Algebra K R]
    (num : R → Option Int) (rules : R →ₗ[K] K) (sym : Fin e → R) (B : LinearMap.BilinForm K E) (hB : ∀ u v, B u v = B v u)
    (p : Fin e → E) (m : Momentum P D e K) (input : Props P D R) (hden : Denotes input m sym rules B p)
    (hint : IntegerForm num input) (x : Fin P → K) (hx : (applyRules rules (preliminaryU num input)).eval x ≠ 0) :
    ∃ (A : Matrix (Fin (D+1)) (Fin (D+1)) K) (v : Fin (D+1) → E),
      Aᵀ = A ∧ A.det = (applyRules rules (preliminaryU num input)).eval x ∧
      ∀ k : Fin (D+1) → E, ∑ i, x i * m.value B p i k =
        (∑ a, ∑ b, A a b * B (k a - v a) (k b - v b)) -
          (preliminaryF num rules input).eval x / (applyRules rules (preliminaryU num input)).eval x := by
  obtain ⟨h2, -, -, -, -, hU, hF, hAt⟩ := at_point num rules sym B p m input hden hint x
  rw [hU] at hx
  obtain ⟨v, hv⟩ := complete_square (m.form x) hAt hx B hB (fun a => ∑ l, m.linear x a l • p l)
  refine ⟨m.form x, v, hAt, hU.symm, fun k => ?_⟩
  rw [hU, hF, sub_div, mul_div_cancel_left₀ _ hx]
  rw [sum_value h2 B hB p m x k]
  have h5 := hv k
  rw [h5]; ring

/-! ### examples -/

/-- Python's `int` for rational numbers. -/
def truncate (q : ℚ) : Option Int := some (q.num.tdiv q.den)

instance : Invertible (2 : ℚ) := ⟨1/2, by norm_num, by norm_num⟩

/-- The scalar product of one-dimensional vectors. -/
noncomputable def prodForm : LinearMap.BilinForm ℚ ℚ := LinearMap.mul ℚ ℚ

/-- The propagators `k**2`, `(k+p)**2`, as input and in momentum space. -/
def bubble : Props 2 0 ℚ := ⟨fun _ _ _ => 1, fun i _ => if i = 0 then 0 else 2 * 3, fun i => if i = 0 then 0 else 3 * 3⟩
def bubbleMomentum : Momentum 2 0 1 ℚ := ⟨fun _ _ _ => 1, fun i _ _ => if i = 0 then 0 else 2, fun i => if i = 0 then 0 else 9⟩

theorem bubble_denotes : Denotes bubble bubbleMomentum (fun _ => (3 : ℚ)) LinearMap.id prodForm (fun _ => (3 : ℚ)) where
  quad := by intros; rfl
  lin := by intro i a; fin_cases i <;> simp [bubble, bubbleMomentum]
  cst := by intro i; fin_cases i <;> norm_num [bubble, bubbleMomentum]
  one := rfl
  scalar := by intros; simp [prodForm]

theorem bubble_integer : IntegerForm truncate bubble := by
  refine ⟨fun z hz => ?_, fun i a b _ z hz => ?_⟩
  · simp only [truncate, Option.some.injEq] at hz; subst hz; rfl
  · have : a = b := Subsingleton.elim (α := Fin 1) a b
    rw [if_pos this] at hz ⊢
    simp only [truncate, Option.some.injEq] at hz
    subst hz
    show (1 : ℚ) = ((((1 : ℚ).num.tdiv (1 : ℚ).den : Int)) : ℚ)
    rfl

theorem bubble_U : (applyRules (LinearMap.id : ℚ →ₗ[ℚ] ℚ) (preliminaryU truncate bubble)).eval ![1, 2] = 3 := by
  decide +kernel

/-- The hypotheses of `C35_momentum_space` hold for the bubble; here `U(1,2) = 3`. -/
example : ∃ (A : Matrix (Fin 1) (Fin 1) ℚ) (v : Fin 1 → ℚ), Aᵀ = A ∧ A.det = 3 ∧
    ∀ k : Fin 1 → ℚ, ∑ i, ![1, 2] i * bubbleMomentum.value prodForm (fun _ => 3) i k =
      (∑ a, ∑ b, A a b * prodForm (k a - v a) (k b - v b)) -
        (preliminaryF truncate (LinearMap.id : ℚ →ₗ[ℚ] ℚ) bubble).eval ![1, 2] / 3 := by
  have h := C35_momentum_space truncate LinearMap.id (fun _ => (3 : ℚ)) prodForm
    (fun u v => by simp [prodForm, mul_comm]) (fun _ => 3) bubbleMomentum bubble bubble_denotes bubble_integer ![1, 2]
    (by rw [bubble_U]; norm_num)
  rwa [bubble_U] at h

example : ∀ t ∈ (preliminaryU truncate bubble).terms, t.2 ≠ 0 → (∀ i, 0 ≤ t.1 i) ∧ ∑ i, t.1 i = ((0 : Nat) : Int) + 1 :=
  (C35_degree truncate (by intro z hz; simp only [truncate, Option.some.injEq] at hz; subst hz; rfl) id rfl bubble).1

/-- The propagators `k1**2`, `k2**2`, `k1*k2`. -/
def mixed : Props 3 1 ℚ :=
  ⟨fun i a b => if (i = 0 ∧ a = 0 ∧ b = 0) ∨ (i = 1 ∧ a = 1 ∧ b = 1) ∨ (i = 2 ∧ a = 0 ∧ b = 1) then 1 else 0, 0, 0⟩
def mixedMomentum : Momentum 3 1 0 ℚ :=
  ⟨fun i a b => if (i = 0 ∧ a = 0 ∧ b = 0) ∨ (i = 1 ∧ a = 1 ∧ b = 1) ∨ (i = 2 ∧ a = 0 ∧ b = 1) then 1 else 0, 0, 0⟩

/-- C35 (defect): the coefficients of the quadratic form are converted by `astype(int)`, which truncates fractions without an
error.  For the propagators `k1**2`, `k2**2`, `k1*k2` the matrix element `x2/2` becomes zero: at the point `(1,1,1)`
the program's `U` is `1`, but the determinant of the quadratic form of the sum of the propagators is `3/4`. -/
theorem C35_truncation_defect :
    Denotes mixed mixedMomentum (fun l : Fin 0 => l.elim0) (LinearMap.id : ℚ →ₗ[ℚ] ℚ) prodForm (fun l => l.elim0) ∧
    (applyRules (LinearMap.id : ℚ →ₗ[ℚ] ℚ) (preliminaryU truncate mixed)).eval (fun _ => 1) = 1 ∧
    ∀ A : Matrix (Fin 2) (Fin 2) ℚ, Aᵀ = A →
      (∀ k : Fin 2 → ℚ, ∑ i, (1 : ℚ) * mixedMomentum.value prodForm (fun l => l.elim0) i k = ∑ a, ∑ b, A a b * prodForm (k a) (k b)) →
      A.det = 3/4 := by
  refine ⟨⟨by intros; rfl, by intros; simp [mixed], by intros; rfl, rfl, fun l => l.elim0⟩, ?_, ?_⟩
  · let S : Sem 3 ℚ ℚ := values (fun _ : Fin 3 => (1 : ℚ))
    have hn : ∀ z, truncate 0 = some z → (z : ℚ) = 0 := by
      intro z hz; simp only [truncate, Option.some.injEq] at hz; subst hz; rfl
    have h := (S.det 1 (matM truncate mixed) (homog_matM hn)).2
    rw [Matrix.det_fin_two] at h
    have e : ∀ q : Poly 3 ℚ, (applyRules (LinearMap.id : ℚ →ₗ[ℚ] ℚ) q).eval (fun _ => 1) = S.s q := by
      intro q
      show _ = rev _ q
      unfold applyRules Poly.eval rev
      simp only [List.map_map]
      rfl
    rw [e]
    show S.s (det 1 (matM truncate mixed)) = 1
    rw [h]
    simp only [Matrix.of_apply, ← e]
    decide +kernel
  · intro A hA h
    have hs : A 1 0 = A 0 1 := congrFun (congrFun hA 0) 1
    have h1 := h ![1, 0]
    have h2 := h ![0, 1]
    have h3 := h ![1, 1]
    simp [Fin.sum_univ_succ, mixedMomentum, Momentum.value, prodForm] at h1 h2 h3
    rw [Matrix.det_fin_two, hs]
    rw [hs] at h3
    have h4 : A 0 1 = 1/2 := by linarith
    rw [← h1, ← h2, h4]; norm_num

/-- The propagators `k1**2`, `2*k1*k2`. -/
def noDependence : Props 2 1 ℚ :=
  ⟨fun i a b => if i = 0 ∧ a = 0 ∧ b = 0 then 1 else if i = 1 ∧ a = 0 ∧ b = 1 then 2 else 0, 0, 0⟩

/-- C35 (defect): a propagator that is quadratic in the loop momenta is assumed to give a nonvanishing derivative of `U`.  For the
propagators `k1**2`, `2*k1*k2` (`U = -x1**2`) this is not so, and the power of `U` will be wrong if the first propagator has a
negative power. -/
theorem C35_U_derivatives_defect : notQuadratic noDependence 0 = false ∧
    ∀ c ∈ ((preliminaryU truncate noDependence).derive 0).coeffs, c = 0 := by
  refine ⟨by decide +kernel, ?_⟩
  have h11 : RowsIn (fun _ => False) (matM truncate noDependence 1 1) := by
    have : (matM truncate noDependence 1 1).terms = [(fun _ => 0, 0)] := by decide +kernel
    intro t ht h0
    rw [this] at ht
    simp only [List.mem_singleton] at ht
    subst ht; exact h0 rfl
  have h01 : ∀ a b : Fin 2, a ≠ b → RowsIn (fun e => e 0 = 0) (matM truncate noDependence a b) := by
    have : ∀ q : Fin 2 × Fin 2, q.1 ≠ q.2 → ∀ t ∈ (matM truncate noDependence q.1 q.2).terms, t.1 0 = 0 := by decide +kernel
    intro a b hab t ht _
    exact this (a, b) hab t ht
  have hU : RowsIn (fun e => e 0 = 0) (preliminaryU truncate noDependence) := by
    have hd : preliminaryU truncate noDependence =
        ((matM truncate noDependence 0 0).mul (matM truncate noDependence 1 1)).sub
          ((matM truncate noDependence 0 1).mul (matM truncate noDependence 1 0)) := rfl
    rw [hd]
    refine rowsIn_sub ?_ ?_
    · exact (rowsIn_mul (S := fun _ => True) (fun _ _ _ => trivial) h11 (fun _ _ _ h => h.elim))
    · exact rowsIn_mul (h01 0 1 (by decide)) (h01 1 0 (by decide)) (fun a b ha hb => by simp [ha, hb])
  intro c hc
  unfold Poly.coeffs Poly.derive at hc
  simp only at hc
  split at hc
  · simp only [zeroPoly, List.map_cons, List.map_nil, List.mem_singleton] at hc
    exact hc
  · simp only [List.map_map, List.mem_map, List.mem_filter, decide_eq_true_eq] at hc
    obtain ⟨t, ⟨ht, h1⟩, rfl⟩ := hc
    by_cases h0 : t.2 = 0
    · simp [h0]
    · exact absurd (hU t ht h0) h1

/-- `C35_U_derivative` for the propagators `k**2`, `k*p` (here `p = 3`). -/
example : ∀ c ∈ ((preliminaryU truncate
    (⟨fun i _ _ => if i = 0 then 1 else 0, fun i _ => if i = 0 then 0 else 3, 0⟩ : Props 2 0 ℚ)).derive 1).coeffs, c = 0 :=
  C35_U_derivative truncate (by intro z hz; simp only [truncate, Option.some.injEq] at hz; subst hz; rfl) _ 1
    (by decide +kernel)

end FromProps
end SecDec
