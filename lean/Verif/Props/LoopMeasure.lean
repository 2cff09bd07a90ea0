import Verif.Spec.LoopMeasure
import Verif.Proof.FeynmanTrick
import Verif.Props.FromProps
import Verif.Props.Decomp
import Verif.Props.Numerator
import Mathlib.Analysis.SpecialFunctions.ImproperIntegrals
import Mathlib.Data.Real.StarOrdered
/-!
Property C51: the integral over the Feynman parameters that the code builds from a list of propagators is the loop
integral in momentum space.
-/
set_option linter.unusedSectionVars false
namespace SecDec
namespace LoopMeasure
open scoped BigOperators
open FromProps Numer Decomp MeasureTheory Matrix
noncomputable section
variable {n D e d : ℕ} {I : Type} [DecidableEq I]

theorem measure_eq {P : ℕ} (eff : Fin P → ℂ) (x : Fin P → ℝ) (h0 : ∀ i, eff i ≠ 0) (hx : ∀ i, 0 < x i) :
    measure eff x = ∏ i, (x i : ℂ) ^ (eff i - 1) := by
  unfold measure measureFactors
  rw [← List.prod_ofFn, List.ofFn_eq_map]
  induction List.finRange P with
  | nil => rfl
  | cons i l ih =>
    by_cases h1 : eff i = 1
    · rw [List.filterMap_cons_none (by rw [if_pos (Or.inr h1)]), List.map_cons, List.prod_cons, ih, h1]
      simp
    · rw [List.filterMap_cons_some (by rw [if_neg (by simp [h0 i, h1])]), List.map_cons, List.prod_cons, ih, List.map_cons,
        List.prod_cons]

theorem gammaFactor_eq {P : ℕ} (argument Nnu : ℂ) (eff : Fin P → ℂ) (h0 : ∀ i, eff i ≠ 0) (k : ℕ) :
    gammaFactor argument Nnu eff k = Complex.Gamma argument * (∏ i, Complex.Gamma (eff i))⁻¹ *
      Complex.exp (-Complex.I * Real.pi * (Nnu + k)) := by
  unfold gammaFactor
  congr 1
  have : ∀ (l : List (Fin P)) (g : ℂ), l.foldl (fun g i => if eff i ≠ 0 then g * (1 / Complex.Gamma (eff i)) else g) g =
      g * ((l.map fun i => Complex.Gamma (eff i)).prod)⁻¹ := by
    intro l
    induction l with
    | nil => intro g; simp
    | cons i l ih =>
      intro g
      rw [List.foldl_cons, ih, if_pos (h0 i), List.map_cons, List.prod_cons, mul_inv, one_div, mul_assoc]
  rw [this, ← List.prod_ofFn, List.ofFn_eq_map]

theorem edotForm_apply (u v : Fin d → ℝ) : edotForm d u v = edot u v := rfl

theorem edotForm_symm (u v : Fin d → ℝ) : edotForm d u v = edotForm d v u := by
  show edot u v = edot v u
  simp only [edot, mul_comm]

theorem continuous_edot {X : Type} [TopologicalSpace X] {f g : X → Fin d → ℝ} (hf : Continuous f) (hg : Continuous g) :
    Continuous fun x => edotForm d (f x) (g x) := by
  simp only [edotForm, LinearMap.mk₂_apply, edot]
  fun_prop

theorem continuous_propagator (m : Momentum (n+1) D e ℝ) (p : Fin e → Fin d → ℝ) (i : Fin (n+1)) :
    Continuous (propagator m p i) := by
  have hk : ∀ a, Continuous fun k : Fin d → Fin (D+1) → ℝ => fun μ => k μ a := fun a => by fun_prop
  unfold propagator Momentum.value
  refine Continuous.add (Continuous.add ?_ ?_) continuous_const
  · refine continuous_finsetSum _ fun a _ => continuous_finsetSum _ fun b _ => ?_
    split
    · exact continuous_const.mul (continuous_edot (hk a) (hk b))
    · exact continuous_const
  · exact continuous_finsetSum _ fun a _ => continuous_finsetSum _ fun b _ =>
      continuous_const.mul (continuous_edot (hk a) continuous_const)

theorem continuous_contract {X : Type} [TopologicalSpace X] (ε : Fin d → ℂ) (J : List I) (f : X → (I → Fin d) → ℂ)
    (hf : ∀ σ, Continuous fun x => f x σ) (σ : I → Fin d) : Continuous fun x => contract ε J (f x) σ := by
  induction J generalizing σ with
  | nil => exact hf σ
  | cons μ J ih =>
    simp only [contract, sumIndex]
    exact continuous_finsetSum _ fun m _ => continuous_const.mul (ih _)

theorem continuous_value (p : Fin e → Fin d → ℂ) (τ : I → Fin d) (terms : List (Term (D+1) e I)) :
    Continuous fun k : Fin d → Fin (D+1) → ℝ => (terms.map fun t => t.value eMetric p (fun a μ => ((k μ a : ℝ) : ℂ)) τ).sum := by
  induction terms with
  | nil => simpa using continuous_const
  | cons t l ih =>
    simp only [List.map_cons, List.sum_cons]
    refine Continuous.add ?_ ih
    unfold Term.value einstein
    refine continuous_contract _ _ _ (fun σ => ?_) _
    refine (continuous_const.mul ?_).mul continuous_const
    induction t.loop with
    | nil => simpa using continuous_const
    | cons f l ih => simp only [List.map_cons, List.prod_cons]; exact Continuous.mul (by fun_prop) ih

variable {R : Type} [CommRing R] [DecidableEq R] [Invertible (2 : R)] [Algebra ℝ R]

/-- C51: the vectors `Q` of the code are the combinations of the external momenta with the coefficients that enter the
numerator. -/
theorem C51_vector_Q {E : Type} [AddCommGroup E] [Module ℝ E] (num : R → Option Int) (rules : R →ₗ[ℝ] ℝ) (sym : Fin e → R)
    (B : LinearMap.BilinForm ℝ E) (p : Fin e → E) (m : Momentum (n+1) D e ℝ) (input : Props (n+1) D R)
    (hden : Denotes input m sym rules B p) (hint : IntegerForm num input) (x : Fin (n+1) → ℝ) (a : Fin (D+1)) :
    ((vecQ input a).terms.map fun t => t.2 * algebraMap ℝ R (Poly.mono x t.1)).sum =
      ∑ l, algebraMap ℝ R (m.linear x a l) * sym l :=
  (at_point num rules sym B p m input hden hint x).2.2.2.2.1 a

theorem entry_eval (num : R → Option Int) (rules : R →ₗ[ℝ] ℝ) (sym : Fin e → R) (p : Fin e → Fin d → ℝ)
    (m : Momentum (n+1) D e ℝ) (input : Props (n+1) D R)
    (hden : Denotes input m sym rules (edotForm d) p) (hint : IntegerForm num input) (x : Fin (n+1) → ℝ) (a b : Fin (D+1)) :
    (applyRules rules (entryAdjugate D (matM num input) a b)).eval x = (m.form x).adjugate a b := by
  obtain ⟨-, halg1, hev, hMx, -, -, -, -⟩ := at_point num rules sym (edotForm d) p m input hden hint x
  rw [hev]
  have h0' : ∀ z, num 0 = some z → (z : R) = 0 := fun z hz => (hint.1 z hz).symm
  have hM : ∀ a b, (values (K := ℝ) (R := R) x).G 1 (matM num input a b) := homog_matM h0'
  cases D with
  | zero =>
    have : a = b := Subsingleton.elim (α := Fin 1) _ _
    subst this
    have h1 : rules 1 = 1 := hden.one
    simp [entryAdjugate, rev, Poly.mono, Matrix.adjugate_fin_one, h1]
  | succ D =>
    have h := ((values (K := ℝ) (R := R) x).adjugate (matM num input) hM a b).2
    have hmat : (Matrix.of fun a b => (values (K := ℝ) (R := R) x).s (matM num input a b)) = (algebraMap ℝ R).mapMatrix (m.form x) := by
      ext a b; exact hMx a b
    rw [hmat, ← RingHom.map_adjugate] at h
    show rules ((values (K := ℝ) (R := R) x).s (FromProps.adjugate (matM num input) a b)) = _
    rw [h]
    exact halg1 _

/-- The momenta and the Feynman parameters at one point. -/
def kinAt (m : Momentum (n+1) D e ℝ) (p : Fin e → Fin d → ℝ) (ν : Fin (n+1) → ℝ) (x : Fin (n+1) → ℝ) : Kin (D+1) e d where
  M := m.form x
  q := m.linear x
  p := p
  J := m.const x
  N := ∑ i, ν i

theorem kin_Q (m : Momentum (n+1) D e ℝ) (p : Fin e → Fin d → ℝ) (ν : Fin (n+1) → ℝ) (x : Fin (n+1) → ℝ) (a : Fin (D+1)) :
    (kinAt m p ν x).Q a = ∑ l, m.linear x a l • p l := by
  funext μ
  simp [Kin.Q, kinAt]

theorem kin_denominator (m : Momentum (n+1) D e ℝ) (p : Fin e → Fin d → ℝ) (ν : Fin (n+1) → ℝ) (x : Fin (n+1) → ℝ)
    (k : Fin d → Fin (D+1) → ℝ) : (kinAt m p ν x).denominator k = ∑ i, x i * -propagator m p i k := by
  have h := sum_value (two_ne_zero) (edotForm d) edotForm_symm p m x (fun a μ => k μ a)
  have h1 : ∑ i, x i * -propagator m p i k = -∑ i, x i * m.value (edotForm d) p i (fun a μ => k μ a) := by
    rw [← Finset.sum_neg_distrib]
    exact Finset.sum_congr rfl fun i _ => by rw [mul_neg]; rfl
  rw [h1, h]
  unfold Kin.denominator
  simp only [kin_Q]
  congr 4
  refine Finset.sum_congr rfl fun a _ => ?_
  rw [edotForm_symm]; rfl

theorem kin_data (num : R → Option Int) (rules : R →ₗ[ℝ] ℝ) (sym : Fin e → R) (p : Fin e → Fin d → ℝ)
    (m : Momentum (n+1) D e ℝ) (input : Props (n+1) D R) (hden : Denotes input m sym rules (edotForm d) p)
    (hint : IntegerForm num input) (ν x : Fin (n+1) → ℝ) : (kinAt m p ν x).data = dataAt num rules input m d ν x ∧
      (kinAt m p ν x).F = (preliminaryF num rules input).eval x ∧
      (kinAt m p ν x).U = (applyRules rules (preliminaryU num input)).eval x := by
  obtain ⟨-, -, -, -, -, hU, hF, -⟩ := at_point num rules sym (edotForm d) p m input hden hint x
  have hF' : (kinAt m p ν x).F = (preliminaryF num rules input).eval x := by
    rw [hF]
    unfold Kin.F
    simp only [kin_Q]
    rfl
  have hU' : (kinAt m p ν x).U = (applyRules rules (preliminaryU num input)).eval x := hU.symm
  refine ⟨?_, hF', hU'⟩
  unfold Kin.data dataAt
  rw [hF', hU']
  congr 1
  funext a b
  rw [entry_eval num rules sym p m input hden hint x a b]
  rfl

/-- The integral over the loop momenta at one point of the Feynman parameters. -/
theorem at_x (num : R → Option Int) (rules : R →ₗ[ℝ] ℝ) (sym : Fin e → R) (p : Fin e → Fin d → ℝ)
    (m : Momentum (n+1) D e ℝ) (input : Props (n+1) D R) (hden : Denotes input m sym rules (edotForm d) p)
    (hint : IntegerForm num input) (x : Fin (n+1) → ℝ) (hx : ∀ i, 0 < x i)
    (hM : (m.form x).PosDef) (hF : 0 < (preliminaryF num rules input).eval x)
    (ν : Fin (n+1) → ℝ) (hν : ∀ i, 0 < ν i) (τ : I → Fin d) (indices : List I) (isOne : Bool) (terms : List (Term (D+1) e I))
    (hadm : ∀ t ∈ terms, t.Adm indices) (hone : isOne = true → terms = [⟨[], [], 1⟩])
    (rank : ℕ) (hR : highestRank terms = some rank) (hN : (rank : ℝ) / 2 < (∑ i, ν i) - d * (D + 1) / 2) :
    ∃ o, numerator (dataAt num rules input m d ν x) indices isOne terms = some o ∧
      ((∏ i, x i ^ (ν i - 1) : ℝ) : ℂ) *
        ∫ k : Fin d → Fin (D+1) → ℝ, (terms.map fun t => t.value eMetric (fun l μ => ((p l μ : ℝ) : ℂ)) (fun a μ => ((k μ a : ℝ) : ℂ)) τ).sum *
          (((∑ i, x i * -propagator m p i k) ^ (-∑ i, ν i) : ℝ) : ℂ) =
      (Real.pi : ℂ) ^ ((d : ℂ) * (D + 1) / 2) * (Complex.Gamma ((∑ i, ν i : ℝ) : ℂ))⁻¹ *
        Complex.Gamma ((∑ i, ν i : ℝ) - (d : ℂ) * (D + 1) / 2 - (rank / 2 : ℕ)) *
        feynmanIntegrand (dataAt num rules input m d ν) p ν rank τ (fun _ => o) x := by
  have hν0 : ∀ i, (ν i : ℂ) ≠ 0 := fun i => by exact_mod_cast (hν i).ne'
  obtain ⟨hd, hF1, hU1⟩ := kin_data num rules sym p m input hden hint ν x
  obtain ⟨o, ho, -, h1⟩ := C50_loop_integral (kinAt m p ν x) hM (by rw [hF1]; exact hF) τ indices isOne terms hadm hone rank hR
      (by push_cast; exact hN)
  rw [hd] at ho h1
  refine ⟨o, ho, ?_⟩
  have h2 : ∀ k, (kinAt m p ν x).integrand terms τ k =
      (terms.map fun t => t.value eMetric (fun l μ => ((p l μ : ℝ) : ℂ)) (fun a μ => ((k μ a : ℝ) : ℂ)) τ).sum *
        (((∑ i, x i * -propagator m p i k) ^ (-∑ i, ν i) : ℝ) : ℂ) := by
    intro k
    unfold Kin.integrand
    rw [kin_denominator]
    rfl
  simp only [h2] at h1
  rw [h1]
  unfold feynmanIntegrand
  rw [measure_eq (fun i => (ν i : ℂ)) x hν0 hx]
  have h3 : ((∏ i, x i ^ (ν i - 1) : ℝ) : ℂ) = ∏ i, (x i : ℂ) ^ ((ν i : ℂ) - 1) := by
    rw [Complex.ofReal_prod]
    refine Finset.prod_congr rfl fun i _ => ?_
    rw [Complex.ofReal_cpow (hx i).le]; push_cast; rfl
  have h4 : gammaArgument (dataAt num rules input m d ν x) rank = (∑ i, ν i : ℝ) - (d : ℂ) * (D + 1) / 2 - (rank / 2 : ℕ) := by
    unfold gammaArgument dataAt; push_cast; rfl
  have h5 : ((kinAt m p ν x).U : ℂ) = (dataAt num rules input m d ν x).U := by rw [hU1]; rfl
  have h6 : ((kinAt m p ν x).F : ℂ) = (dataAt num rules input m d ν x).F := by rw [hF1]; rfl
  have h7 : ((kinAt m p ν x).N : ℂ) = ((∑ i, ν i : ℝ) : ℂ) := rfl
  have h8 : (kinAt m p ν x).mom = fun l μ => ((p l μ : ℝ) : ℂ) := rfl
  have h9 : (d : ℂ) * ((D + 1 : ℕ) : ℂ) / 2 = (d : ℂ) * (D + 1) / 2 := by push_cast; rfl
  rw [h3, h4, h5, h6, h7, h8, h9]
  generalize Complex.Gamma ((∑ i, ν i : ℝ) : ℂ) = G
  generalize Complex.Gamma ((∑ i, ν i : ℝ) - (d : ℂ) * (D + 1) / 2 - (rank / 2 : ℕ)) = A
  generalize (Real.pi : ℂ) ^ ((d : ℂ) * (D + 1) / 2) = Pp
  generalize (dataAt num rules input m d ν x).U ^ exponentU (dataAt num rules input m d ν x) rank = u
  generalize (dataAt num rules input m d ν x).F ^ exponentF (dataAt num rules input m d ν x) = f
  generalize (o.map fun S => S.value eMetric (fun l μ => ((p l μ : ℝ) : ℂ)) τ).sum = z
  rw [div_eq_mul_inv]; ring

/-- C51: the loop integral.  For propagators that are negative almost everywhere (no physical threshold, after the
rotation to imaginary energies), with positive powers, and any tensor numerator, an absolutely convergent loop integral
is `pi^(d*L/2) * Gamma_factor` times the integral, with the Dirac delta, over the Feynman parameters of
`measure * numerator * U**exponent_U * F**exponent_F`, where all these are what the code returns. -/
theorem C51_loop_integral (num : R → Option Int) (rules : R →ₗ[ℝ] ℝ) (sym : Fin e → R) (p : Fin e → Fin d → ℝ)
    (m : Momentum (n+1) D e ℝ) (input : Props (n+1) D R) (hden : Denotes input m sym rules (edotForm d) p)
    (hint : IntegerForm num input)
    (hM : ∀ x, (∀ i, 0 < x i) → (m.form x).PosDef) (hF : ∀ x, (∀ i, 0 < x i) → 0 < (preliminaryF num rules input).eval x)
    (hneg : ∀ᵐ k : Fin d → Fin (D+1) → ℝ, ∀ i, propagator m p i k < 0)
    (ν : Fin (n+1) → ℝ) (hν : ∀ i, 0 < ν i) (τ : I → Fin d) (indices : List I) (isOne : Bool) (terms : List (Term (D+1) e I))
    (hadm : ∀ t ∈ terms, t.Adm indices) (hone : isOne = true → terms = [⟨[], [], 1⟩])
    (rank : ℕ) (hR : highestRank terms = some rank) (hN : (rank : ℝ) / 2 < (∑ i, ν i) - d * (D + 1) / 2)
    (hI : Integrable (loopIntegrand m p ν terms τ)) :
    ∃ out : (Fin (n+1) → ℝ) → List (Summand e I),
      (∀ x, (∀ i, 0 < x i) → numerator (dataAt num rules input m d ν x) indices isOne terms = some (out x)) ∧
      Projective (feynmanIntegrand (dataAt num rules input m d ν) p ν rank τ out) ∧
      DeltaIntegrable (feynmanIntegrand (dataAt num rules input m d ν) p ν rank τ out) ∧
      ∫ k, loopIntegrand m p ν terms τ k =
        (Real.pi : ℂ) ^ ((d : ℂ) * (D + 1) / 2) *
          gammaFactor ((∑ i, ν i : ℝ) - (d : ℂ) * (D + 1) / 2 - (rank / 2 : ℕ)) (∑ i, (ν i : ℂ)) (fun i => (ν i : ℂ)) 0 *
          deltaIntegral (feynmanIntegrand (dataAt num rules input m d ν) p ν rank τ out) := by
  classical
  have hν0 : ∀ i, (ν i : ℂ) ≠ 0 := fun i => by exact_mod_cast (hν i).ne'
  set N := ∑ i, ν i with hNdef
  have hNp : 0 < N := Finset.sum_pos (fun i _ => hν i) Finset.univ_nonempty
  have hG : (Complex.Gamma N) ≠ 0 := by
    rw [Complex.Gamma_ofReal]; exact_mod_cast (Real.Gamma_pos_of_pos hNp).ne'
  have hloop := fun (x : Fin (n+1) → ℝ) (hx : ∀ i, 0 < x i) => at_x num rules sym p m input hden hint x hx (hM x hx) (hF x hx) ν hν τ
    indices isOne terms hadm hone rank hR hN
  choose o ho1 ho2 using hloop
  obtain ⟨out, hout⟩ : ∃ out : (Fin (n+1) → ℝ) → List (Summand e I), ∀ (x : Fin (n+1) → ℝ) (hx : ∀ i : Fin (n+1), 0 < x i), out x = o x hx :=
    ⟨fun x => if hx : ∀ i, 0 < x i then o x hx else [], fun x hx => dif_pos hx⟩
  refine ⟨out, fun x hx => by rw [hout x hx]; exact ho1 x hx, ?_⟩
  set g : (Fin d → Fin (D+1) → ℝ) → ℂ := fun k =>
    (terms.map fun t => t.value eMetric (fun l μ => ((p l μ : ℝ) : ℂ)) (fun a μ => ((k μ a : ℝ) : ℂ)) τ).sum with hg
  have hmin : ∀ r s : ℝ, r < 0 → ((r : ℂ)) ^ (-(s : ℂ)) = (((-r) ^ (-s) : ℝ) : ℂ) * Complex.exp (-Complex.I * Real.pi * s) := by
    intro r s hr
    rw [Complex.ofReal_cpow_of_nonpos hr.le, ← Complex.ofReal_neg, ← Complex.ofReal_neg, ← Complex.ofReal_cpow (by linarith)]
    congr 2
    push_cast; ring
  set c : ℂ := Complex.exp (-Complex.I * Real.pi * N) with hc
  have hcne : c ≠ 0 := Complex.exp_ne_zero _
  have hae : loopIntegrand m p ν terms τ =ᵐ[volume] fun k => c * (g k * ((∏ i, (-propagator m p i k) ^ (-ν i) : ℝ) : ℂ)) := by
    filter_upwards [hneg] with k hk
    unfold loopIntegrand
    have h1 : ∏ i, (propagator m p i k : ℂ) ^ (-(ν i : ℂ)) = ((∏ i, (-propagator m p i k) ^ (-ν i) : ℝ) : ℂ) * c := by
      rw [Finset.prod_congr rfl fun i _ => hmin _ _ (hk i), Finset.prod_mul_distrib, ← Complex.exp_sum, ← Finset.mul_sum, hc, hNdef]
      push_cast; rfl
    rw [h1]; ring
  have hI' : Integrable fun k => g k * ((∏ i, (-propagator m p i k) ^ (-ν i) : ℝ) : ℂ) := by
    have h1 := (hI.congr hae).const_mul c⁻¹
    refine h1.congr (Filter.Eventually.of_forall fun k => ?_)
    beta_reduce
    rw [← mul_assoc, inv_mul_cancel₀ hcne, one_mul]
  have hex := Feynman.exchange volume ν hν (fun i k => -propagator m p i k) (fun i => (continuous_propagator m p i).measurable.neg)
    (by filter_upwards [hneg] with k hk i; exact neg_pos.2 (hk i)) g (continuous_value _ τ terms).measurable hI'
  dsimp only at hex
  rw [← hNdef] at hex
  set f : (Fin (n+1) → ℝ) → ℂ := fun x => ((∏ i, x i ^ (ν i - 1) : ℝ) : ℂ) *
      ∫ k, g k * (((∑ i, x i * -propagator m p i k) ^ (-N) : ℝ) : ℂ) with hf
  set A : ℂ := Complex.Gamma (N - (d : ℂ) * (D + 1) / 2 - (rank / 2 : ℕ)) with hA
  have hAne : A ≠ 0 := by
    apply Complex.Gamma_ne_zero_of_re_pos
    have h1 : (N : ℂ) - (d : ℂ) * (D + 1) / 2 - (rank / 2 : ℕ) = ((N - d * (D + 1) / 2 - (rank / 2 : ℕ) : ℝ) : ℂ) := by push_cast; rfl
    rw [h1, Complex.ofReal_re]
    have : ((rank / 2 : ℕ) : ℝ) ≤ (rank : ℝ) / 2 := Nat.cast_div_le
    linarith
  set Pp : ℂ := (Real.pi : ℂ) ^ ((d : ℂ) * (D + 1) / 2) with hPi
  have hPine : Pp ≠ 0 := by
    rw [hPi, Complex.cpow_ne_zero_iff]
    exact Or.inl (by exact_mod_cast Real.pi_ne_zero)
  set W : (Fin (n+1) → ℝ) → ℂ := feynmanIntegrand (dataAt num rules input m d ν) p ν rank τ out with hW
  have hfW : ∀ x, (∀ i, 0 < x i) → f x = Pp * (Complex.Gamma N)⁻¹ * A * W x := by
    intro x hx
    have h1 : W x = feynmanIntegrand (dataAt num rules input m d ν) p ν rank τ (fun _ => o x hx) x := by
      rw [hW]; unfold feynmanIntegrand; rw [hout x hx]
    rw [h1]
    exact ho2 x hx
  have hms : MeasurableSet (Simplex n) := by
    have : Simplex n = {z | ∀ k, 0 < z k} ∩ {z | ∑ k, z k < 1} := rfl
    rw [this]
    refine MeasurableSet.inter ?_ ?_
    · exact Feynman.measurableSet_pos
    · exact measurableSet_lt (Finset.measurable_sum _ fun i _ => measurable_pi_apply i) measurable_const
  have hsp : ∀ z ∈ Simplex n, ∀ i, 0 < (Fin.snoc z (1 - ∑ k, z k) : Fin (n+1) → ℝ) i := by
    intro z hz i
    refine Fin.lastCases ?_ (fun k => ?_) i
    · simpa using hz.2
    · simpa using hz.1 k
  have hne : Pp * (Complex.Gamma N)⁻¹ * A ≠ 0 := mul_ne_zero (mul_ne_zero hPine (inv_ne_zero hG)) hAne
  refine ⟨?_, ?_, ?_⟩
  · intro c x hc hx
    have h1 := hex.1 c x hc hx
    rw [hfW x hx, hfW _ fun i => mul_pos hc (hx i)] at h1
    rw [Complex.real_smul] at h1 ⊢
    refine mul_left_cancel₀ hne ?_
    rw [h1]; ring
  · have h1 := hex.2.1
    unfold DeltaIntegrable at h1 ⊢
    have h2 := h1.const_mul (Pp * (Complex.Gamma N)⁻¹ * A)⁻¹
    refine IntegrableOn.congr_fun h2 (fun z hz => ?_) hms
    beta_reduce
    rw [hfW _ (hsp z hz), ← mul_assoc, inv_mul_cancel₀, one_mul]
    exact mul_ne_zero (mul_ne_zero hPine (inv_ne_zero hG)) hAne
  · rw [integral_congr_ae hae, integral_const_mul, gammaFactor_eq _ _ _ hν0]
    have h1 : deltaIntegral f = Pp * (Complex.Gamma N)⁻¹ * A * deltaIntegral W := by
      unfold deltaIntegral
      rw [setIntegral_congr_fun hms fun z hz => hfW _ (hsp z hz), integral_const_mul]
    have h2 := hex.2.2
    rw [h1, ← Complex.Gamma_ofReal] at h2
    have h3 : ((∏ i, Real.Gamma (ν i) : ℝ) : ℂ) = ∏ i, Complex.Gamma (ν i) := by
      rw [Complex.ofReal_prod]
      exact Finset.prod_congr rfl fun i _ => (Complex.Gamma_ofReal _).symm
    have h4 : ∏ i, Complex.Gamma (ν i) ≠ 0 := Finset.prod_ne_zero_iff.2 fun i _ => by
      rw [Complex.Gamma_ofReal]; exact_mod_cast (Real.Gamma_pos_of_pos (hν i)).ne'
    rw [h3] at h2
    have h5 : ∫ k, g k * ((∏ i, (-propagator m p i k) ^ (-ν i) : ℝ) : ℂ) = (∏ i, Complex.Gamma (ν i))⁻¹ * (Pp * A * deltaIntegral W) := by
      rw [eq_inv_mul_iff_mul_eq₀ h4, h2]
      field_simp
    have h6 : Complex.exp (-Complex.I * Real.pi * ((∑ i, (ν i : ℂ)) + (0 : ℕ))) = c := by
      rw [hc, hNdef]; push_cast; rw [add_zero]
    rw [h5, h6]
    ring

/-- C51, with the primary sectors: the loop integral is the sum over the Feynman parameters of the integrals over the
unit cube in which this parameter is set to one. -/
theorem C51_primary_sectors (num : R → Option Int) (rules : R →ₗ[ℝ] ℝ) (sym : Fin e → R) (p : Fin e → Fin d → ℝ)
    (m : Momentum (n+1) D e ℝ) (input : Props (n+1) D R) (hden : Denotes input m sym rules (edotForm d) p)
    (hint : IntegerForm num input)
    (hM : ∀ x, (∀ i, 0 < x i) → (m.form x).PosDef) (hF : ∀ x, (∀ i, 0 < x i) → 0 < (preliminaryF num rules input).eval x)
    (hneg : ∀ᵐ k : Fin d → Fin (D+1) → ℝ, ∀ i, propagator m p i k < 0)
    (ν : Fin (n+1) → ℝ) (hν : ∀ i, 0 < ν i) (τ : I → Fin d) (indices : List I) (isOne : Bool) (terms : List (Term (D+1) e I))
    (hadm : ∀ t ∈ terms, t.Adm indices) (hone : isOne = true → terms = [⟨[], [], 1⟩])
    (rank : ℕ) (hR : highestRank terms = some rank) (hN : (rank : ℝ) / 2 < (∑ i, ν i) - d * (D + 1) / 2)
    (hI : Integrable (loopIntegrand m p ν terms τ)) :
    ∃ out : (Fin (n+1) → ℝ) → List (Summand e I),
      (∀ x, (∀ i, 0 < x i) → numerator (dataAt num rules input m d ν x) indices isOne terms = some (out x)) ∧
      ∫ k, loopIntegrand m p ν terms τ k =
        (Real.pi : ℂ) ^ ((d : ℂ) * (D + 1) / 2) *
          gammaFactor ((∑ i, ν i : ℝ) - (d : ℂ) * (D + 1) / 2 - (rank / 2 : ℕ)) (∑ i, (ν i : ℂ)) (fun i => (ν i : ℂ)) 0 *
          ∑ i : Fin (n+1), cubeIntegral fun y => feynmanIntegrand (dataAt num rules input m d ν) p ν rank τ out (i.insertNth (1:ℝ) y) := by
  obtain ⟨out, h1, h2, h3, h4⟩ := C51_loop_integral num rules sym p m input hden hint hM hF hneg ν hν τ indices isOne terms hadm hone
    rank hR hN hI
  refine ⟨out, h1, ?_⟩
  simp only [cubeIntegral_eq]
  rw [h4, (primary_integral h2 h3).2]

/-! ### The hypotheses can be met

The propagators `k**2 - 1` and `(k+p)**2 - 1` in one dimension, with `p*p = -1`.  The symbol `p` is the imaginary unit and
the replacement rule is the real part. -/

instance : DecidableEq ℂ := Classical.decEq ℂ
instance : Invertible (2 : ℂ) := invertibleOfNonzero two_ne_zero

open Classical in
/-- The integer, if the number is one. -/
def exNum (c : ℂ) : Option Int := if h : ∃ z : Int, c = z then some h.choose else none

theorem exNum_exact (c : ℂ) : Exact exNum c := by
  intro z hz
  unfold exNum at hz
  split at hz
  · rename_i h
    rw [← Option.some.inj hz]
    exact h.choose_spec
  · exact absurd hz (by simp)

def exInput : Props 2 0 ℂ := ⟨fun _ _ _ => 1, ![fun _ => 0, fun _ => 2 * Complex.I], ![-1, -2]⟩
def exMomentum : Momentum 2 0 1 ℝ := ⟨fun _ _ _ => 1, ![fun _ _ => 0, fun _ _ => 2], ![-1, -2]⟩
def exP : Fin 1 → Fin 1 → ℝ := fun _ _ => 1
def exRules : ℂ →ₗ[ℝ] ℝ := Complex.reLm

theorem ex_denotes : Denotes exInput exMomentum (fun _ => Complex.I) exRules (edotForm 1) exP where
  quad := by intros; simp [exInput, exMomentum]
  lin := by
    intro i a
    fin_cases i
    · simp [exInput, exMomentum]
    · simp [exInput, exMomentum]
  cst := by
    intro i
    fin_cases i
    · simp [exInput, exMomentum, exRules]
    · simp [exInput, exMomentum, exRules]
  one := by simp [exRules]
  scalar := by intro l l'; simp [exRules, edotForm_apply, edot, exP]

theorem ex_form (x : Fin 2 → ℝ) (a b : Fin 1) : exMomentum.form x a b = x 0 + x 1 := by
  have : a = b := Subsingleton.elim _ _
  simp [Momentum.form, this, exMomentum, Fin.sum_univ_two]

theorem ex_linear (x : Fin 2 → ℝ) (a l : Fin 1) : exMomentum.linear x a l = -x 1 := by
  simp [Momentum.linear, exMomentum, Fin.sum_univ_two]

theorem ex_F (x : Fin 2 → ℝ) : (preliminaryF exNum exRules exInput).eval x = x 0 ^ 2 + 3 * x 0 * x 1 + x 1 ^ 2 := by
  rw [(at_point exNum exRules (fun _ => Complex.I) (edotForm 1) exP exMomentum exInput ex_denotes
    ⟨exNum_exact 0, fun _ _ _ _ => exNum_exact _⟩ x).2.2.2.2.2.2.1]
  have h1 : (exMomentum.form x).det = x 0 + x 1 := (Matrix.det_fin_one (exMomentum.form x)).trans (ex_form x 0 0)
  have h2 : (exMomentum.form x).adjugate = 1 := Matrix.adjugate_fin_one (exMomentum.form x)
  rw [h1, h2]
  simp only [edotForm_apply, edot, Fin.sum_univ_succ, ex_linear]
  simp [exP, Momentum.const, exMomentum, Fin.sum_univ_two]
  ring

theorem ex_propagator (i : Fin 2) (k : Fin 1 → Fin 1 → ℝ) :
    propagator exMomentum exP i k = if i = 0 then -(k 0 0 ^ 2 + 1) else -((k 0 0 + 1) ^ 2 + 1) := by
  fin_cases i
  · simp [propagator, Momentum.value, exMomentum, edotForm_apply, edot]; ring
  · simp [propagator, Momentum.value, exMomentum, edotForm_apply, edot, exP]; ring

theorem ex_neg (i : Fin 2) (k : Fin 1 → Fin 1 → ℝ) : propagator exMomentum exP i k ≤ -1 := by
  rw [ex_propagator]
  split <;> nlinarith [sq_nonneg (k 0 0), sq_nonneg (k 0 0 + 1)]

theorem ex_integrable : Integrable (loopIntegrand exMomentum exP (fun _ => 1) [(⟨[], [], 1⟩ : Term 1 1 ℕ)] (fun _ => 0)) := by
  have h0 : Integrable (fun k : Fin 1 → Fin 1 → ℝ => (1 + (k 0 0) ^ 2)⁻¹) := by
    have h1 := (volume_preserving_funUnique (Fin 1) ℝ).integrable_comp_emb (MeasurableEquiv.measurableEmbedding _) |>.2 integrable_inv_one_add_sq
    have h2 := (volume_preserving_funUnique (Fin 1) (Fin 1 → ℝ)).integrable_comp_emb (MeasurableEquiv.measurableEmbedding _) |>.2 h1
    exact h2
  have hm : Measurable (loopIntegrand exMomentum exP (fun _ => 1) [(⟨[], [], 1⟩ : Term 1 1 ℕ)] (fun _ => 0)) := by
    unfold loopIntegrand
    refine (continuous_value _ _ _).measurable.mul (Finset.measurable_prod _ fun i _ => ?_)
    exact (Complex.measurable_ofReal.comp (continuous_propagator _ _ i).measurable).pow_const _
  refine h0.mono' hm.aestronglyMeasurable (Filter.Eventually.of_forall fun k => ?_)
  unfold loopIntegrand
  have h1 : ([(⟨[], [], 1⟩ : Term 1 1 ℕ)].map fun t => t.value eMetric (fun l μ => ((exP l μ : ℝ) : ℂ)) (fun a μ => ((k μ a : ℝ) : ℂ)) (fun _ => 0)).sum = 1 := by
    simp [Term.value, einstein, Term.idx, repeated, contract]
  rw [h1, one_mul, Fin.prod_univ_two, norm_mul]
  have h2 : ∀ i : Fin 2, ‖(propagator exMomentum exP i k : ℂ) ^ (-((1 : ℝ) : ℂ))‖ = |propagator exMomentum exP i k|⁻¹ := by
    intro i
    rw [Complex.ofReal_one, Complex.cpow_neg_one, norm_inv, Complex.norm_real, Real.norm_eq_abs]
  rw [h2, h2]
  have h3 : |propagator exMomentum exP 0 k| = 1 + k 0 0 ^ 2 := by
    rw [ex_propagator, if_pos rfl, abs_neg, abs_of_pos (by positivity)]; ring
  have h4 : 1 ≤ |propagator exMomentum exP 1 k| := by
    rw [abs_of_nonpos (by linarith [ex_neg 1 k])]; linarith [ex_neg 1 k]
  rw [h3]
  exact mul_le_of_le_one_right (by positivity) (inv_le_one_of_one_le₀ h4)

example : ∃ out : (Fin 2 → ℝ) → List (Summand 1 ℕ),
      (∀ x, (∀ i, 0 < x i) → numerator (dataAt exNum exRules exInput exMomentum 1 (fun _ => 1) x) [] true [⟨[], [], 1⟩] = some (out x)) ∧
      Projective (feynmanIntegrand (dataAt exNum exRules exInput exMomentum 1 (fun _ => 1)) exP (fun _ => 1) 0 (fun _ => 0) out) ∧
      DeltaIntegrable (feynmanIntegrand (dataAt exNum exRules exInput exMomentum 1 (fun _ => 1)) exP (fun _ => 1) 0 (fun _ => 0) out) ∧
      ∫ k, loopIntegrand exMomentum exP (fun _ => 1) [(⟨[], [], 1⟩ : Term 1 1 ℕ)] (fun _ => 0) k =
        (Real.pi : ℂ) ^ (((1 : ℕ) : ℂ) * ((0 : ℕ) + 1) / 2) *
          gammaFactor ((∑ _i : Fin 2, (1 : ℝ) : ℝ) - ((1 : ℕ) : ℂ) * ((0 : ℕ) + 1) / 2 - (0 / 2 : ℕ)) (∑ _i : Fin 2, ((1 : ℝ) : ℂ)) (fun _ : Fin 2 => ((1 : ℝ) : ℂ)) 0 *
          deltaIntegral (feynmanIntegrand (dataAt exNum exRules exInput exMomentum 1 (fun _ => 1)) exP (fun _ => 1) 0 (fun _ => 0) out) :=
  C51_loop_integral exNum exRules (fun _ => Complex.I) exP exMomentum exInput ex_denotes
    ⟨exNum_exact 0, fun _ _ _ _ => exNum_exact _⟩
    (fun x hx => by
      have h : exMomentum.form x = (x 0 + x 1) • (1 : Matrix (Fin 1) (Fin 1) ℝ) := by
        ext a b
        have : a = b := Subsingleton.elim (α := Fin 1) _ _
        rw [ex_form, this]; simp
      rw [h]
      exact Matrix.PosDef.one.smul (add_pos (hx 0) (hx 1)))
    (fun x hx => by
      rw [ex_F]
      have h0 := hx 0
      have h1 := hx 1
      positivity)
    (Filter.Eventually.of_forall fun k i => lt_of_le_of_lt (ex_neg i k) (by norm_num))
    (fun _ => 1) (fun _ => one_pos) (fun _ => 0) [] true [⟨[], [], 1⟩] (by simp [Term.Adm, Term.idx]) (fun _ => rfl) 0 rfl
    (by norm_num) ex_integrable

end
end LoopMeasure
end SecDec
