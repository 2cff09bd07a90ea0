import Verif.Proof.ContourStokes
import Verif.Model.Contour
import Verif.Proof.FuncCalc
import Verif.Props.Misc
import Mathlib.Analysis.SpecialFunctions.Pow.Deriv
import Mathlib.Analysis.SpecialFunctions.Pow.Continuity
import Mathlib.Analysis.Calculus.ContDiff.RestrictScalars
import Mathlib.Analysis.Calculus.Deriv.Pi
/-
The deformed variables as smooth functions; the homotopy to the undeformed contour.
-/
namespace SecDec
namespace Contour
open LoopCommon (mixed partialDeriv)
open MeasureTheory Set

variable {n m : ℕ}

theorem poly_contDiff {F : (Fin n → ℂ) → ℂ} (hF : AnalyticOnNhd ℂ F univ) (α : Fin n → ℕ) :
    ContDiff ℝ 2 (fun x : Fin n → ℝ => mixed α F fun k => (x k : ℂ)) := by
  have h1 : ContDiff ℂ 2 (mixed α F) := by
    have := (Func.mixed_analytic isOpen_univ hF α).contDiffOn (n := 2) uniqueDiffOn_univ
    exact contDiffOn_univ.1 this
  have h2 : ContDiff ℝ 2 (mixed α F) := h1.restrict_scalars ℝ
  refine h2.comp (contDiff_pi.2 fun k => ?_)
  exact Complex.ofRealCLM.contDiff.comp (contDiff_apply ℝ ℝ k)

theorem Dx.contDiff {F : (Fin n → ℂ) → ℂ} (hF : AnalyticOnNhd ℂ F univ) (e : Dx n) : ContDiff ℝ 2 (fun x => e.eval F x) := by
  induction e with
  | num c => exact contDiff_const
  | var k => exact Complex.ofRealCLM.contDiff.comp (contDiff_apply ℝ ℝ k)
  | poly α => exact poly_contDiff hF α
  | re e ih => exact Complex.ofRealCLM.contDiff.comp (Complex.reCLM.contDiff.comp ih)
  | add a b iha ihb => exact iha.add ihb
  | mul a b iha ihb => exact iha.mul ihb

/-- Partial derivatives of a function of real variables. -/
theorem real_partial {E : Type*} [NormedAddCommGroup E] [NormedSpace ℝ E] {f : (Fin n → ℝ) → E} {x : Fin n → ℝ} (i : Fin n) (h : DifferentiableAt ℝ f x) :
    HasDerivAt (fun s => f (Function.update x i s)) (fderiv ℝ f x (Pi.single i 1)) (x i) := by
  have h1 : HasFDerivAt f (fderiv ℝ f x) (Function.update x i (x i)) := by
    rw [Function.update_eq_self]; exact h.hasFDerivAt
  exact h1.comp_hasDerivAt (x i) (hasDerivAt_update x i (x i))

theorem ofReal_update (x : Fin n → ℝ) (i : Fin n) (s : ℝ) :
    (fun k => ((Function.update x i s) k : ℂ)) = Function.update (fun k => (x k : ℂ)) i (s : ℂ) := by
  funext k
  by_cases h : k = i
  · subst h; simp
  · simp [h]

theorem Dx.derive_ok {F : (Fin n → ℂ) → ℂ} (hF : AnalyticOnNhd ℂ F univ) (e : Dx n) (i : Fin n) (x : Fin n → ℝ) :
    HasDerivAt (fun s => e.eval F (Function.update x i s)) ((e.derive i).eval F x) (x i) := by
  induction e with
  | num c => exact hasDerivAt_const _ _
  | var k =>
    by_cases h : k = i
    · subst h
      simp only [Dx.eval, Dx.derive, Function.update_self, if_true]
      exact Complex.ofRealCLM.hasDerivAt
    · simp only [Dx.eval, Dx.derive, Function.update_of_ne h, if_neg h]
      exact hasDerivAt_const _ _
  | poly α =>
    simp only [Dx.eval, Dx.derive, ofReal_update]
    have hd : DifferentiableAt ℂ (mixed α F) fun k => (x k : ℂ) := (Func.mixed_analytic isOpen_univ hF α _ (mem_univ _)).differentiableAt
    rw [Func.mixed_update isOpen_univ hF α i (mem_univ _), Func.partialDeriv_eq i hd]
    exact (Func.partial_hasDerivAt i hd).comp_ofReal
  | re e ih =>
    simp only [Dx.eval, Dx.derive]
    exact Complex.ofRealCLM.hasFDerivAt.comp_hasDerivAt _ (Complex.reCLM.hasFDerivAt.comp_hasDerivAt _ ih)
  | add a b iha ihb => exact iha.add ihb
  | mul a b iha ihb =>
    have := iha.mul ihb
    simp only [Function.update_eq_self] at this
    exact this

/-- The real part of the derivative of the polynomial. -/
noncomputable def R (F : (Fin n → ℂ) → ℂ) (k : Fin n) (x : Fin n → ℝ) : ℝ := (mixed (Function.update (fun _ => 0) k 1) F fun k => (x k : ℂ)).re

theorem factor_eval (F : (Fin n → ℂ) → ℂ) (lam : Fin n → ℝ) (k : Fin n) (x : Fin n → ℝ) :
    (factor lam k).eval F x = 1 - Complex.I * (lam k * (1 - x k) * R F k x : ℝ) := by
  simp only [factor, Dx.eval, oneMinus, realPart, Dx.derive, R]
  push_cast
  ring

theorem deformed_eval (F : (Fin n → ℂ) → ℂ) (lam : Fin n → ℝ) (k : Fin n) (x : Fin n → ℝ) :
    (deformed lam k).eval F x = x k * (factor lam k).eval F x := by
  rw [factor_eval]
  simp only [deformed, Dx.eval, oneMinus, realPart, Dx.derive, R]
  push_cast
  ring

theorem factor_re (F : (Fin n → ℂ) → ℂ) (lam : Fin n → ℝ) (k : Fin n) (x : Fin n → ℝ) : ((factor lam k).eval F x).re = 1 := by
  rw [factor_eval]; simp

theorem factor_slit (F : (Fin n → ℂ) → ℂ) (lam : Fin n → ℝ) (k : Fin n) (x : Fin n → ℝ) : (factor lam k).eval F x ∈ Complex.slitPlane := by
  left; rw [factor_re]; exact one_pos

theorem mul_cpow_pos {r : ℝ} (hr : 0 < r) (w p : ℂ) (hw : w ≠ 0) : ((r : ℂ) * w) ^ p = (r : ℂ) ^ p * w ^ p := by
  have hr' : (r : ℂ) ≠ 0 := by exact_mod_cast hr.ne'
  rw [Complex.cpow_def_of_ne_zero (mul_ne_zero hr' hw), Complex.cpow_def_of_ne_zero hr', Complex.cpow_def_of_ne_zero hw,
    ← Complex.exp_add, Complex.log_ofReal_mul hr hw, ← Complex.ofReal_log hr.le]
  ring_nf

/-! ### The monomials -/

theorem powers_cons (m : Mono n) (l : List (Mono n)) (k : Fin n) : powers (m :: l) k = m.2 * m.1 k + powers l k := by
  have h : ∀ (l : List (Mono n)) (a : ℂ), l.foldl (fun (s : ℂ) m => s + m.2 * (m.1 k : ℂ)) a = a + l.foldl (fun (s : ℂ) m => s + m.2 * (m.1 k : ℂ)) 0 := by
    intro l
    induction l with
    | nil => intro a; simp
    | cons m l ih => intro a; rw [List.foldl_cons, List.foldl_cons, ih, ih (0 + _)]; ring
  unfold powers
  rw [List.foldl_cons, h]; ring

theorem mono_pos (m : Fin n → ℤ) (e : ℂ) (x : Fin n → ℝ) (hx : ∀ k, 0 < x k) :
    (∏ k, (x k : ℂ) ^ (m k)) ^ e = ∏ k, (x k : ℂ) ^ (e * m k) := by
  have h1 : (∏ k, (x k : ℂ) ^ (m k)) = ((∏ k, x k ^ (m k) : ℝ) : ℂ) := by push_cast; rfl
  have hpos : 0 < ∏ k, x k ^ (m k) := Finset.prod_pos fun k _ => zpow_pos (hx k) _
  rw [h1, Complex.cpow_def_of_ne_zero (by exact_mod_cast hpos.ne'), ← Complex.ofReal_log hpos.le,
    Real.log_prod (fun k _ => (zpow_pos (hx k) _).ne')]
  have h2 : ∀ k, (x k : ℂ) ^ (e * m k) = Complex.exp (e * (Real.log (x k ^ (m k)) : ℝ)) := by
    intro k
    have : (x k : ℂ) ≠ 0 := by exact_mod_cast (hx k).ne'
    rw [Complex.cpow_def_of_ne_zero this, ← Complex.ofReal_log (hx k).le, Real.log_zpow]
    push_cast
    ring_nf
  simp only [h2]
  rw [← Complex.exp_sum, ← Finset.mul_sum]
  push_cast
  ring_nf

theorem monomials_pos (mons : List (Mono n)) (x : Fin n → ℝ) (hx : ∀ k, 0 < x k) :
    monomials mons x = ∏ k, (x k : ℂ) ^ powers mons k := by
  induction mons with
  | nil => simp [monomials, powers]
  | cons m l ih =>
    have : monomials (m :: l) x = (∏ k, (x k : ℂ) ^ (m.1 k)) ^ m.2 * monomials l x := by simp [monomials]
    rw [this, ih, mono_pos m.1 m.2 x hx, ← Finset.prod_mul_distrib]
    refine Finset.prod_congr rfl fun k _ => ?_
    rw [powers_cons, Complex.cpow_add _ _ (by exact_mod_cast (hx k).ne')]

/-! ### The homotopy -/

/-- The deformation with the parameters multiplied by `y 0`; `Fin.tail y` are the integration variables. -/
noncomputable def Z (F : (Fin n → ℂ) → ℂ) (lam : Fin n → ℝ) (y : Fin (n+1) → ℝ) : Fin n → ℂ := z F (fun k => y 0 * lam k) (Fin.tail y)

theorem tail_contDiff : ContDiff ℝ 2 (fun y : Fin (n+1) → ℝ => Fin.tail y) := contDiff_pi.2 fun k => contDiff_apply ℝ ℝ k.succ

theorem W_eq (F : (Fin n → ℂ) → ℂ) (lam : Fin n → ℝ) (y : Fin (n+1) → ℝ) (k : Fin n) :
    (factor (fun k => y 0 * lam k) k).eval F (Fin.tail y) = 1 + y 0 * ((factor lam k).eval F (Fin.tail y) - 1) := by
  rw [factor_eval, factor_eval]
  push_cast
  ring

theorem W_contDiff {F : (Fin n → ℂ) → ℂ} (hF : AnalyticOnNhd ℂ F univ) (lam : Fin n → ℝ) (k : Fin n) :
    ContDiff ℝ 2 (fun y : Fin (n+1) → ℝ => (factor (fun k => y 0 * lam k) k).eval F (Fin.tail y)) := by
  simp only [W_eq]
  refine contDiff_const.add (ContDiff.mul (Complex.ofRealCLM.contDiff.comp (contDiff_apply ℝ ℝ 0)) ?_)
  exact ((Dx.contDiff hF (factor lam k)).comp tail_contDiff).sub contDiff_const

theorem Z_contDiff {F : (Fin n → ℂ) → ℂ} (hF : AnalyticOnNhd ℂ F univ) (lam : Fin n → ℝ) (k : Fin n) :
    ContDiff ℝ 2 (fun y => Z F lam y k) := by
  simp only [Z, z, deformed_eval]
  exact (Complex.ofRealCLM.contDiff.comp (contDiff_apply ℝ ℝ k.succ)).mul (W_contDiff hF lam k)

/-- The integrand along the homotopy. -/
noncomputable def phi (F : (Fin n → ℂ) → ℂ) (lam : Fin n → ℝ) (p : Fin n → ℂ) (g : (Fin n → ℂ) → ℂ) (y : Fin (n+1) → ℝ) : ℂ :=
  (∏ k, ((y k.succ : ℂ) ^ p k * (factor (fun k => y 0 * lam k) k).eval F (Fin.tail y) ^ p k)) * g (Z F lam y)

theorem phi_continuousOn {F : (Fin n → ℂ) → ℂ} (hF : AnalyticOnNhd ℂ F univ) (lam : Fin n → ℝ) (p : Fin n → ℂ)
    (hp : ∀ k, 0 < (p k).re ∨ p k = 0) (U : Set (Fin n → ℂ)) (g : (Fin n → ℂ) → ℂ) (hg : ContinuousOn g U)
    (hUz : ∀ y ∈ Icc (0 : Fin (n+1) → ℝ) 1, Z F lam y ∈ U) : ContinuousOn (phi F lam p g) (Icc 0 1) := by
  refine ContinuousOn.mul (continuousOn_finsetProd _ fun k _ => ContinuousOn.mul ?_ ?_) ?_
  · refine Continuous.continuousOn ?_
    rcases hp k with h | h
    · exact (Complex.continuous_ofReal_cpow_const h).comp (continuous_apply k.succ)
    · simp only [h, Complex.cpow_zero]; exact continuous_const
  · refine Continuous.continuousOn ?_
    exact (W_contDiff hF lam k).continuous.cpow continuous_const fun y => factor_slit _ _ _ _
  · refine hg.comp ?_ hUz
    exact Continuous.continuousOn (continuous_pi fun k => (Z_contDiff hF lam k).continuous)

theorem phi_eq_holo {F : (Fin n → ℂ) → ℂ} (lam : Fin n → ℝ) (p : Fin n → ℂ) (g : (Fin n → ℂ) → ℂ) (y : Fin (n+1) → ℝ) (hy : ∀ k : Fin n, 0 < y k.succ) :
    phi F lam p g y = (∏ k, Z F lam y k ^ p k) * g (Z F lam y) := by
  unfold phi
  congr 1
  refine Finset.prod_congr rfl fun k _ => ?_
  simp only [Z, z, deformed_eval]
  exact (mul_cpow_pos (hy k) _ _ (Complex.slitPlane_ne_zero (factor_slit _ _ _ _))).symm

theorem Z_slit {F : (Fin n → ℂ) → ℂ} (lam : Fin n → ℝ) (y : Fin (n+1) → ℝ) (hy : ∀ k : Fin n, 0 < y k.succ) (k : Fin n) : Z F lam y k ∈ Complex.slitPlane := by
  left
  simp only [Z, z, deformed_eval, Complex.mul_re, Complex.ofReal_re, Complex.ofReal_im, zero_mul, sub_zero, factor_re, mul_one]
  exact hy k

theorem phi_deriv {F : (Fin n → ℂ) → ℂ} (hF : AnalyticOnNhd ℂ F univ) (lam : Fin n → ℝ) (p : Fin n → ℂ)
    (U : Set (Fin n → ℂ)) (hU : IsOpen U) (g : (Fin n → ℂ) → ℂ) (hg : DifferentiableOn ℂ g U)
    (y : Fin (n+1) → ℝ) (hy : ∀ k : Fin n, 0 < y k.succ) (hUz : Z F lam y ∈ U) :
    ∃ L : Fin n → ℂ, HasFDerivAt (phi F lam p g) (∑ k, L k • fderiv ℝ (fun y => Z F lam y k) y) y := by
  have hf : DifferentiableAt ℂ (fun ζ : Fin n → ℂ => (∏ k, ζ k ^ p k) * g ζ) (Z F lam y) := by
    refine DifferentiableAt.mul ?_ (hg.differentiableAt (hU.mem_nhds hUz))
    have : ∀ k, DifferentiableAt ℂ (fun ζ : Fin n → ℂ => ζ k ^ p k) (Z F lam y) := fun k =>
      (differentiableAt_apply k _).cpow (differentiableAt_const _) (Z_slit lam y hy k)
    have h2 := (HasFDerivAt.finset_prod (u := Finset.univ) (g := fun k (ζ : Fin n → ℂ) => ζ k ^ p k) (fun k _ => (this k).hasFDerivAt)).differentiableAt
    simpa only [Finset.prod_fn, Finset.prod_apply] using h2
  have h1 := hf.hasFDerivAt.restrictScalars ℝ
  have hZ : HasFDerivAt (Z F lam) (ContinuousLinearMap.pi fun k => fderiv ℝ (fun y => Z F lam y k) y) y :=
    hasFDerivAt_pi.2 fun k => ((Z_contDiff hF lam k).differentiable two_ne_zero y).hasFDerivAt
  have h2 := h1.comp y hZ
  set D := fderiv ℂ (fun ζ : Fin n → ℂ => (∏ k, ζ k ^ p k) * g ζ) (Z F lam y) with hD
  refine ⟨fun k => D (Pi.single k 1), ?_⟩
  have e : (D.restrictScalars ℝ).comp (ContinuousLinearMap.pi fun k => fderiv ℝ (fun y => Z F lam y k) y) =
      ∑ k, D (Pi.single k 1) • fderiv ℝ (fun y => Z F lam y k) y := by
    ext v
    simp only [ContinuousLinearMap.comp_apply, ContinuousLinearMap.coe_restrictScalars', sum_apply, smul_apply]
    set w : Fin n → ℂ := (ContinuousLinearMap.pi fun k => fderiv ℝ (fun y => Z F lam y k) y) v with hw
    conv_lhs => rw [pi_eq_sum_univ w]
    rw [map_sum]
    refine Finset.sum_congr rfl fun k _ => ?_
    rw [map_smul, smul_eq_mul, smul_eq_mul, mul_comm]
    congr 2
    funext j
    by_cases h : k = j
    · subst h; simp
    · simp [h]
  rw [← e]
  refine h2.congr_of_eventuallyEq ?_
  have hopen : ∀ᶠ y' in nhds y, ∀ k : Fin n, 0 < y' k.succ := by
    rw [Filter.eventually_all]
    intro k
    exact (continuous_apply k.succ).continuousAt.eventually (lt_mem_nhds (hy k))
  filter_upwards [hopen] with y' hy'
  exact phi_eq_holo lam p g y' hy'

/-! ### The boundary -/

theorem pd_eq {F : (Fin n → ℂ) → ℂ} (hF : AnalyticOnNhd ℂ F univ) (lam : Fin n → ℝ) (k : Fin n) (c : Fin (n+1)) (y : Fin (n+1) → ℝ) (d : ℂ)
    (h : HasDerivAt (fun s => Z F lam (Function.update y c s) k) d (y c)) : pd (Z F lam) k c y = d :=
  (real_partial (f := fun y => Z F lam y k) c ((Z_contDiff hF lam k).differentiable two_ne_zero y)).unique h

theorem Z_face (F : (Fin n → ℂ) → ℂ) (lam : Fin n → ℝ) (y : Fin (n+1) → ℝ) (k : Fin n) (h : y k.succ = 0 ∨ y k.succ = 1) :
    Z F lam y k = y k.succ := by
  simp only [Z, z, deformed_eval, factor_eval]
  have : Fin.tail y k = y k.succ := rfl
  rw [this]
  rcases h with h | h <;> simp [h]

theorem minor_face {F : (Fin n → ℂ) → ℂ} (hF : AnalyticOnNhd ℂ F univ) (lam : Fin n → ℝ) (y : Fin (n+1) → ℝ) (j : Fin n)
    (h : y j.succ = 0 ∨ y j.succ = 1) : minorJ (Z F lam) j.succ y = 0 := by
  refine Matrix.det_eq_zero_of_row_eq_zero j fun c => ?_
  refine pd_eq hF lam j _ y 0 ?_
  have hne : j.succ ≠ (j.succ.succAbove c) := (Fin.succAbove_ne _ _).symm
  have : (fun s => Z F lam (Function.update y (j.succ.succAbove c) s) j) = fun _ => (y j.succ : ℂ) := by
    funext s
    have e : Function.update y (j.succ.succAbove c) s j.succ = y j.succ := Function.update_of_ne hne _ _
    rw [Z_face _ _ _ _ (by rwa [e]), e]
  rw [this]
  exact hasDerivAt_const _ _

theorem update_cons_succ (t : ℝ) (x : Fin n → ℝ) (c : Fin n) (s : ℝ) :
    Function.update (Fin.cons t x : Fin (n+1) → ℝ) c.succ s = Fin.cons t (Function.update x c s) := by
  funext k
  refine Fin.cases ?_ (fun k => ?_) k
  · rw [Function.update_of_ne (Fin.succ_ne_zero c).symm]; rfl
  · by_cases h : k = c
    · subst h; simp
    · rw [Function.update_of_ne (by simpa using h), Fin.cons_succ, Fin.cons_succ, Function.update_of_ne h]

theorem minor_zero {F : (Fin n → ℂ) → ℂ} (hF : AnalyticOnNhd ℂ F univ) (lam : Fin n → ℝ) (t : ℝ) (x : Fin n → ℝ) :
    minorJ (Z F lam) 0 (Fin.cons t x) = (Matrix.of fun k c => ((deformed (fun k => t * lam k) k).derive c).eval F x).det := by
  unfold minorJ
  congr 1
  ext k c
  simp only [Matrix.of_apply, Fin.zero_succAbove]
  refine pd_eq hF lam k _ _ _ ?_
  simp only [update_cons_succ, Z, z, Fin.cons_zero, Fin.tail_cons, Fin.cons_succ]
  exact Dx.derive_ok hF _ c x

theorem jac_zero {F : (Fin n → ℂ) → ℂ} (hF : AnalyticOnNhd ℂ F univ) (lam : Fin n → ℝ) (x : Fin n → ℝ) :
    (Matrix.of fun k c => ((deformed (fun k => (0 : ℝ) * lam k) k).derive c).eval F x).det = 1 := by
  have : (Matrix.of fun k c => ((deformed (fun k => (0 : ℝ) * lam k) k).derive c).eval F x) = (1 : Matrix (Fin n) (Fin n) ℂ) := by
    ext k c
    refine HasDerivAt.unique (Dx.derive_ok hF _ c x) ?_
    have e : (fun s => (deformed (fun k => (0 : ℝ) * lam k) k).eval F (Function.update x c s)) = fun s => ((Function.update x c s k : ℝ) : ℂ) := by
      funext s
      rw [deformed_eval, factor_eval]; simp
    rw [e]
    by_cases h : k = c
    · subst h
      simp only [Function.update_self, Matrix.one_apply_eq]
      exact Complex.ofRealCLM.hasDerivAt
    · simp only [Function.update_of_ne h, Matrix.one_apply_ne h]
      exact hasDerivAt_const _ _
  rw [this, Matrix.det_one]

/-- The integral does not depend on the deformation. -/
theorem homotopy {F : (Fin n → ℂ) → ℂ} (hF : AnalyticOnNhd ℂ F univ) (lam : Fin n → ℝ) (p : Fin n → ℂ)
    (hp : ∀ k, 0 < (p k).re ∨ p k = 0) (U : Set (Fin n → ℂ)) (hU : IsOpen U) (g : (Fin n → ℂ) → ℂ) (hg : DifferentiableOn ℂ g U)
    (hUz : ∀ y ∈ Icc (0 : Fin (n+1) → ℝ) 1, Z F lam y ∈ U) :
    ∫ x in Icc (0 : Fin n → ℝ) 1, phi F lam p g (Fin.cons 1 x) * (Matrix.of fun k c => ((deformed lam k).derive c).eval F x).det =
      ∫ x in Icc (0 : Fin n → ℝ) 1, (∏ k, (x k : ℂ) ^ p k) * g fun k => (x k : ℂ) := by
  have h := stokes (Z F lam) (Z_contDiff hF lam) (phi F lam p g) (phi_continuousOn hF lam p hp U g hg.continuousOn hUz) (by
    intro y hy
    have hy' : ∀ c, y c ∈ Ioo (0 : ℝ) 1 := fun c => hy c (mem_univ c)
    exact phi_deriv hF lam p U hU g hg y (fun k => (hy' k.succ).1) (hUz y ⟨fun c => (hy' c).1.le, fun c => (hy' c).2.le⟩))
  rw [Fin.sum_univ_succ] at h
  have hzero : ∀ j : Fin n, ∀ x : Fin n → ℝ, ∀ b : ℝ, (b = 0 ∨ b = 1) → minorJ (Z F lam) j.succ (j.succ.insertNth b x) = 0 := by
    intro j x b hb
    refine minor_face hF lam _ j ?_
    rw [Fin.insertNth_apply_same]; exact hb
  simp only [hzero _ _ 1 (Or.inr rfl), hzero _ _ 0 (Or.inl rfl), mul_zero, integral_zero, sub_self, Finset.sum_const_zero, add_zero, Fin.val_zero, pow_zero, one_mul] at h
  rw [sub_eq_zero] at h
  simp only [Fin.insertNth_zero', minor_zero hF, one_mul, jac_zero hF, mul_one] at h
  rw [h]
  congr 1
  funext x
  unfold phi
  have hz0 : Z F lam (Fin.cons 0 x) = fun k => (x k : ℂ) := by
    funext k
    simp only [Z, z, deformed_eval, factor_eval, Fin.cons_zero, Fin.tail_cons]
    simp
  rw [hz0]
  congr 1
  refine Finset.prod_congr rfl fun k _ => ?_
  simp only [factor_eval, Fin.cons_zero, Fin.cons_succ, Fin.tail_cons]
  simp

end Contour
end SecDec
