import Verif.Proof.Uncertainties
import Mathlib.Probability.Distributions.Gaussian.Real
/-
C39: arithmetic with numbers that have statistical errors (uncertainties.hpp, compute_sum of amplitude.hpp).
-/
namespace SecDec
namespace Unc
open MeasureTheory ProbabilityTheory
variable {Ω : Type*} [MeasurableSpace Ω] {μ : Measure Ω} [IsProbabilityMeasure μ]

/-- C39: real numbers with errors. The result of every operation has the mean and the standard deviation of the result of the
operation on the random numbers; the two operands of a sum or a product are independent. -/
theorem C39_real {X Y : Ω → ℝ} {a b : Dev} (hX : HasMeanStd μ X a.value a.uncertainty)
    (hY : HasMeanStd μ Y b.value b.uncertainty) (hi : IndepFun X Y μ) (x : ℝ) :
    HasMeanStd μ (fun ω => -X ω) a.neg.value a.neg.uncertainty ∧
    HasMeanStd μ (fun ω => X ω + x) (a.addNum x).value (a.addNum x).uncertainty ∧
    HasMeanStd μ (fun ω => X ω + Y ω) (a.add b).value (a.add b).uncertainty ∧
    HasMeanStd μ (fun ω => X ω - x) (a.subNum x).value (a.subNum x).uncertainty ∧
    HasMeanStd μ (fun ω => X ω - Y ω) (a.sub b).value (a.sub b).uncertainty ∧
    HasMeanStd μ (fun ω => x - X ω) (Dev.numSub x a).value (Dev.numSub x a).uncertainty ∧
    HasMeanStd μ (fun ω => X ω * x) (a.mulNum x).value (a.mulNum x).uncertainty ∧
    HasMeanStd μ (fun ω => X ω * Y ω) (a.mul b).value (a.mul b).uncertainty ∧
    HasMeanStd μ (fun ω => X ω / x) (a.divNum x).value (a.divNum x).uncertainty := by
  have hc := hi.covariance_eq_zero hX.finite hY.finite
  refine ⟨std_neg hX, std_addNum hX x, std_add hX hY hc, std_subNum hX x, std_sub hX hY hc, ?_, std_mulNum hX x,
    std_mul hX hY hi, std_divNum hX x⟩
  have := std_addNum (std_neg hX) x
  simpa [Dev.numSub, sub_eq_neg_add] using this

/-- C39: complex numbers with errors. If the real and imaginary part of an operand are uncorrelated, and the two operands
of a sum or a product are independent, then the real and the imaginary part of the result have the right means and standard
deviations. -/
theorem C39_complex {Z W : Ω → ℂ} {a b : CDev} (hZ : HasMeanStdC μ Z a.value a.uncertainty)
    (hW : HasMeanStdC μ W b.value b.uncertainty) (cZ : PartsUncorrelated μ Z) (cW : PartsUncorrelated μ W)
    (hi : IndepFun Z W μ) (x : ℂ) (r : ℝ) :
    HasMeanStdC μ (fun ω => -Z ω) a.neg.value a.neg.uncertainty ∧
    HasMeanStdC μ (fun ω => Z ω + x) (a.addNum x).value (a.addNum x).uncertainty ∧
    HasMeanStdC μ (fun ω => Z ω + W ω) (a.add b).value (a.add b).uncertainty ∧
    HasMeanStdC μ (fun ω => Z ω - x) (a.subNum x).value (a.subNum x).uncertainty ∧
    HasMeanStdC μ (fun ω => Z ω - W ω) (a.sub b).value (a.sub b).uncertainty ∧
    HasMeanStdC μ (fun ω => x - Z ω) (CDev.numSub x a).value (CDev.numSub x a).uncertainty ∧
    HasMeanStdC μ (fun ω => Z ω * r) (a.mulReal r).value (a.mulReal r).uncertainty ∧
    HasMeanStdC μ (fun ω => Z ω * x) (a.mulNum x).value (a.mulNum x).uncertainty ∧
    HasMeanStdC μ (fun ω => Z ω * W ω) (a.mul b).value (a.mul b).uncertainty ∧
    (r ≠ 0 → HasMeanStdC μ (fun ω => Z ω / r) (a.divReal r).value (a.divReal r).uncertainty) ∧
    (x ≠ 0 → HasMeanStdC μ (fun ω => Z ω / x) (a.divNum x).value (a.divNum x).uncertainty) := by
  have zr : HasMeanStd μ (fun ω => (Z ω).re) a.re.value a.re.uncertainty := hZ.re
  have zi : HasMeanStd μ (fun ω => (Z ω).im) a.im.value a.im.uncertainty := hZ.im
  have wr : HasMeanStd μ (fun ω => (W ω).re) b.re.value b.re.uncertainty := hW.re
  have wi : HasMeanStd μ (fun ω => (W ω).im) b.im.value b.im.uncertainty := hW.im
  have cZ' : cov[fun ω => (Z ω).re, fun ω => (Z ω).im; μ] = 0 := cZ
  have cW' : cov[fun ω => (W ω).re, fun ω => (W ω).im; μ] = 0 := cW
  have mre := Complex.measurable_re
  have mim := Complex.measurable_im
  have irr : IndepFun (fun ω => (Z ω).re) (fun ω => (W ω).re) μ := hi.comp mre mre
  have iii : IndepFun (fun ω => (Z ω).im) (fun ω => (W ω).im) μ := hi.comp mim mim
  have iri : IndepFun (fun ω => (Z ω).re) (fun ω => (W ω).im) μ := hi.comp mre mim
  have iir : IndepFun (fun ω => (Z ω).im) (fun ω => (W ω).re) μ := hi.comp mim mre
  have crr := irr.covariance_eq_zero zr.finite wr.finite
  have cii := iii.covariance_eq_zero zi.finite wi.finite
  have lin : ∀ p q : ℝ, cov[fun ω => (Z ω).re * p, fun ω => (Z ω).im * q; μ] = 0 := by
    intro p q
    rw [covariance_mul_const_left, covariance_mul_const_right, cZ']; ring
  have lin' : ∀ p q : ℝ, cov[fun ω => (Z ω).im * p, fun ω => (Z ω).re * q; μ] = 0 := by
    intro p q
    rw [covariance_comm]; exact lin q p
  have hmul : HasMeanStdC μ (fun ω => Z ω * W ω) (a.mul b).value (a.mul b).uncertainty := by
    refine ⟨?_, ?_⟩
    · have := std_sub (std_mul zr wr irr) (std_mul zi wi iii)
        (cov_mul_mul Complex.re Complex.im Complex.re Complex.im mre mim mre mim hi zr.finite zi.finite wr.finite wi.finite cZ' cW')
      simpa [Complex.mul_re, CDev.mul, CDev.ofParts] using this
    · have hc2 : cov[fun ω => (Z ω).re * (W ω).im, fun ω => (W ω).re * (Z ω).im; μ] = 0 := by
        have := cov_mul_mul Complex.re Complex.im Complex.im Complex.re mre mim mim mre hi zr.finite zi.finite wi.finite wr.finite
          cZ' (by rw [covariance_comm]; exact cW')
        simpa only [mul_comm] using this
      have := std_add (std_mul zr wi iri) (std_mul wr zi iir.symm) hc2
      simpa [Complex.mul_im, CDev.mul, CDev.ofParts, mul_comm] using this
  refine ⟨?_, ?_, ?_, ?_, ?_, ?_, ?_, std_cmulNum hZ cZ x, hmul, ?_, ?_⟩
  · exact ⟨by simpa [CDev.neg, CDev.re, CDev.im, Dev.neg] using std_neg zr, by simpa [CDev.neg, CDev.re, CDev.im, Dev.neg] using std_neg zi⟩
  · exact ⟨by simpa [CDev.addNum, CDev.re, CDev.im, Dev.addNum] using std_addNum zr x.re, by simpa [CDev.addNum, CDev.re, CDev.im, Dev.addNum] using std_addNum zi x.im⟩
  · exact ⟨by simpa [CDev.add, CDev.re, CDev.im, Dev.add] using std_add zr wr crr, by simpa [CDev.add, CDev.re, CDev.im, Dev.add] using std_add zi wi cii⟩
  · exact ⟨by simpa [CDev.subNum, CDev.re, CDev.im, Dev.subNum] using std_subNum zr x.re, by simpa [CDev.subNum, CDev.re, CDev.im, Dev.subNum] using std_subNum zi x.im⟩
  · exact ⟨by simpa [CDev.sub, CDev.re, CDev.im, Dev.sub] using std_sub zr wr crr, by simpa [CDev.sub, CDev.re, CDev.im, Dev.sub] using std_sub zi wi cii⟩
  · have c0 : ∀ y : ℝ, HasMeanStd μ (fun _ : Ω => y) (⟨y, 0⟩ : Dev).value (⟨y, 0⟩ : Dev).uncertainty := fun y =>
      ⟨memLp_const y, by simp, le_rfl, by
        have := variance_const_mul (0 : ℝ) (fun _ : Ω => y) μ
        have e := variance_eq_sub (memLp_const (μ := μ) (p := 2) y)
        rw [e]; simp⟩
    exact ⟨by simpa [CDev.numSub, CDev.sub, CDev.re, CDev.im, Dev.sub] using std_sub (c0 x.re) zr (covariance_const_left _),
      by simpa [CDev.numSub, CDev.sub, CDev.re, CDev.im, Dev.sub] using std_sub (c0 x.im) zi (covariance_const_left _)⟩
  · exact ⟨by simpa [CDev.mulReal, CDev.ofParts] using std_mulNum zr r,
      by simpa [CDev.mulReal, CDev.ofParts] using std_mulNum zi r⟩
  · intro hr
    have e : ∀ y : ℝ, y * r / (r * r) = y / r := fun y => by field_simp
    refine ⟨?_, ?_⟩
    · have := std_divNum (std_mulNum zr r) (r * r)
      simp only [e] at this
      simpa [CDev.divReal, CDev.ofParts] using this
    · have := std_divNum (std_mulNum zi r) (r * r)
      simp only [e] at this
      simpa [CDev.divReal, CDev.ofParts] using this
  · intro hx
    refine ⟨?_, ?_⟩
    · have := std_divNum (std_add (std_mulNum zr x.re) (std_mulNum zi x.im) (lin _ _)) (x.re * x.re + x.im * x.im)
      have e : (fun ω => (Z ω / x).re) = fun ω => ((Z ω).re * x.re + (Z ω).im * x.im) / (x.re * x.re + x.im * x.im) := by
        funext ω; rw [Complex.div_re, Complex.normSq_apply]; ring
      rw [e]; simpa [CDev.divNum, CDev.ofParts] using this
    · have := std_divNum (std_sub (std_mulNum zi x.re) (std_mulNum zr x.im) (lin' _ _)) (x.re * x.re + x.im * x.im)
      have e : (fun ω => (Z ω / x).im) = fun ω => ((Z ω).im * x.re - (Z ω).re * x.im) / (x.re * x.re + x.im * x.im) := by
        funext ω; rw [Complex.div_im, Complex.normSq_apply]; ring
      rw [e]; simpa [CDev.divNum, CDev.ofParts] using this

/-- C39: the value and the error which are returned for a sum of integrals with complex coefficients are the mean and the
standard deviation of that sum, if the integrals are independent and their real and imaginary parts are uncorrelated. -/
theorem C39_sum {k : ℕ} (c : Fin k → ℂ) (d : Fin k → CDev) (Z : Fin k → Ω → ℂ)
    (hZ : ∀ i, HasMeanStdC μ (Z i) (d i).value (d i).uncertainty) (cZ : ∀ i, PartsUncorrelated μ (Z i))
    (hi : Pairwise fun i j => IndepFun (Z i) (Z j) μ) :
    HasMeanStdC μ (fun ω => ∑ i, c i * Z i ω) (CDev.weightedSum (List.ofFn fun i => (c i, d i))).value
      (CDev.weightedSum (List.ofFn fun i => (c i, d i))).uncertainty := by
  induction k with
  | zero =>
    have h0 : HasMeanStd μ (fun _ : Ω => (0 : ℝ)) 0 0 := ⟨memLp_const 0, by simp, le_rfl, by
      rw [variance_eq_sub (memLp_const (μ := μ) (p := 2) (0 : ℝ))]; simp⟩
    exact ⟨by simpa [CDev.weightedSum] using h0, by simpa [CDev.weightedSum] using h0⟩
  | succ k ih =>
    have h1 := ih (fun i => c i.castSucc) (fun i => d i.castSucc) (fun i => Z i.castSucc) (fun i => hZ _) (fun i => cZ _)
      (fun i j hij => hi (fun h => hij (Fin.castSucc_injective _ h)))
    have h2 := std_cmulNum (hZ (Fin.last k)) (cZ _) (c (Fin.last k))
    have hl : (List.ofFn fun i => (c i, d i)) =
        (List.ofFn fun i : Fin k => (c i.castSucc, d i.castSucc)) ++ [(c (Fin.last k), d (Fin.last k))] := by
      rw [List.ofFn_succ', List.concat_eq_append]
    have hne : ∀ i : Fin k, i.castSucc ≠ Fin.last k := fun i => (Fin.castSucc_lt_last i).ne
    have hmem : ∀ (i : Fin (k+1)) (x : ℂ), MemLp (fun ω => (x * Z i ω).re) 2 μ ∧ MemLp (fun ω => (x * Z i ω).im) 2 μ := by
      intro i x
      have := std_cmulNum (hZ i) (cZ i) x
      exact ⟨by simpa [mul_comm] using this.re.finite, by simpa [mul_comm] using this.im.finite⟩
    rw [hl, weightedSum_concat]
    have e : (fun ω => ∑ i, c i * Z i ω) =
        fun ω => (∑ i : Fin k, c i.castSucc * Z i.castSucc ω) + Z (Fin.last k) ω * c (Fin.last k) := by
      funext ω; rw [Fin.sum_univ_castSucc, mul_comm (c (Fin.last k))]
    rw [e]
    refine std_cadd h1 h2 ?_ ?_
    · have e1 : (fun ω => (∑ i : Fin k, c i.castSucc * Z i.castSucc ω).re) =
          fun ω => ∑ i : Fin k, (c i.castSucc * Z i.castSucc ω).re := by funext ω; rw [Complex.re_sum]
      rw [e1, covariance_fun_sum_left (fun i => (hmem _ _).1) h2.re.finite]
      refine Finset.sum_eq_zero fun i _ => ?_
      exact ((hi (hne i)).comp (φ := fun z => (c i.castSucc * z).re) (ψ := fun z => (z * c (Fin.last k)).re)
        (Complex.measurable_re.comp (measurable_const_mul _)) (Complex.measurable_re.comp (measurable_mul_const _))).covariance_eq_zero
          (hmem _ _).1 h2.re.finite
    · have e1 : (fun ω => (∑ i : Fin k, c i.castSucc * Z i.castSucc ω).im) =
          fun ω => ∑ i : Fin k, (c i.castSucc * Z i.castSucc ω).im := by funext ω; rw [Complex.im_sum]
      rw [e1, covariance_fun_sum_left (fun i => (hmem _ _).2) h2.im.finite]
      refine Finset.sum_eq_zero fun i _ => ?_
      exact ((hi (hne i)).comp (φ := fun z => (c i.castSucc * z).im) (ψ := fun z => (z * c (Fin.last k)).im)
        (Complex.measurable_im.comp (measurable_const_mul _)) (Complex.measurable_im.comp (measurable_mul_const _))).covariance_eq_zero
          (hmem _ _).2 h2.im.finite

/-- A real standard Gaussian as a complex random number. -/
theorem gaussian_std : HasMeanStdC (gaussianReal 0 1) (fun x : ℝ => (x : ℂ)) 0 1 ∧
    PartsUncorrelated (gaussianReal 0 1) (fun x : ℝ => (x : ℂ)) := by
  refine ⟨⟨⟨?_, ?_, by simp, ?_⟩, ⟨?_, by simp, by simp, ?_⟩⟩, ?_⟩
  · exact memLp_id_gaussianReal (μ := 0) (v := 1) 2
  · simp
  · simp
  · simp
  · simp only [Complex.ofReal_im]
    rw [variance_eq_sub (memLp_const (p := 2) (0 : ℝ))]; simp
  · unfold PartsUncorrelated
    simp only [Complex.ofReal_im]
    exact covariance_const_right _

/-- C39: the hypotheses of `C39_real` are met by two independent Gaussians. -/
example : HasMeanStd ((gaussianReal 0 1).prod (gaussianReal 0 1)) (fun ω => ω.1 * ω.2) ((⟨0, 1⟩ : Dev).mul ⟨0, 1⟩).value
    ((⟨0, 1⟩ : Dev).mul ⟨0, 1⟩).uncertainty := by
  have h1 : ∀ f : ℝ × ℝ → ℝ, MeasurePreserving f ((gaussianReal 0 1).prod (gaussianReal 0 1)) (gaussianReal 0 1) →
      HasMeanStd ((gaussianReal 0 1).prod (gaussianReal 0 1)) f (⟨0, 1⟩ : Dev).value (⟨0, 1⟩ : Dev).uncertainty := by
    intro f hf
    refine ⟨(memLp_id_gaussianReal (μ := 0) (v := 1) 2).comp_measurePreserving hf, ?_, by norm_num, ?_⟩
    · have := integral_map (μ := (gaussianReal 0 1).prod (gaussianReal 0 1)) hf.measurable.aemeasurable (f := fun x : ℝ => x)
        (by fun_prop)
      rw [hf.map_eq] at this
      rw [← this]; simp
    · have := variance_map (μ := (gaussianReal 0 1).prod (gaussianReal 0 1)) (X := fun x : ℝ => x) (Y := f) (by fun_prop)
        hf.measurable.aemeasurable
      rw [hf.map_eq] at this
      have e : (fun x : ℝ => x) ∘ f = f := rfl
      rw [e] at this
      rw [← this]; simp
  have hi := indepFun_prod (μ := gaussianReal 0 1) (ν := gaussianReal 0 1) (X := fun x : ℝ => x) (Y := fun x : ℝ => x)
    measurable_id measurable_id
  exact (C39_real (h1 _ measurePreserving_fst) (h1 _ measurePreserving_snd) hi 0).2.2.2.2.2.2.2.1

/-- C39: the hypotheses of `C39_sum` are met by any number of independent Gaussians; here one with the coefficient `2 + i`. -/
example : HasMeanStdC (gaussianReal 0 1) (fun x : ℝ => ∑ _i : Fin 1, (2 + Complex.I) * (x : ℂ))
    (CDev.weightedSum [(2 + Complex.I, ⟨0, 1⟩)]).value (CDev.weightedSum [(2 + Complex.I, ⟨0, 1⟩)]).uncertainty := by
  simpa using C39_sum (μ := gaussianReal 0 1) (k := 1) (fun _ => 2 + Complex.I) (fun _ => ⟨0, 1⟩) (fun _ x => (x : ℂ))
    (fun _ => gaussian_std.1) (fun _ => gaussian_std.2) (fun i j h => absurd (Subsingleton.elim i j) h)

/-- C39 deviation: a product with a complex number makes the real and imaginary part correlated, which the next
multiplication ignores. Multiplying a real random number by `1 + i` and then by `1 - i` (that is, by two) gives an error of the real
part that is too small, and an error of the imaginary part, which is zero. -/
theorem C39_repeated_products_defect :
    ∃ (μ : Measure ℝ) (_ : IsProbabilityMeasure μ) (Z : ℝ → ℂ) (a : CDev),
      HasMeanStdC μ Z a.value a.uncertainty ∧ PartsUncorrelated μ Z ∧
      ((a.mulNum (1 + Complex.I)).mulNum (1 - Complex.I)).uncertainty = ⟨√2, √2⟩ ∧
      HasMeanStdC μ (fun ω => Z ω * (1 + Complex.I) * (1 - Complex.I)) 0 2 := by
  refine ⟨gaussianReal 0 1, inferInstance, fun x => (x : ℂ), ⟨0, 1⟩, gaussian_std.1, gaussian_std.2, ?_, ?_⟩
  · apply Complex.ext <;> simp [CDev.mulNum, CDev.ofParts, CDev.re, CDev.im, Dev.mulNum, Dev.sub, Dev.add] <;> norm_num
  · have := std_cmulNum gaussian_std.1 gaussian_std.2 (a := ⟨0, 1⟩) 2
    have e : ∀ z : ℂ, z * (1 + Complex.I) * (1 - Complex.I) = z * 2 := fun z => by
      linear_combination (-z) * Complex.I_mul_I
    simp only [e]
    convert this using 1
    · simp [CDev.mulNum, CDev.ofParts, CDev.re, CDev.im, Dev.mulNum, Dev.sub, Dev.add]
      rfl
    · apply Complex.ext <;> simp [CDev.mulNum, CDev.ofParts, CDev.re, CDev.im, Dev.mulNum, Dev.sub, Dev.add]

end Unc
end SecDec
