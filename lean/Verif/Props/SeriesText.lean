import Verif.Proof.SeriesFmt
import Verif.Proof.SeriesMma
import Verif.Proof.SeriesJson
/-
C48: the text of a series is read and converted without changing its value.
-/
namespace SecDec
namespace SeriesText
variable {R : Type}

/-- C48: whatever the series (nested in any number of variables, any orders, with or without truncation, real or complex coefficients,
with or without uncertainties), `_parse_series` reads from the text which the C++ code writes exactly its coefficients, exponents,
variables and truncation orders. -/
theorem C48_text_read (pr : R → Str) (rd : Str → Option R) (hp : Printing pr rd) (omin : ℤ) (content : List (CVal R)) (trunc : Bool) (p : Str)
    (h : WF (.ser omin content trunc p)) :
    ∃ N, ∀ fuel, N ≤ fuel → parseSeries rd fuel (printVal pr (.ser omin content trunc p)) = some (toPy (.ser omin content trunc p)) := by
  obtain ⟨N, hN⟩ := parse_vals hp content (by rw [WF] at h; exact h.2.2)
  exact ⟨N, fun fuel hf => parseSeries_print hp omin content trunc p h fun v hv => hN v hv fuel hf⟩

/-- C48: `series_to_ginac`, `series_to_sympy` and `series_to_maple` return two expressions whose values, by the usual rules of
precedence, are the series of the mean values and the series of the uncertainties, with their order terms, for all values of the
variables. -/
theorem C48_ginac_value (pr : R → Str) (rd : Str → Option R) (hp : Printing pr rd) (omin : ℤ) (content : List (CVal R)) (trunc : Bool) (p : Str)
    (h : WF (.ser omin content trunc p)) :
    ∃ N, ∀ fuel, N ≤ fuel → ∃ mean stdev, convert rd fuel (printVal pr (.ser omin content trunc p)) = some (mean, stdev) ∧
      ∀ (nv : R → ℝ) (env : Str → ℂ) (ω : ℂ → ℂ), Means nv env ω mean (value nv env ω true (.ser omin content trunc p)) ∧
        Means nv env ω stdev (value nv env ω false (.ser omin content trunc p)) := by
  obtain ⟨N, hN⟩ := C48_text_read pr rd hp omin content trunc p h
  rw [WF] at h
  refine ⟨N, fun fuel hf => ⟨fmtSeries true (toPy (.ser omin content trunc p)), fmtSeries false (toPy (.ser omin content trunc p)), ?_,
    fun nv env ω => ?_⟩⟩
  · rw [convert, hN fuel hf]; rfl
  · have key : ∀ mean, Means nv env ω (fmtSeries mean (toPy (.ser omin content trunc p))) (value nv env ω mean (.ser omin content trunc p)) := by
      intro mean
      obtain ⟨M, hM⟩ := series_sum (nv := nv) (env := env) (ω := ω) mean omin content trunc p h.1
        (terms_prod content mean p omin _ h.2.2 (by
          by_cases hc : trunc = false ∧ omin = 0 ∧ content.length ≤ 1
          · exact Or.inr (Or.inr hc.2)
          · exact Or.inl (if_neg hc)))
      exact ⟨M, fun n hn => by simpa using hM n hn [] trivial⟩
    exact ⟨key true, key false⟩

/-- C48: the same for `series_to_mathematica`, if no series without truncation contains series. -/
theorem C48_mathematica_value (pr : R → Str) (rd : Str → Option R) (hp : Printing pr rd) (omin : ℤ) (content : List (CVal R)) (trunc : Bool) (p : Str)
    (h : WF (.ser omin content trunc p)) (hflat : Flat (.ser omin content trunc p)) (nv : R → ℝ) (env : Str → ℂ) (ω : ℂ → ℂ) :
    ∃ N, ∀ fuel, N ≤ fuel → ∃ mean stdev, convertM rd fuel (printVal pr (.ser omin content trunc p)) = some (mean, stdev) ∧
      Means nv env ω mean (value nv env ω true (.ser omin content trunc p)) ∧
      Means nv env ω stdev (value nv env ω false (.ser omin content trunc p)) := by
  obtain ⟨N, hN⟩ := C48_text_read pr rd hp omin content trunc p h
  obtain ⟨m, hm, M, hM⟩ := mma_val (nv := nv) (env := env) (ω := ω) (.ser omin content trunc p) true h hflat
  obtain ⟨s, hs, M', hM'⟩ := mma_val (nv := nv) (env := env) (ω := ω) (.ser omin content trunc p) false h hflat
  refine ⟨N, fun fuel hf => ⟨m, s, ?_, ⟨M, fun n hn => ?_⟩, ⟨M', fun n hn => ?_⟩⟩⟩
  · rw [convertM, hN fuel hf]
    simp only [Option.bind_eq_bind, Option.bind_some, hm, hs]
  · simpa using (hM n hn).1 [] trivial
  · simpa using (hM' n hn).1 [] trivial

/-- C48: `series_to_json` returns the regulators, from the outermost to the innermost, and a table with the coefficient of every product
of powers under its exponents (each key once), and nothing else. -/
theorem C48_json_table (pr : R → Str) (rd : Str → Option R) (hp : Printing pr rd) (omin : ℤ) (content : List (CVal R)) (trunc : Bool) (p : Str)
    (h : WF (.ser omin content trunc p)) (dev : Bool) (regulators : List Str) (hu : Uniform dev regulators (.ser omin content trunc p)) :
    ∃ N, ∀ fuel, N ≤ fuel → ∃ T, toJson rd fuel (printVal pr (.ser omin content trunc p)) = some T ∧
      T.regulators = regulators.map some ∧ (T.terms.map Prod.fst).Nodup ∧
      ∀ key, T.terms.lookup key = (coefficient (.ser omin content trunc p) key).map entry := by
  obtain ⟨N, hN⟩ := C48_text_read pr rd hp omin content trunc p h
  obtain ⟨T, hT, ha⟩ := table_val dev (.ser omin content trunc p) regulators hu h [] [] ⟨[], []⟩
  refine ⟨N, fun fuel hf => ⟨T, ?_, by simpa using ha.regs, ha.nodup (by simp), fun key => by simpa using ha.here key⟩⟩
  rw [toJson, hN fuel hf, hasPM_eq hp dev _ regulators hu h]
  exact hT

/-! ### A defect -/

/-- `(1 + 2*eps)*alpha` -/
def nested1 : CVal ℤ := .ser 1 [.ser 0 [.num (.real 1), .num (.real 2)] false "eps".toList] false "alpha".toList
/-- `1 + (2*eps)*alpha` -/
def nested2 : CVal ℤ := .ser 0 [.ser 0 [.num (.real 1)] false "eps".toList, .ser 1 [.num (.real 2)] false "eps".toList] false "alpha".toList

/-- printing of integers -/
def prInt (k : ℤ) : Str := (toString k).toList

theorem printing_int : Printing prInt readInt where
  read := readInt_toString
  nonempty := int_ne_nil
  chars r c hc := by
    have h := List.all_eq_true.1 (int_signDigit r) c hc
    simp only [isSignDigit, Bool.or_eq_true, beq_iff_eq] at h
    rcases h with (h | rfl) | rfl
    · exact Or.inl (by simp [Char.isAlphanum, h])
    · simp
    · simp

/-- C48, defect: for nested series without truncation `series_to_mathematica` does not write parentheses; two series of different value
are written as the same text. -/
theorem C48_mathematica_missing_parentheses :
    (∃ N, ∀ fuel, N ≤ fuel → ∃ t, convertM readInt fuel (printVal prInt nested1) = some t ∧ convertM readInt fuel (printVal prInt nested2) = some t) ∧
    ∃ env : Str → ℂ, value (fun k : ℤ => (k : ℝ)) env id true nested1 ≠ value (fun k : ℤ => (k : ℝ)) env id true nested2 := by
  have w1 : WF nested1 := by simp [nested1, WF, WFs, Identifier]
  have w2 : WF nested2 := by simp [nested2, WF, WFs, Identifier]
  constructor
  · obtain ⟨N, hN⟩ := C48_text_read prInt readInt printing_int _ _ _ _ w1
    obtain ⟨M, hM⟩ := C48_text_read prInt readInt printing_int _ _ _ _ w2
    refine ⟨max N M, fun fuel hf => ?_⟩
    have e1 : convertM readInt fuel (printVal prInt nested1) = (do
        let a ← fmtValueM true (toPy nested1)
        let b ← fmtValueM false (toPy nested1)
        some (a, b)) := by
      rw [convertM]; show (parseSeries readInt fuel (printVal prInt nested1)).bind _ = _; rw [show parseSeries readInt fuel (printVal prInt nested1) = _ from hN fuel (by omega)]; rfl
    have e2 : convertM readInt fuel (printVal prInt nested2) = (do
        let a ← fmtValueM true (toPy nested2)
        let b ← fmtValueM false (toPy nested2)
        some (a, b)) := by
      rw [convertM]; show (parseSeries readInt fuel (printVal prInt nested2)).bind _ = _; rw [show parseSeries readInt fuel (printVal prInt nested2) = _ from hM fuel (by omega)]; rfl
    rw [e1, e2]
    exact ⟨_, rfl, rfl⟩
  · refine ⟨fun s => if s = "eps".toList then 1 else 2, ?_⟩
    simp [nested1, nested2, value, values, numVal]
    norm_num

/-! ### The hypotheses are met -/

/-- two powers of alpha, each with a Laurent series in eps as coefficient -/
def sampleSeries : CVal ℤ :=
  .ser (-1) [.ser (-1) [.dev (.cplx 1 2) (.cplx 3 4), .dev (.cplx 5 (-6)) (.cplx 0 1)] true "eps".toList,
    .ser (-2) [.dev (.cplx 1 0) (.cplx 0 0)] true "eps".toList] true "alpha".toList

example : WF sampleSeries ∧ Flat sampleSeries ∧ Uniform true ["alpha".toList, "eps".toList] sampleSeries := by
  simp [sampleSeries, WF, WFs, Identifier, Flat, Flats, IsSer, Uniform, Uniforms]

example : String.ofList (printVal prInt sampleSeries) =
    " + ( + ((1,2) +/- (3,4))*eps^-1 + ((5,-6) +/- (0,1)) + O(eps))*alpha^-1 + ( + ((1,0) +/- (0,0))*eps^-2 + O(eps^-1)) + O(alpha)" := by
  decide +kernel

/-- Without truncation, a variable which does not occur in the text is unknown. -/
example : (toJson readInt 5 (printVal prInt (.ser 0 [.num (.real 8)] false "eps".toList))).map (fun T => T.regulators) = some [none] := by
  decide +kernel

end SeriesText
end SecDec
