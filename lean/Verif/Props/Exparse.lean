import Verif.Proof.Exparse
/-
C38: the parser for the coefficients of an amplitude.
-/
namespace SecDec
namespace Exparse
variable {T : Tables}

theorem plain_terms {e : Expression} (h : e.Plain) :
    PlainTerm (signOp e.sign) e.head ∧ ∀ t ∈ e.tail, PlainTerm (signOp (some t.1)) t.2 := by
  obtain ⟨h1, h2⟩ := h
  refine ⟨⟨⟨fun ho => ?_, fun ho => ?_⟩, h1.2⟩, fun t ht => ⟨⟨fun ho => ?_, fun ho => ?_⟩, (h2 t ht).2⟩⟩
  · refine h1.1 ?_
    cases hs : e.sign with
    | none => rw [hs] at ho; simp [signOp] at ho
    | some b => cases b <;> simp [hs, signOp] at ho ⊢
  · cases hs : e.sign with
    | none => rw [hs] at ho; simp [signOp] at ho
    | some b => cases b <;> simp [hs, signOp] at ho
  · refine (h2 t ht).1 ?_
    cases hs : t.1 <;> simp [hs, signOp] at ho ⊢
  · cases hs : t.1 <;> simp [hs, signOp] at ho

/-- C38: whenever the parser returns for the text of an expression without a minus sign directly in front of a regulator and
without a division by a regulator, the nested series which it returns has the value of the expression, for all (nonzero) values of
the regulators.  The expression may contain any number of terms and factors, digits and names of any length, and powers. -/
theorem C38_value (hT : T.Ok) (e : Expression) (he : e.Ok T) (hp : e.Plain) {N : Nested}
    (h : readCoefficient T (e.render T) = some N) (x : ℕ → ℂ) (hx : ∀ i, x i ≠ 0) : N.eval x 0 = e.value T x := by
  obtain ⟨hp1, hp2⟩ := plain_terms hp
  obtain ⟨m, h1, h2⟩ := Option.bind_eq_some_iff.1 h
  obtain ⟨h3, h4, h5⟩ := parseExpression_val hT hx he hp1 hp2 h1
  obtain ⟨N', h6, h7⟩ := convert_ok _ m h3 h4
  rw [h6] at h2
  simp only [Option.some.injEq] at h2
  subst h2
  rw [h7, h5]

/-- C38: the parser returns (it neither divides by zero nor reads out of bounds) if no number in the expression is zero. -/
theorem C38_returns (hT : T.Ok) (e : Expression) (he : e.Ok T) (hp : e.Plain) (hz : e.NonZero T) :
    ∃ N, readCoefficient T (e.render T) = some N := by
  obtain ⟨hp1, hp2⟩ := plain_terms hp
  obtain ⟨m, h1⟩ := parseExpression_some hT he hp1 hp2 hz.1 hz.2
  obtain ⟨h3, h4, _⟩ := parseExpression_val hT (x := fun _ => 1) (fun _ => one_ne_zero) he hp1 hp2 h1
  obtain ⟨N', h6, _⟩ := convert_ok _ m h3 h4
  exact ⟨N', by unfold readCoefficient; rw [h1]; exact h6⟩

/-! ### Defects -/

/-- One regulator `eps` and the imaginary unit `I_`. -/
def epsTables : Tables := ⟨["eps".toList], [("I_".toList, ⟨0, 1⟩)]⟩

/-- A defect of the parser: the sign of `-eps` is lost, so that `1-eps` (which `ginsh` prints for this coefficient) is read as
`1+eps`. -/
theorem C38_sign_lost_defect :
    parseExpression epsTables "1-eps".toList = some [([0], ⟨1, 0⟩), ([1], ⟨1, 0⟩)] ∧
      parseExpression epsTables "1+eps".toList = some [([0], ⟨1, 0⟩), ([1], ⟨1, 0⟩)] ∧
      parseExpression epsTables "1-1*eps".toList = some [([0], ⟨1, 0⟩), ([1], ⟨-1, 0⟩)] := by decide +kernel

/-- A second defect: `1/eps` is read as `eps`. -/
theorem C38_division_defect :
    parseExpression epsTables "1/eps".toList = some [([1], ⟨1, 0⟩)] ∧
      parseExpression epsTables "1*eps^-1".toList = some [([-1], ⟨1, 0⟩)] := by decide +kernel

/-- A third defect: a number with a decimal point and an unknown name are read as zero, without any error. -/
theorem C38_unknown_is_zero_defect :
    parseExpression epsTables "0.5*eps".toList = some [([1], ⟨0, 0⟩)] ∧
      parseExpression epsTables "foo".toList = some [([0], ⟨0, 0⟩)] := by decide +kernel

/-! ### A concrete case -/

theorem epsTables_ok : epsTables.Ok := by
  refine ⟨by decide, by decide, ?_, by decide, by decide, by decide⟩
  intro ds
  have hd : ∀ (d : Fin 10), digitChar d ≠ 'I' ∧ digitChar d ≠ 'e' := by decide
  constructor
  · intro h
    simp only [epsTables, List.map_cons, List.map_nil, List.mem_singleton] at h
    cases ds with
    | nil => simp at h
    | cons d ds =>
      simp only [List.map_cons] at h
      exact (hd d).1 (List.cons.inj h).1
  · intro h
    simp only [epsTables, List.mem_singleton] at h
    cases ds with
    | nil => simp at h
    | cons d ds =>
      simp only [List.map_cons] at h
      exact (hd d).2 (List.cons.inj h).1

/-- `-3/4*eps^-2+I_*eps`. -/
def sampleExpression : Expression :=
  { sign := some true
    head := ⟨⟨.lit [3], none⟩, [(true, ⟨.lit [4], none⟩), (false, ⟨.reg 0, some (true, [2])⟩)]⟩
    tail := [(false, ⟨⟨.param 0, none⟩, [(false, ⟨.reg 0, none⟩)]⟩)] }

example : sampleExpression.render epsTables = "-3/4*eps^-2+I_*eps".toList := by decide +kernel

/-- The hypotheses hold ... -/
example : epsTables.Ok ∧ sampleExpression.Ok epsTables ∧ sampleExpression.Plain ∧ sampleExpression.NonZero epsTables := by
  refine ⟨epsTables_ok, ?_, ?_, ?_⟩
  · simp [Expression.Ok, Term.Ok, Factor.Ok, Base.Ok, sampleExpression, epsTables]
  · simp [Expression.Plain, sampleExpression, Factor.Numeric]
  · simp [Expression.NonZero, sampleExpression, Factor.Numeric, Base.value, natOf, epsTables, Q2.val]
    intro h
    have := congrArg Complex.im h
    simp at this

/-- ... and the result is this. -/
example : parseExpression epsTables (sampleExpression.render epsTables) = some [([-2], ⟨-3/4, 0⟩), ([1], ⟨0, 1⟩)] := by decide +kernel

end Exparse
end SecDec
