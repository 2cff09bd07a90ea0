import Verif.Proof.Container
/-
C69: arithmetic of integrand containers, and the errors of the sign check.
-/
namespace SecDec
namespace Container

/-! ### Programs with containers -/

/-- C69: for every program without unary minus (definitions, copies, assignments, `+ - * /`, compound assignments, real and imaginary parts, ends of
lifetimes, in any order) each container evaluates to the expression it stands for, at every point, and files the reports of all its operands. -/
theorem C69_programs (prog : List Stmt) (h : NoMinus prog) (i : ℕ) : Agrees 0 prog i := by
  have := agrees prog (fun pre x y post e => absurd (by rw [e]; simp) (h x y)) i
  rwa [depth_noMinus prog h] at this

/-- C69: with unary minus this is so if the operand is kept alive and unchanged; the depth of the nested calls is at most the number of minus signs. -/
theorem C69_programs_minus (prog : List Stmt) (h : KeepsNegated prog) (i : ℕ) : ∃ fuel, Agrees fuel prog i := ⟨_, agrees prog h i⟩

/-- The constant function. -/
def const (a : ℂ) : Integrand := fun _ _ => (a, [])

/-- C69, defect: the unary minus captures the address of its operand.  After `b = -a; a = c` the container `b` is `-c`, where `-a` was meant. -/
theorem C69_minus_defect : ∃ (prog : List Stmt) (c : Cont) (v : Value), run (fun _ => none) prog 1 = some c ∧ meaningOf prog 1 = some v ∧
    ∀ x, eval (run (fun _ => none) prog) 1 c x = some (-3, []) ∧ v.f x = (-2, []) := by
  refine ⟨[.new 0 1 [] (const 2), .neg 1 0, .new 0 1 [] (const 3)], ⟨1, [], .neg 0⟩, ⟨1, fun _ => (-2, [])⟩, ?_, ?_, ?_⟩
  · simp [run, exec, negate, Function.update]
  · simp [meaningOf, meaning, const, Function.update]
  · intro x
    refine ⟨?_, rfl⟩
    unfold eval
    rw [call_neg_succ]
    simp [run, exec, Function.update, call_leaf, const]

/-- C69, defect: after `a = -a` the container calls itself without end: no stack is large enough. -/
theorem C69_minus_self_defect : ∃ (prog : List Stmt) (c : Cont), run (fun _ => none) prog 0 = some c ∧
    ∀ fuel x, eval (run (fun _ => none) prog) fuel c x = none := by
  refine ⟨[.new 0 1 [] (const 2), .neg 0 0], ⟨1, [], .neg 0⟩, ?_, ?_⟩
  · simp [run, exec, negate, Function.update]
  · intro fuel x
    have hσ : run (fun _ => none) [.new 0 1 [] (const 2), .neg 0 0] 0 = some ⟨1, [], .neg 0⟩ := by simp [run, exec, negate, Function.update]
    generalize run (fun _ => none) [.new 0 1 [] (const 2), .neg 0 0] = σ at hσ
    unfold eval
    generalize dataptr [] = p
    show call σ fuel (.neg 0) x p = none
    induction fuel with
    | zero => rw [call.eq_def]
    | succ fuel ih =>
      rw [call.eq_def]
      dsimp only
      rw [hσ, Option.bind_some]
      dsimp only
      rw [ih]; rfl

/-- C69, defect: `b = -(a + c)` keeps the address of a temporary object, which is used after the end of its life. -/
theorem C69_minus_temporary_defect : ∃ (prog : List Stmt) (c : Cont) (v : Value), run (fun _ => none) prog 1 = some c ∧ meaningOf prog 1 = some v ∧
    ∀ fuel x, eval (run (fun _ => none) prog) fuel c x = none := by
  refine ⟨[.new 0 1 [] (const 2), .bin .add 9 0 0, .neg 1 9, .drop 9], ⟨1, [], .neg 9⟩, ⟨1, fun _ => (-(2 + 2), [])⟩, ?_, ?_, ?_⟩
  · simp [run, exec, negate, combine, Function.update]
  · simp [meaningOf, meaning, const, Function.update]
  · intro fuel x
    unfold eval
    cases fuel with
    | zero => exact call_neg_zero _ _ _ _
    | succ fuel => rw [call_neg_succ]; simp [run, exec]

/-- `d = (a + b) * a; a = b;` and then `d` at a point. -/
example : ∃ c, run (fun _ => none) [.new 0 1 [[5]] (fun x p => (x 0 * p.headD 0, [])), .new 1 2 [] (fun x _ => (x 1, [⟨.signCheckContour, 7⟩])),
      .bin .add 2 0 1, .bin .multiply 2 2 0, .copy 0 1, .drop 1] 2 = some c ∧ c.dim = 2 ∧
    eval (run (fun _ => none) [.new 0 1 [[5]] (fun x p => (x 0 * p.headD 0, [])), .new 1 2 [] (fun x _ => (x 1, [⟨.signCheckContour, 7⟩])),
      .bin .add 2 0 1, .bin .multiply 2 2 0, .copy 0 1, .drop 1]) 0 c (fun i => i + 1) = some ((1 * 5 + 2) * (1 * 5), [⟨.signCheckContour, 7⟩]) := by
  rcases C69_programs [.new 0 1 [[5]] (fun x p => (x 0 * p.headD 0, [])), .new 1 2 [] (fun x _ => (x 1, [⟨.signCheckContour, 7⟩])),
      .bin .add 2 0 1, .bin .multiply 2 2 0, .copy 0 1, .drop 1] (by intro x y; simp) 2 with ⟨-, h⟩ | ⟨c, v, h1, h2, h3, h4⟩
  · simp [meaningOf, meaning, Function.update] at h
  · refine ⟨c, h1, ?_, ?_⟩
    · rw [h3]
      simp [meaningOf, meaning, Function.update] at h2
      rw [← h2]
    · rw [h4]
      simp [meaningOf, meaning, Function.update] at h2
      rw [← h2]
      norm_num

/-! ### Integrals -/

/-- C69: a sum of containers with different numbers of variables is integrated over the larger cube; the integral is the sum of the integrals of the
operands over their own cubes. -/
theorem C69_integral_sum (prog : List Stmt) (x y z : ℕ) (a b : Value) (ha : meaningOf prog y = some a) (hb : meaningOf prog z = some b)
    (da : DependsOn a.dim fun v => (a.f v).1) (db : DependsOn b.dim fun v => (b.f v).1)
    (ia : Integrable (max a.dim b.dim) fun v => (a.f v).1) (ib : Integrable (max a.dim b.dim) fun v => (b.f v).1) :
    ∃ s t, meaningOf (prog ++ [.bin .add x y z]) x = some s ∧ meaningOf (prog ++ [.bin .subtract x y z]) x = some t ∧
      integral s.dim (fun v => (s.f v).1) = integral a.dim (fun v => (a.f v).1) + integral b.dim (fun v => (b.f v).1) ∧
      integral t.dim (fun v => (t.f v).1) = integral a.dim (fun v => (a.f v).1) - integral b.dim (fun v => (b.f v).1) := by
  have e : ∀ op, meaningOf (prog ++ [.bin op x y z]) x = (meaning (meaningOf prog) (.bin op x y z)) x := by
    intro op
    unfold meaningOf
    rw [List.foldl_append]; rfl
  rw [e, e]
  simp only [meaning, Function.update_self, ha, hb, Option.bind_some, Option.map_some]
  refine ⟨_, _, rfl, rfl, ?_, ?_⟩
  · rw [← integral_more a.dim (max a.dim b.dim) (le_max_left _ _) _ da, ← integral_more b.dim (max a.dim b.dim) (le_max_right _ _) _ db]
    exact MeasureTheory.integral_add ia ib
  · rw [← integral_more a.dim (max a.dim b.dim) (le_max_left _ _) _ da, ← integral_more b.dim (max a.dim b.dim) (le_max_right _ _) _ db]
    exact MeasureTheory.integral_sub ia ib

/-- C69: the dimension that is used for the Cuba integrators does not change the integral. -/
theorem C69_cuba_dim (c : Cont) (f : (ℕ → ℝ) → ℂ) (h : DependsOn c.dim f) : integral (cubaDim c) f = integral c.dim f ∧ 2 ≤ cubaDim c := by
  unfold cubaDim
  split
  · exact ⟨integral_more c.dim 2 (by omega) f h, le_rfl⟩
  · exact ⟨rfl, by omega⟩

/-- C69: the separate integration of the real and the imaginary part: if the real integrator returns the integral of the container it is given, the
value is the complex integral. -/
theorem C69_separate (σ : Store) (fuel : ℕ) (c : Cont) (f : (ℕ → ℝ) → ℂ) (hf : ∀ x, ∃ l, eval σ fuel c x = some (f x, l)) (hi : Integrable c.dim f)
    (integrate : Cont → ℝ × ℝ)
    (hint : ∀ (c' : Cont) (g : (ℕ → ℝ) → ℝ), c'.dim = c.dim → (∀ x, ∃ l, eval σ fuel c' x = some ((g x : ℂ), l)) → ((integrate c').1 : ℂ) = integral c.dim fun x => g x) :
    (separate integrate c).1 = integral c.dim f := by
  have hp : ∀ imag x, ∃ l, eval σ fuel (part imag c) x = some (((if imag then (f x).im else (f x).re : ℝ) : ℂ), l) := by
    intro imag x
    obtain ⟨l, hl⟩ := hf x
    refine ⟨l, ?_⟩
    unfold eval part at *
    dsimp only
    rw [call.eq_def]
    dsimp only
    rw [hl]
    cases imag <;> rfl
  have h1 := hint (part false c) (fun x => (f x).re) rfl (by simpa using hp false)
  have h2 := hint (part true c) (fun x => (f x).im) rfl (by simpa using hp true)
  have e1 : (integrate (part false c)).1 = (integral c.dim f).re := by
    have := congrArg Complex.re h1
    rw [Complex.ofReal_re] at this
    rw [this]
    unfold integral
    rw [show (∫ x : Fin c.dim → ℝ in Set.Icc 0 1, (((f (extend x)).re : ℝ) : ℂ)) = ((∫ x : Fin c.dim → ℝ in Set.Icc 0 1, (f (extend x)).re : ℝ) : ℂ)
      from integral_ofReal, Complex.ofReal_re]
    exact integral_re hi
  have e2 : (integrate (part true c)).1 = (integral c.dim f).im := by
    have := congrArg Complex.re h2
    rw [Complex.ofReal_re] at this
    rw [this]
    unfold integral
    rw [show (∫ x : Fin c.dim → ℝ in Set.Icc 0 1, (((f (extend x)).im : ℝ) : ℂ)) = ((∫ x : Fin c.dim → ℝ in Set.Icc 0 1, (f (extend x)).im : ℝ) : ℂ)
      from integral_ofReal, Complex.ofReal_re]
    exact integral_im hi
  unfold separate
  exact Complex.ext e1 e2

/-- C69: `MultiIntegrator` with `CQuad` for low dimensions never raises the exception of `CQuad`, for any container, exactly if the critical dimension is
at most two; each container is then integrated by an integrator which supports its dimension. -/
theorem C69_multi {α : Type} (quadrature high : Cont → α) (critical : ℕ) :
    (∀ c, multi (cquad quadrature) (fun c => some (high c)) critical c ≠ none) ↔ critical ≤ 2 := by
  constructor
  · intro h
    by_contra hc
    refine h ⟨2, [], .leaf (const 0)⟩ ?_
    unfold multi cquad
    rw [if_pos (by dsimp only; omega), if_pos (by dsimp only; omega)]
  · intro hc c
    unfold multi cquad
    split
    · rw [if_neg (by omega)]; simp
    · simp

/-! ### Errors -/

/-- C69: for every number of threads and every interleaving: when all have ended, an error is thrown exactly if some evaluation has reported one; it is
one of the reports, with the number of the same report. -/
theorem C69_errors {T : ℕ} (i0 : Info) (reports : Fin T → List Report) (hr : ∀ j, ∀ r ∈ reports j, r.value ≠ .noError)
    (s : FillState T) (h : Relation.ReflTransGen Fill ⟨clearErrors i0, fun j => .ready (reports j)⟩ s) (hd : ∀ j, s.thread j = .ready []) :
    (processErrors s.info = none ↔ ∀ j, reports j = []) ∧ ∀ r, processErrors s.info = some r → ∃ j, r ∈ reports j := by
  rcases fill_end (s0 := ⟨clearErrors i0, fun j => .ready (reports j)⟩) (fun j => ⟨_, rfl⟩) rfl h hd with ⟨h1, h2⟩ | ⟨h1, j, r, hr', h3, h4⟩
  · have e : ∀ j, reports j = [] := by
      intro j
      have := h2 j
      dsimp only at this
      injection this
    have : processErrors s.info = none := by rw [h1]; rfl
    exact ⟨⟨fun _ => e, fun _ => this⟩, fun r hr => by rw [this] at hr; cases hr⟩
  · have hr'' : r ∈ reports j := hr'
    have e : processErrors s.info = some r := by
      unfold processErrors
      rw [if_neg (by rw [h3]; exact hr j r hr''), h3, h4]
    refine ⟨⟨fun h => (by rw [e] at h; cases h), fun h => ?_⟩, fun r' hr' => ?_⟩
    · rw [h j] at hr''; cases hr''
    · rw [e] at hr'; cases hr'; exact ⟨j, hr''⟩

/-- C69: the threads end: every step makes the total work smaller, and as long as there is work a step is possible. -/
theorem C69_errors_end {T : ℕ} (s : FillState T) :
    (∀ s', Fill s s' → ∑ j, (s'.thread j).work < ∑ j, (s.thread j).work) ∧ ((∃ j, s.thread j ≠ .ready []) → ∃ s', Fill s s') :=
  ⟨fun _ h => fill_work h, fill_progress s⟩

/-- Two threads, of which both report. -/
example : ∃ s : FillState 2, Relation.ReflTransGen Fill ⟨clearErrors ⟨true, .signCheckContour, 3⟩, fun j => .ready [⟨.signCheckPositive, j⟩]⟩ s ∧
    (∀ j, s.thread j = .ready []) ∧ ∃ j : Fin 2, processErrors s.info = some ⟨.signCheckPositive, j⟩ := by
  obtain ⟨s, h, hd⟩ := fill_exists (⟨clearErrors ⟨true, .signCheckContour, 3⟩, fun j => .ready [⟨.signCheckPositive, (j : ℕ)⟩]⟩ : FillState 2)
  have hh := C69_errors ⟨true, .signCheckContour, 3⟩ (fun j : Fin 2 => [⟨.signCheckPositive, (j : ℕ)⟩]) (by simp) s h hd
  refine ⟨s, h, hd, ?_⟩
  cases e : processErrors s.info with
  | none => exact absurd (hh.1.1 e 0) (by simp)
  | some r =>
    obtain ⟨j, hj⟩ := hh.2 r e
    rw [List.mem_singleton] at hj
    exact ⟨j, by rw [hj]⟩

end Container
end SecDec
