import Verif.Proof.Func
import Verif.Proof.FuncNames
/-
C44: symbolic functions and the derivatives they keep track of.
-/
namespace SecDec
namespace Func
open LoopCommon (partialDeriv mixed)
open Expr (Adm Mode Complete Terminates eval)
variable {n a : ℕ} {F : Type} [CommRing F] [DecidableEq F]

/-- C44: `derive` of a symbolic function is the chain rule.  For every object obtained from `Function(name, *args)` or
`MaxDegreeFunction(name, *args, maxdegrees=...)` by an arbitrary history of `derive`, `replace`, `simplify` and `copy`: if `name`
stands for the analytic function `g`, a polynomial of the declared degrees, the value of the summands returned by `derive(i)`
is the partial derivative of the value of the object. -/
theorem C44_chain_rule (φ : F →+* ℂ) (M : Mode n F) (hM : M = Mode.strict ∨ M = Mode.flat ∨ ∃ dep, M = Mode.nonint φ dep)
    (U : Set (Fin n → ℂ)) (hU : IsOpen U) (V : Set (Fin a → ℂ)) (hV : IsOpen V) (g : (Fin a → ℂ) → ℂ) (hg : AnalyticOnNhd ℂ g V)
    (name : List Char) (args : Fin a → Expr n F) (maxdegrees : Fin a → Option ℕ) (hmax : Declared g V maxdegrees)
    (fuel : ℕ) (ops : List (Op n a F)) (st : State n a F) (hrun : run fuel (Fn.new name args maxdegrees) ops = some st)
    (o : Fn n a F) (ho : o ∈ st.objs) (hargs : ∀ j, Adm M φ U (o.args j)) (hUV : ∀ x ∈ U, argValues φ o.args x ∈ V)
    (i : Fin n) (fuel' : ℕ) (r : List (Expr n F × Fn n a F) × Tracks n) (hr : o.derive fuel' i st.tracks = some r) :
    ∀ x ∈ U, HasDerivAt (fun s => o.value φ g (Function.update x i s)) (summandsValue φ g r.1 x) (x i) :=
  (derive_fn_ok hM hU hV hg hargs hUV (run_degree hV hg hmax hrun o ho) i hr).2

/-- C44: after every history of `derive`, `replace`, `simplify` and `copy`, `compute_derivatives(e)` returns, without a missing
recipe; every function object which can appear in an expression has the name of its multiindex, and its definition is among the
results (or it is the function itself); and every result is the derivative of `e` its multiindex says, whatever the order in which
the derivatives were asked for. -/
theorem C44_compute_derivatives (φ : F →+* ℂ) (M : Mode n F) (hM : M = Mode.strict ∨ M = Mode.flat ∨ ∃ dep, M = Mode.nonint φ dep)
    (U : Set (Fin n → ℂ)) (hU : IsOpen U) (e : Expr n F) (he : Adm M φ U e) (hc : Complete e)
    (name : List Char) (args : Fin a → Expr n F) (maxdegrees : Fin a → Option ℕ)
    (fuel : ℕ) (ops : List (Op n a F)) (st : State n a F) (hrun : run fuel (Fn.new name args maxdegrees) ops = some st) :
    ∃ repo, Terminates (fun fuel => computeDerivatives fuel st.tracks e) repo ∧ (repo.map (·.1)).Nodup ∧
      (∀ o ∈ st.objs, o.symbol = derivativeName name o.multi ∧ ∃ d, definition repo e o.multi d) ∧
      ∀ p ∈ repo, Complete p.2 ∧ Adm M φ U p.2 ∧ ∀ x ∈ U, eval φ x p.2 = mixed p.1 (fun x => eval φ x e) x := by
  obtain ⟨ht, ho⟩ := run_ok hrun
  obtain ⟨repo, h1, h2, h3, h4⟩ := compute_ok hM hU he hc ht
  refine ⟨repo, h1, h2, fun o hoo => ⟨(ho o hoo).sym, ?_⟩, h3⟩
  rcases (ho o hoo).key with h | h
  · exact ⟨e, Or.inr ⟨h, rfl⟩⟩
  · obtain ⟨d, hd⟩ := h4 _ h
    exact ⟨d, Or.inl hd⟩

/-- C44, the purpose of the class: replace the symbol of every function in the derivative `o.derive(i)` by its definition from
`compute_derivatives(e)`, with the arguments inserted; the result is the derivative of the definition of `o` with the
arguments inserted. -/
theorem C44_insertion (φ : F →+* ℂ) (M : Mode n F) (hM : M = Mode.strict ∨ M = Mode.flat ∨ ∃ dep, M = Mode.nonint φ dep)
    (U V : Set (Fin n → ℂ)) (hU : IsOpen U) (hV : IsOpen V) (e : Expr n F) (he : Adm M φ V e) (hc : Complete e)
    (name : List Char) (args : Fin n → Expr n F) (maxdegrees : Fin n → Option ℕ) (hmax : Declared (fun y => eval φ y e) V maxdegrees)
    (fuel : ℕ) (ops : List (Op n n F)) (st : State n n F) (hrun : run fuel (Fn.new name args maxdegrees) ops = some st)
    (k : ℕ) (o : Fn n n F) (ho : st.objs[k]? = some o) (hargs : ∀ j, Adm M φ U (o.args j)) (hUV : ∀ x ∈ U, argValues φ o.args x ∈ V)
    (i : Fin n) (r : List (Expr n F × Fn n n F) × Tracks n) (hr : o.derive fuel i st.tracks = some r) :
    ∃ repo, Terminates (fun fuel => computeDerivatives fuel r.2 e) repo ∧
      ∃ D : Multi n → Expr n F, definition repo e o.multi (D o.multi) ∧ (∀ t ∈ r.1, definition repo e t.2.multi (D t.2.multi)) ∧
        ∀ x ∈ U, HasDerivAt (fun s => eval φ (argValues φ o.args (Function.update x i s)) (D o.multi))
          ((r.1.map fun t => eval φ x t.1 * eval φ (argValues φ o.args x) (D t.2.multi)).sum) (x i) := by
  classical
  have hom := List.mem_of_getElem? ho
  have hrun' : run fuel (Fn.new name args maxdegrees) (ops ++ [.derive k i]) = some ⟨st.objs ++ r.1.map (·.2), r.2⟩ := by
    unfold run at hrun ⊢
    rw [List.foldlM_append, hrun]
    show List.foldlM (step fuel) st [.derive k i] = _
    rw [List.foldlM_cons]
    simp only [step, ho, Option.bind_some, hr, Option.map_some]
    rfl
  obtain ⟨repo, h1, h2, h3, h4⟩ := C44_compute_derivatives φ M hM V hV e he hc name args maxdegrees fuel _ _ hrun'
  have hval : ∀ α d, definition repo e α d → ∀ x ∈ V, eval φ x d = mixed α (fun x => eval φ x e) x := by
    intro α d hd x hx
    rcases hd with hd | ⟨rfl, rfl⟩
    · exact (h4 _ hd).2.2 x hx
    · rw [mixed_zero]
  have hex : ∀ α, (∃ d, definition repo e α d) → definition repo e α (if h : ∃ d, definition repo e α d then h.choose else e) := by
    intro α h
    rw [dif_pos h]; exact h.choose_spec
  refine ⟨repo, h1, fun α => if h : ∃ d, definition repo e α d then h.choose else e, ?_, ?_, ?_⟩
  · exact hex _ (h3 o (List.mem_append_left _ hom)).2
  · intro t ht
    exact hex _ (h3 t.2 (List.mem_append_right _ (List.mem_map_of_mem ht))).2
  · intro x hx
    have hg : AnalyticOnNhd ℂ (fun y => eval φ y e) V := Subtraction.Adm.analytic he
    obtain ⟨h5, h6⟩ := derive_fn_ok hM hU hV hg hargs hUV (run_degree hV hg hmax hrun o hom) i hr
    have h7 := h6 x hx
    have h8 : summandsValue φ (fun y => eval φ y e) r.1 x = (r.1.map fun t => eval φ x t.1 * eval φ (argValues φ o.args x)
        (if h : ∃ d, definition repo e t.2.multi d then h.choose else e)).sum := by
      unfold summandsValue
      congr 1
      refine List.map_congr_left (fun t ht => ?_)
      rw [hval _ _ (hex _ (h3 t.2 (List.mem_append_right _ (List.mem_map_of_mem ht))).2) _ (hUV x hx)]
      unfold Fn.value
      rw [restrict_self, (h5 t ht).args]
    rw [h8] at h7
    refine h7.congr_of_eventuallyEq ?_
    have hcont : ContinuousAt (fun s => Function.update x i s) (x i) := (continuous_const.update i continuous_id).continuousAt
    have : ∀ᶠ s in nhds (x i), Function.update x i s ∈ U := hcont.eventually_mem (by simpa using hU.mem_nhds hx)
    filter_upwards [this] with s hs
    rw [hval _ _ (hex _ (h3 o (List.mem_append_left _ hom)).2) _ (hUV _ hs)]
    unfold Fn.value
    rw [restrict_self]

/-- C44: the degrees which `get_maxdegrees` determines for a polynomial are correct: the derivatives left out by a
`MaxDegreeFunction` vanish. -/
theorem C44_maxdegrees (φ : F →+* ℂ) (ts : Expr.Terms n F) (hts : ∀ t ∈ ts, ∃ c, t.2 = .num c) (indices : Option (List (Fin n)))
    (V : Set (Fin n → ℂ)) : Declared (fun x => eval φ x (.poly ts)) V (getMaxdegrees ts indices) :=
  fun _ _ hm y _ => maxdegrees_ok hts hm y

/-- C44: different derivatives of a function have different names, so no definition overwrites another one. -/
theorem C44_names (name : List Char) (α β : Multi n) (h : derivativeName name α = derivativeName name β) : α = β := name_inj h

/-- C44: the derivatives of different functions have different names, if the names of the functions do not begin with the letter `d`;
the number of variables may be different. -/
theorem C44_names_of_functions {m : ℕ} (name name' : List Char) (hd : name.head? ≠ some 'd') (hne : name ≠ [])
    (hd' : name'.head? ≠ some 'd') (hne' : name' ≠ []) (α : Multi n) (β : Multi m)
    (h : derivativeName name α = derivativeName name' β) :
    name = name' ∧ ∀ k (h1 : k < n) (h2 : k < m), α ⟨k, h1⟩ = β ⟨k, h2⟩ := by
  obtain ⟨h1, h2⟩ := name_inj2 hd hne hd' hne' h
  refine ⟨h1, fun k hk hm => ?_⟩
  rw [← count_expand α ⟨k, hk⟩, ← count_expand β ⟨k, hm⟩, h2]

/-- C44, defect: without the condition two functions share a name: the derivative of `f` is called `dfd0`, which is also accepted as the
name of another function. -/
theorem C44_name_collision : derivativeName "f".toList (fun _ : Fin 1 => 1) = derivativeName "dfd0".toList (fun _ : Fin 1 => 0) := by
  decide +kernel

/-- C44, defect: a function may have more arguments than there are variables, but then `derive` raises an `IndexError`: in one variable `x`,
`f(1, x).derive(0)` has no result, although the derivative exists. -/
theorem C44_too_many_arguments (fuel : ℕ) (tracks : Tracks 1) :
    (Fn.new "f".toList ![Expr.const 1, .poly [(fun _ => 1, .num 1)]] (fun _ => none) : Fn 1 2 ℤ).derive (fuel + 2) 0 tracks = none := by
  have h1 : Expr.derive (fuel + 2) (Expr.const 1 : Expr 1 ℤ) 0 = some (Expr.const 0) := by
    simp [Expr.derive, Expr.const, Expr.deriveTerms, Expr.isNum]
  have h2 : ∃ ts, Expr.derive (fuel + 2) (.poly [(fun _ => 1, .num 1)] : Expr 1 ℤ) 0 = some (.poly ts) ∧ Expr.allCoeffsZero ts = false := by
    simp [Expr.derive, Expr.deriveTerms, Expr.isNum, Expr.allCoeffsZero, Expr.isNumZero, Expr.cmul]
  obtain ⟨ts, h2, h3⟩ := h2
  simp [Fn.derive, Fn.deriveArg, Fn.new, List.finRange_succ, h1, h2, isZero, h3]

/-! ### A concrete case

In one variable: `e = x^3`, and the function `f` at the argument `x^2`, of the degree 3; `f` is differentiated, and so is its derivative. -/

/-- The polynomial `x^3`. -/
def cube : Expr 1 ℤ := .poly [(fun _ => 3, .num 1)]

/-- The polynomial `x^2`. -/
def square : Expr 1 ℤ := .poly [(fun _ => 2, .num 1)]

theorem adm_monomial (k : ℕ) : Adm Mode.strict (Int.castRingHom ℂ) Set.univ (.poly [(fun _ => (k : ℤ), .num 1)] : Expr 1 ℤ) := by
  refine Adm.poly _ ?_ ?_ ?_
  · intro t ht x _ i _
    rw [List.mem_singleton] at ht
    subst ht
    simp
  · intro t ht
    rw [List.mem_singleton] at ht
    subst ht
    exact Adm.num _
  · intro t _
    trivial

/-- The history: two derivatives, the second one of the result of the first one; there are three function objects then. -/
example : ∃ st : State 1 1 ℤ, run 10 (Fn.new "f".toList ![square] (getMaxdegrees [((fun _ => 3 : Fin 1 → ℤ), (.num 1 : Expr 1 ℤ))] none)) [.derive 0 0, .derive 1 0] = some st ∧
    st.objs.length = 3 ∧ st.objs.map (fun o => String.ofList o.symbol) = ["f", "dfd0", "ddfd0d0"] := by
  refine ⟨_, rfl, ?_, ?_⟩
  · decide +kernel
  · decide +kernel

/-- Its hypotheses: the function is a polynomial of the declared degree, the arguments are admissible. -/
example : Declared (fun x => eval (Int.castRingHom ℂ) x cube) Set.univ (getMaxdegrees [((fun _ => 3 : Fin 1 → ℤ), (.num 1 : Expr 1 ℤ))] none) ∧
    Adm Mode.strict (Int.castRingHom ℂ) Set.univ cube ∧ Adm Mode.strict (Int.castRingHom ℂ) Set.univ square ∧ Complete cube :=
  ⟨C44_maxdegrees _ _ (by simp) _ _, adm_monomial 3, adm_monomial 2, .poly _ (by simpa using .num 1)⟩

end Func
end SecDec
