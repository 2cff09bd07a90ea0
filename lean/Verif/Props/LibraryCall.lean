import Verif.Spec.LibraryCall
import Mathlib.Data.List.Induction
/-
C75: choosing an integrator and calling an `IntegralLibrary`.
-/
set_option linter.unusedVariables false
namespace SecDec
namespace LibraryCall

section Choice
variable {cudaLib : Bool} {vegasDefault qmcDefault : Settings}

theorem run_snoc (ops : List Op) (op : Op) : run cudaLib vegasDefault (ops ++ [op]) = (step cudaLib vegasDefault (run cudaLib vegasDefault ops) op).1 := by
  unfold run
  rw [List.foldl_append]
  rfl

/-- What holds after every regular history; `rops` are the choices, latest first. -/
structure Inv (cudaLib : Bool) (vegasDefault qmcDefault : Settings) (rops : List Op) (st : Lib) : Prop where
  empty : rops = [] → st = Lib.init
  integ : rops ≠ [] → st.integrator = some (chosen cudaLib vegasDefault qmcDefault rops)
  high : rops ≠ [] → st.highDim = some (highDimOf cudaLib vegasDefault rops)
  cudaH : rops ≠ [] → st.cuda = !(highDimOf cudaLib vegasDefault rops).hasPtr
  cudaI : rops ≠ [] → st.cuda = !(chosen cudaLib vegasDefault qmcDefault rops).hasPtr
  sett : (highDimOf cudaLib vegasDefault rops).settings ≠ none

theorem highDimOf_cases (rops : List Op) : (∃ s, highDimOf cudaLib vegasDefault rops = .cudaQmc s) ∨ ∃ k s, highDimOf cudaLib vegasDefault rops = .simple k s := by
  induction rops with
  | nil => exact Or.inr ⟨_, _, rfl⟩
  | cons op rops ih =>
    cases op with
    | cquad s => exact ih
    | assign i => exact ih
    | qmc s =>
      unfold highDimOf Op.integ
      cases cudaLib
      · exact Or.inr ⟨_, _, rfl⟩
      · exact Or.inl ⟨_, rfl⟩
    | _ => exact Or.inr ⟨_, _, rfl⟩

theorem inv_step {rops : List Op} {st : Lib} (h : Inv cudaLib vegasDefault qmcDefault rops st) {op : Op} (ha : ∀ i, op ≠ .assign i)
    (hc : cudaLib = true → ∀ s, op ≠ .cuhre s) : Inv cudaLib vegasDefault qmcDefault (op :: rops) (step cudaLib vegasDefault st op).1 := by
  cases op with
  | assign i => exact absurd rfl (ha i)
  | vegas s => exact ⟨by simp, fun _ => rfl, fun _ => rfl, fun _ => rfl, fun _ => rfl, by simp [highDimOf, Op.integ, Integ.settings]⟩
  | suave s => exact ⟨by simp, fun _ => rfl, fun _ => rfl, fun _ => rfl, fun _ => rfl, by simp [highDimOf, Op.integ, Integ.settings]⟩
  | divonne s => exact ⟨by simp, fun _ => rfl, fun _ => rfl, fun _ => rfl, fun _ => rfl, by simp [highDimOf, Op.integ, Integ.settings]⟩
  | qmc s =>
    cases cudaLib
    · exact ⟨by simp, fun _ => rfl, fun _ => rfl, fun _ => rfl, fun _ => rfl, by simp [highDimOf, Op.integ, Integ.settings]⟩
    · exact ⟨by simp, fun _ => rfl, fun _ => rfl, fun _ => rfl, fun _ => rfl, by simp [highDimOf, Op.integ, Integ.settings]⟩
  | cuhre s =>
    have hcu : cudaLib = false := by
      cases cudaLib
      · rfl
      · exact absurd rfl (hc rfl s)
    subst hcu
    have hst : st.cuda = false := by
      have key : ∀ r : List Op, (highDimOf false vegasDefault r).hasPtr = true := by
        intro r
        induction r with
        | nil => rfl
        | cons op r ih => cases op <;> first | rfl | exact ih
      by_cases hr : rops = []
      · rw [h.empty hr]; rfl
      · rw [h.cudaH hr, key]; rfl
    exact ⟨by simp, fun _ => rfl, fun _ => rfl, fun _ => hst, fun _ => hst, by simp [highDimOf, Op.integ, Integ.settings]⟩
  | cquad s =>
    have e1 : highDimOf cudaLib vegasDefault (.cquad s :: rops) = highDimOf cudaLib vegasDefault rops := rfl
    have e2 : chosen cudaLib vegasDefault qmcDefault (.cquad s :: rops) = match highDimOf cudaLib vegasDefault rops with
      | .cudaQmc _ => chosen cudaLib vegasDefault qmcDefault rops
      | h => .multi (.simple .cquad s) h 2 := by
      rw [chosen]
      cases highDimOf cudaLib vegasDefault rops <;> rfl
    by_cases hr : rops = []
    · subst hr
      rw [h.empty rfl]
      exact ⟨by simp, fun _ => rfl, fun _ => rfl, fun _ => rfl, fun _ => rfl, by simp [highDimOf, Op.integ, Integ.settings]⟩
    · have hh := h.high hr
      have hcu := h.cudaH hr
      rcases highDimOf_cases (cudaLib := cudaLib) (vegasDefault := vegasDefault) rops with ⟨d, hd⟩ | ⟨k, d, hd⟩
      · rw [hd] at hcu
        have hs : (step cudaLib vegasDefault st (.cquad s)).1 = st := by
          have hcu' : st.cuda = true := by rw [hcu]; rfl
          simp only [step, hcu', if_true]
        rw [hs]
        refine ⟨by simp, fun _ => ?_, fun _ => ?_, fun _ => ?_, fun _ => ?_, ?_⟩
        · rw [e2, hd]; exact h.integ hr
        · rw [e1]; exact hh
        · rw [e1]; exact h.cudaH hr
        · rw [e2, hd]; exact h.cudaI hr
        · rw [e1]; exact h.sett
      · rw [hd] at hcu hh
        have hs : (step cudaLib vegasDefault st (.cquad s)).1 = { st with integrator := some (.multi (.simple .cquad s) (.simple k d) 2) } := by
          have hcu' : st.cuda = false := by rw [hcu]; rfl
          simp only [step, hcu', Bool.false_eq_true, if_false, hh, Option.isNone_some, mkMulti, Integ.hasPtr, Bool.and_self, if_true]
        rw [hs]
        refine ⟨by simp, fun _ => ?_, fun _ => ?_, fun _ => ?_, fun _ => ?_, ?_⟩
        · rw [e2, hd]
        · rw [e1, hd]; exact hh
        · rw [e1, hd]; exact hcu
        · rw [e2, hd]; exact hcu
        · rw [e1]; exact h.sett

theorem inv_run {ops : List Op} (h : Regular cudaLib ops) : Inv cudaLib vegasDefault qmcDefault ops.reverse (run cudaLib vegasDefault ops) := by
  induction ops using List.reverseRecOn with
  | nil => exact ⟨fun _ => rfl, by simp, by simp, by simp, by simp, by simp [highDimOf, Integ.settings]⟩
  | append_singleton ops op ih =>
    rw [run_snoc, List.reverse_append]
    exact inv_step (ih fun o ho => h o (List.mem_append_left _ ho)) (h op (by simp)).1 (h op (by simp)).2

/-- **C75.** After every history of `use_...` calls (without `use_Cuhre` for a CUDA library), a call with the right numbers of parameters and a known error mode hands to the C routine: the
integrator chosen last, the parameters (complex ones as real part, imaginary part), each setting given in the call, or that of the integrator chosen last for more than one dimension; the
CUDA routine is called exactly if the integrator is `CudaQmc`. -/
theorem C75_call {ops : List Op} (hreg : Regular cudaLib ops) {nReal nComplex : ℕ} {a : Args} (hr : a.real.length = nReal) (hc : a.complex.length = nComplex)
    {m : ℕ} (hm : errormodeEnum a.errormode = some m) :
    ∃ st s c, prepare cudaLib qmcDefault (run cudaLib vegasDefault ops) a = some (st, s, m) ∧ cargs nReal nComplex st a s m = some c ∧
      c.integrator = chosen cudaLib vegasDefault qmcDefault ops.reverse ∧
      (c.cuda = true ↔ ∃ d, c.integrator = .cudaQmc d) ∧
      c.real = a.real ∧ c.complex = a.complex.flatMap (fun z => [z.1, z.2]) ∧ c.errormode = m ∧
      ∃ d, (defaultsOf cudaLib vegasDefault qmcDefault ops.reverse).settings = some d ∧
        c.settings = ⟨a.epsrel.getD d.epsrel, a.epsabs.getD d.epsabs, a.mineval.getD d.mineval, a.maxeval.getD d.maxeval⟩ := by
  have hflat : ∀ l : List (ℝ × ℝ), flatten l = l.flatMap fun z => [z.1, z.2] := by
    intro l
    induction l with
    | nil => rfl
    | cons z l ih => rw [flatten, ih, List.flatMap_cons]; rfl
  have hptr : ∀ i : Integ, (!i.hasPtr) = true ↔ ∃ d, i = .cudaQmc d := by
    intro i
    cases i <;> simp [Integ.hasPtr]
  have hI := inv_run (cudaLib := cudaLib) (vegasDefault := vegasDefault) (qmcDefault := qmcDefault) hreg
  -- the state after `use_Qmc()` if necessary
  obtain ⟨st, hst, hsi, hsh, hsc⟩ : ∃ st, (if (run cudaLib vegasDefault ops).integrator.isNone then useQmc cudaLib (run cudaLib vegasDefault ops) qmcDefault
      else run cudaLib vegasDefault ops) = st ∧ st.integrator = some (chosen cudaLib vegasDefault qmcDefault ops.reverse) ∧
      st.highDim = some (defaultsOf cudaLib vegasDefault qmcDefault ops.reverse) ∧ st.cuda = !(chosen cudaLib vegasDefault qmcDefault ops.reverse).hasPtr := by
    refine ⟨_, rfl, ?_⟩
    by_cases he : ops.reverse = []
    · rw [hI.empty he, he]
      have : Lib.init.integrator.isNone = true := rfl
      rw [if_pos this]
      unfold useQmc defaultsOf
      rw [if_pos rfl]
      cases cudaLib <;> exact ⟨rfl, rfl, rfl⟩
    · rw [if_neg (by rw [hI.integ he]; simp)]
      refine ⟨hI.integ he, ?_, hI.cudaI he⟩
      unfold defaultsOf
      rw [if_neg he]
      exact hI.high he
  obtain ⟨d, hd⟩ : ∃ d, (defaultsOf cudaLib vegasDefault qmcDefault ops.reverse).settings = some d := by
    unfold defaultsOf
    split
    · unfold chosen
      cases cudaLib <;> exact ⟨_, rfl⟩
    · exact Option.ne_none_iff_exists'.mp hI.sett
  refine ⟨st, ⟨a.epsrel.getD d.epsrel, a.epsabs.getD d.epsabs, a.mineval.getD d.mineval, a.maxeval.getD d.maxeval⟩,
    ⟨st.cuda, chosen cudaLib vegasDefault qmcDefault ops.reverse, a.real, flatten a.complex,
      ⟨a.epsrel.getD d.epsrel, a.epsabs.getD d.epsabs, a.mineval.getD d.mineval, a.maxeval.getD d.maxeval⟩, m⟩, ?_, ?_, rfl, ?_, rfl, hflat _, rfl, d, hd, rfl⟩
  · unfold prepare
    rw [hst]
    dsimp only
    rw [hsh, Option.bind_some, hd, hm]
    cases a.epsrel <;> cases a.epsabs <;> cases a.mineval <;> cases a.maxeval <;> rfl
  · unfold cargs
    rw [if_neg (by rw [hr]; simp), if_neg (by rw [hc]; simp), hsi]
    dsimp only
    rw [if_pos hsc]
  · show st.cuda = true ↔ _
    rw [hsc]
    exact hptr _

/-- **C75.** The number of an error mode is that of the mode with this name in the C routine, and other names are refused. -/
theorem C75_errormode_enum (s : String) (m : ℕ) : errormodeEnum s = some m ↔ errorModes[m]? = some s := by
  constructor
  · intro h
    unfold errormodeEnum at h
    split_ifs at h with h0 h1 h2 h3 h4 <;> simp only [Option.some.injEq] at h <;> subst h <;> subst_vars <;> rfl
  · intro h
    match m, h with
    | 0, h => cases h; rfl
    | 1, h => cases h; rfl
    | 2, h => cases h; rfl
    | 3, h => cases h; rfl
    | 4, h => cases h; rfl
    | m + 5, h => simp [errorModes] at h

/-- An unknown error mode is refused before anything is computed. -/
theorem C75_errormode {st : Lib} {a : Args} (h : a.errormode ∉ ["abs", "all", "largest", "real", "imag"]) : prepare cudaLib qmcDefault st a = none := by
  have : errormodeEnum a.errormode = none := by
    simp only [List.mem_cons, List.not_mem_nil, or_false, not_or] at h
    unfold errormodeEnum
    rw [if_neg h.1, if_neg h.2.1, if_neg h.2.2.1, if_neg h.2.2.2.1, if_neg h.2.2.2.2]
  unfold prepare
  rw [this]
  cases a.epsrel <;> cases a.epsabs <;> cases a.mineval <;> cases a.maxeval <;> simp

/-- **C75, defect.** `use_Cuhre` does not reset `_cuda`: for a CUDA library, after `use_Qmc` and `use_Cuhre` the thread of every call ends with an exception, whatever its arguments. -/
theorem C75_cuhre_after_cuda_fails (s s' : Settings) (nReal nComplex : ℕ) (a : Args) {st : Lib} {t : Settings} {m : ℕ}
    (h : prepare true qmcDefault (run true vegasDefault [.qmc s, .cuhre s']) a = some (st, t, m)) : cargs nReal nComplex st a t m = none := by
  have e : run true vegasDefault [.qmc s, .cuhre s'] = { cuda := true, integrator := some (.simple .cuhre s'), highDim := some (.simple .cuhre s') } := rfl
  rw [e] at h
  unfold prepare at h
  dsimp only at h
  obtain ⟨x, -, h⟩ := Option.bind_eq_some_iff.mp h
  obtain ⟨y, -, h⟩ := Option.map_eq_some_iff.mp h
  simp only [Option.isNone_some, Bool.false_eq_true, if_false, Prod.mk.injEq] at h
  rw [← h.1]
  unfold cargs
  split
  · rfl
  · split
    · rfl
    · rfl

/-- **C75, defect.** The assignment `integral_library.integrator = MultiIntegrator(...)` from the documentation, as the only choice, makes every call fail that does not give all four of
`epsrel`, `epsabs`, `mineval` and `maxeval`. -/
theorem C75_assigned_integrator_fails (i : Integ) (a : Args) (h : a.epsrel = none ∨ a.epsabs = none ∨ a.mineval = none ∨ a.maxeval = none) :
    prepare cudaLib qmcDefault (run cudaLib vegasDefault [.assign i]) a = none := by
  have e : run cudaLib vegasDefault [.assign i] = { cuda := false, integrator := some i, highDim := none } := rfl
  rw [e]
  unfold prepare
  rcases h with h | h | h | h <;> rw [h] <;> cases a.epsrel <;> cases a.epsabs <;> cases a.mineval <;> cases a.maxeval <;> simp

end Choice

section Threads
variable {T : Type} {job : Option (ℤ × (T × T × T))} {fmt : T → T}

/-- The states that can occur. -/
inductive Good (job : Option (ℤ × (T × T × T))) (fmt : T → T) : Sys T → Prop where
  | start : Good job fmt ⟨.start, [], [], .join⟩
  | failed : job = none → Good job fmt ⟨.dead, [], [], .join⟩
  | failed2 : job = none → Good job fmt ⟨.dead, [], [], .getRv⟩
  | called {rv out} : job = some (rv, out) → Good job fmt ⟨.called rv out, [], [], .join⟩
  | bad {rv out} : job = some (rv, out) → rv ≠ 0 → Good job fmt ⟨.dead, [rv], [], .join⟩
  | bad2 {rv out} : job = some (rv, out) → rv ≠ 0 → Good job fmt ⟨.dead, [rv], [], .getRv⟩
  | bad3 {rv out} : job = some (rv, out) → rv ≠ 0 → Good job fmt ⟨.dead, [], [], .raised⟩
  | ok {out} : job = some (0, out) → Good job fmt ⟨.reported out, [0], [], .join⟩
  | ok2 {out} : job = some (0, out) → Good job fmt ⟨.dead, [0], [out], .join⟩
  | ok3 {out} : job = some (0, out) → Good job fmt ⟨.dead, [0], [out], .getRv⟩
  | ok4 {out} : job = some (0, out) → Good job fmt ⟨.dead, [], [out], .getOut⟩
  | ok5 {out} : job = some (0, out) → Good job fmt ⟨.dead, [], [], .returned (fmt out.1, out.2.1, fmt out.2.2)⟩

theorem good_of_reachable {s : Sys T} (h : Reachable job fmt s) : Good job fmt s := by
  induction h with
  | init => exact .start
  | step _ hs ih =>
    cases hs with
    | fail hw hj =>
      cases ih with
      | start => exact .failed hj
      | _ => simp at hw
    | call hw hj =>
      cases ih with
      | start => exact .called hj
      | _ => simp at hw
    | @report rv out hw =>
      cases ih with
      | @called rv' out' hj =>
        simp only [Worker.called.injEq] at hw
        obtain ⟨rfl, rfl⟩ := hw
        by_cases h0 : rv' = 0
        · subst h0; exact .ok hj
        · simp only [ne_eq, h0, not_false_eq_true, if_true, List.nil_append]; exact .bad hj h0
      | _ => simp at hw
    | @put out hw =>
      cases ih with
      | @ok out' hj =>
        simp only [Worker.reported.injEq] at hw
        subst hw
        exact .ok2 hj
      | _ => simp at hw
    | joined hm hw =>
      cases ih with
      | failed hj => exact .failed2 hj
      | bad hj h0 => exact .bad2 hj h0
      | ok2 hj => exact .ok3 hj
      | _ => simp at hm hw
    | @rv r q hm hq =>
      cases ih with
      | bad2 hj h0 =>
        simp only [List.cons.injEq] at hq
        obtain ⟨rfl, rfl⟩ := hq
        simp only [ne_eq, h0, not_false_eq_true, if_true]
        exact .bad3 hj h0
      | ok3 hj =>
        simp only [List.cons.injEq] at hq
        obtain ⟨rfl, rfl⟩ := hq
        exact .ok4 hj
      | _ => simp at hm hq
    | @out o q hm hq =>
      cases ih with
      | ok4 hj =>
        simp only [List.cons.injEq] at hq
        obtain ⟨rfl, rfl⟩ := hq
        exact .ok5 hj
      | _ => simp at hm hq

/-- **C75.** Whatever the schedule of the threads: a call returns only the strings of a C routine that has returned 0, the first and the third in the chosen format, in their order; it
raises the `RuntimeError` only if the C routine has returned another number. -/
theorem C75_result {s : Sys T} (h : Reachable job fmt s) :
    (∀ r, s.main = .returned r → ∃ out, job = some (0, out) ∧ r = (fmt out.1, out.2.1, fmt out.2.2)) ∧
    (s.main = .raised → ∃ rv out, job = some (rv, out) ∧ rv ≠ 0) := by
  have hg := good_of_reachable h
  cases hg <;> simp_all

/-- The number of steps that are left. -/
def left (s : Sys T) : ℕ :=
  (match s.worker with | .start => 3 | .called _ _ => 2 | .reported _ => 1 | .dead => 0) + (match s.main with | .join => 3 | .getRv => 2 | .getOut => 1 | _ => 0)

/-- **C75.** If the thread reaches the C routine and this returns, then every call ends: until the caller has a result or an exception one of the threads can do something, and at most six
steps are possible, in every schedule. -/
theorem C75_ends {s : Sys T} (h : Reachable job fmt s) (hj : job ≠ none) :
    (¬ s.Finished → ∃ s', Step job fmt s s') ∧ ∀ s', Step job fmt s s' → left s' < left s := by
  have hg := good_of_reachable h
  constructor
  · intro hf
    cases hg with
    | start =>
      obtain ⟨⟨rv, out⟩, hj⟩ := Option.ne_none_iff_exists'.mp hj
      exact ⟨_, .call rfl hj⟩
    | failed hn => exact absurd hn hj
    | failed2 hn => exact absurd hn hj
    | called _ => exact ⟨_, .report rfl⟩
    | bad _ _ => exact ⟨_, .joined rfl rfl⟩
    | bad2 _ _ => exact ⟨_, .rv rfl rfl⟩
    | bad3 _ _ => exact absurd (Or.inr rfl) hf
    | ok _ => exact ⟨_, .put rfl⟩
    | ok2 _ => exact ⟨_, .joined rfl rfl⟩
    | ok3 _ => exact ⟨_, .rv rfl rfl⟩
    | ok4 _ => exact ⟨_, .out rfl rfl⟩
    | ok5 _ => exact absurd (Or.inl ⟨_, rfl⟩) hf
  · intro s' hs
    cases hs with
    | fail hw hn => exact absurd hn hj
    | call hw _ => simp only [left, hw]; omega
    | @report rv out hw =>
      simp only [left, hw]
      split <;> rename_i hx <;> split at hx <;> first | omega | simp at hx
    | put hw => simp only [left, hw]; omega
    | joined hm hw => simp only [left, hm]; omega
    | @rv r q hm hq =>
      simp only [left, hm]
      by_cases h0 : r = 0 <;> simp [h0]
    | out hm hq => simp only [left, hm]; omega

/-- **C75, defect.** If the thread ends with an exception before the C routine has returned (a wrong number of parameters, or the missing pointer above), the caller gets neither a result nor
an exception, in any schedule: it waits for ever for the return value. -/
theorem C75_hangs {s : Sys T} (h : Reachable job fmt s) (hj : job = none) :
    ¬ s.Finished ∧ ∃ s', Reachable job fmt s' ∧ s'.main = .getRv ∧ ∀ s'', ¬ Step job fmt s' s'' := by
  have hg := good_of_reachable h
  constructor
  · rintro (⟨r, hr⟩ | hr) <;> cases hg <;> simp_all
  · refine ⟨⟨.dead, [], [], .getRv⟩, ?_, rfl, ?_⟩
    · exact .step (.step .init (.fail rfl hj)) (.joined rfl rfl)
    · intro s'' hs
      cases hs with
      | fail hw _ => simp at hw
      | call hw _ => simp at hw
      | report hw => simp at hw
      | put hw => simp at hw
      | joined hm _ => simp at hm
      | rv hm hq => simp at hq
      | out hm hq => simp at hm

/-- A wrong number of parameters ends the thread with an exception. -/
theorem C75_wrong_number {nReal nComplex : ℕ} {st : Lib} {a : Args} {s : Settings} {m : ℕ} (h : a.real.length ≠ nReal ∨ a.complex.length ≠ nComplex) :
    cargs nReal nComplex st a s m = none := by
  unfold cargs
  by_cases h1 : a.real.length ≠ nReal
  · rw [if_pos h1]
  · rw [if_neg h1, if_pos (h.resolve_left h1)]

end Threads

/-! ### non-vacuity -/

/-- `use_Suave`, `use_CQuad`, and a call with one real and one complex parameter. -/
example (s d : Settings) : ∃ st t c, prepare false d (run false d [.suave s, .cquad d]) ⟨[1], [(2, 3)], some 4, none, none, none, "all"⟩ = some (st, t, 1) ∧
    cargs 1 1 st ⟨[1], [(2, 3)], some 4, none, none, none, "all"⟩ t 1 = some c ∧ c.integrator = .multi (.simple .cquad d) (.simple .suave s) 2 ∧ c.complex = [2, 3] := by
  obtain ⟨st, t, c, h1, h2, h3, -, -, h4, -⟩ := C75_call (cudaLib := false) (vegasDefault := d) (qmcDefault := d) (ops := [.suave s, .cquad d]) (by
    intro op hop
    simp only [List.mem_cons, List.not_mem_nil, or_false] at hop
    rcases hop with rfl | rfl <;> simp) (nReal := 1) (nComplex := 1) (a := ⟨[1], [(2, 3)], some 4, none, none, none, "all"⟩) rfl rfl (m := 1) (by decide)
  exact ⟨st, t, c, h1, h2, h3, by rw [h4]; rfl⟩

/-- A complete run of both threads. -/
example : Reachable (some (0, ("a", "b", "c"))) (fun s : String => s ++ "!") ⟨.dead, [], [], .returned ("a!", "b", "c!")⟩ := by
  have h := Reachable.init (job := some (0, ("a", "b", "c"))) (fmt := fun s : String => s ++ "!")
  have h1 := h.step (s' := ⟨.called 0 ("a", "b", "c"), [], [], .join⟩) (.call rfl rfl)
  have h2 := h1.step (s' := ⟨.reported ("a", "b", "c"), [0], [], .join⟩) (by
    have h := Step.report (job := some (0, ("a", "b", "c"))) (fmt := fun s : String => s ++ "!") (s := ⟨.called 0 ("a", "b", "c"), [], [], .join⟩) rfl
    exact h)
  have h3 := h2.step (s' := ⟨.dead, [0], [("a", "b", "c")], .join⟩) (.put rfl)
  have h4 := h3.step (s' := ⟨.dead, [0], [("a", "b", "c")], .getRv⟩) (.joined rfl rfl)
  have h5 := h4.step (s' := ⟨.dead, [], [("a", "b", "c")], .getOut⟩) (by
    have h := Step.rv (job := some (0, ("a", "b", "c"))) (fmt := fun s : String => s ++ "!") (s := ⟨.dead, [0], [("a", "b", "c")], .getRv⟩) rfl rfl
    exact h)
  have h6 := h5.step (s' := ⟨.dead, [], [], .returned ("a!", "b", "c!")⟩) (Step.out (o := ("a", "b", "c")) (q := []) rfl rfl)
  exact h6

end LibraryCall
end SecDec
