import Verif.Proof.Formset

/-!
# C54: FORM's memory settings

`make_package(form_memory_use=...)` and the tool `formset`.
-/

namespace SecDec.Formset

/-! ## `Setup.calc` -/

/-- The settings after `calc` satisfy all of FORM's constraints, whatever they were before. -/
theorem C54_calc_consistent (s : Setup) (hL : 0 ≤ s.largesize) : s.calc.2.Consistent :=
  (consistent_iff _).2 (adjust_ok s hL)

/-- Settings that satisfy the constraints are not changed. -/
theorem C54_calc_keeps (s : Setup) (h : s.Consistent) : s.calc.2 = s :=
  adjust_fix ((consistent_iff _).1 h)

/-- `calc` may be called again: neither the settings nor the estimate changes. (The settings returned by `scale` have been through `calc`,
and `make_package` and `formset` call it again to get the estimate.) -/
theorem C54_calc_idempotent (s : Setup) (hL : 0 ≤ s.largesize) : s.calc.2.calc = s.calc := by
  have h := C54_calc_keeps _ (C54_calc_consistent s hL)
  have e : s.calc.2.adjust = s.calc.2 := h
  show (s.calc.2.adjust.masterMemory + s.calc.2.adjust.threadMemory, s.calc.2.adjust) = s.calc
  rw [e]; rfl

/-- `calc` never makes a setting smaller. -/
theorem C54_calc_enlarges (s : Setup) (hL : 0 ≤ s.largesize) :
    s.maxtermsize ≤ s.calc.2.maxtermsize ∧ s.compresssize ≤ s.calc.2.compresssize ∧ s.sortiosize ≤ s.calc.2.sortiosize ∧
    s.scratchsize ≤ s.calc.2.scratchsize ∧ s.hidesize ≤ s.calc.2.hidesize ∧ s.threadscratchsize ≤ s.calc.2.threadscratchsize ∧
    s.threadscratchoutsize ≤ s.calc.2.threadscratchoutsize ∧ s.filepatches ≤ s.calc.2.filepatches ∧
    s.termsinsmall ≤ s.calc.2.termsinsmall ∧ s.smallsize ≤ s.calc.2.smallsize ∧ s.smallextension ≤ s.calc.2.smallextension ∧
    s.largesize ≤ s.calc.2.largesize ∧ s.calc.2.workspace = s.workspace ∧ s.calc.2.threads = s.threads := by
  obtain ⟨⟨a1, a2, a3, a4, a5, a6, a7, a8, a9, a10, a11, a12⟩, ⟨b1, b2, _⟩⟩ := adjust_grow s hL
  exact ⟨a1, a2, a3, a4, a5, a6, a7, a8, a9, a10, a11, a12, b1, b2⟩

/-- Non-trivial case: a maximal size of a term which requires larger buffers, with eight threads. -/
example : let s : Setup := { Setup.v420 with maxtermsize := 400000, threads := 8 }
    s.calc.2.largesize = 1272800000 ∧ s.calc.2.smallsize = 25600000 ∧ s.calc.2.sortiosize = 1600000 := by decide

/-! ## `Setup.scale` -/

theorem scale_eq (mul : ℤ → ℚ → ℤ) (s : Setup) (total : ℤ) (lowest : ℚ) (human : Bool) :
    s.scale mul total lowest human = if 0 ≤ -(total - (s.resized mul lowest).usage human) then some (s.resized mul lowest).calc.2 else
      (scaleLoop (fun x => -(total - (s.resized mul x).usage human)) 50
        { x1 := 1, x2 := none, y1 := -(total - (s.resized mul 1).usage human), y2 := none }).map (fun b => (s.resized mul b.x1).calc.2) := rfl

/-- The usage of settings that have been through `calc`. -/
theorem usage_calc (human : Bool) (s : Setup) (hL : 0 ≤ s.largesize) : s.calc.2.usage human = s.usage human := by
  unfold Setup.usage
  rw [C54_calc_idempotent s hL]

/-- If the settings with the lowest scale do not use less than the given memory, then these are returned. -/
theorem C54_scale_lowest (mul : ℤ → ℚ → ℤ) (s : Setup) (total : ℤ) (lowest : ℚ) (human : Bool)
    (h : total ≤ (s.resized mul lowest).usage human) :
    s.scale mul total lowest human = some (s.resized mul lowest).calc.2 := by
  rw [scale_eq, if_pos (by omega)]

/-- If the settings with the lowest scale use less than the given memory, `scale` succeeds (no assertion fails, although the memory
usage need not grow with the scale), and returns resized settings which do not use more than the given memory; they are the
largest possible up to the precision of the search: a slightly larger scale uses at least the given memory (or the settings were enlarged by a
factor of a thousand billions and still fit). -/
theorem C54_scale_fits (mul : ℤ → ℚ → ℤ) (hmul : ∀ n x, 0 ≤ n → 0 ≤ x → 0 ≤ mul n x) (s : Setup) (hL : 0 ≤ s.largesize)
    (total : ℤ) (lowest : ℚ) (human : Bool)
    (hlow : lowest = 1 ∨ ∀ n ∈ [s.smallsize, s.largesize, s.termsinsmall, s.scratchsize], mul n ((1 / 2) ^ 50) = mul n lowest)
    (h : (s.resized mul lowest).usage human < total) :
    ∃ x : ℚ, 0 < x ∧ s.scale mul total lowest human = some (s.resized mul x).calc.2 ∧
      (s.resized mul x).calc.2.Consistent ∧ (s.resized mul x).calc.2.usage human ≤ total ∧
      (x = 2 ^ 50 ∨ ∃ x' > x, x' - x ≤ max 1 (x ^ 2) / 2 ^ 48 ∧ total ≤ (s.resized mul x').usage human) := by
  have hf : (fun x => -(total - (s.resized mul x).usage human)) ((1 / 2) ^ 50) < 0 ∨ (fun x => -(total - (s.resized mul x).usage human)) 1 < 0 := by
    rcases hlow with e | e
    · right; rw [e] at h; beta_reduce; omega
    · left
      have : s.resized mul ((1 / 2) ^ 50) = s.resized mul lowest := by
        unfold Setup.resized
        rw [e s.largesize (by simp), e s.scratchsize (by simp), e s.smallsize (by simp), e s.termsinsmall (by simp)]
      beta_reduce
      rw [this]; omega
  obtain ⟨b, e, h1, h2, h3⟩ := search_ok (fun x => -(total - (s.resized mul x).usage human)) hf
  refine ⟨b.x1, h2, ?_, C54_calc_consistent _ (hmul _ _ hL h2.le), ?_, ?_⟩
  · rw [scale_eq, if_neg (by clear hf e; omega)]
    beta_reduce at e
    rw [e]
    rfl
  · rw [usage_calc human _ (hmul _ _ hL h2.le)]
    beta_reduce at h1
    omega
  · rcases h3 with h3 | ⟨h3, v, hv1, hv2, hv3⟩
    · exact Or.inl h3
    · exact Or.inr ⟨v, hv2, hv3, by beta_reduce at hv1; omega⟩

/-- The product rounded down. -/
def floorMul (n : ℤ) (x : ℚ) : ℤ := ⌊(n : ℚ) * x⌋

theorem floorMul_nonneg : ∀ n x, 0 ≤ n → 0 ≤ x → 0 ≤ floorMul n x := by
  intro n x hn hx
  apply Int.floor_nonneg.2
  have : (0 : ℚ) ≤ n := by exact_mod_cast hn
  positivity

/-- Non-trivial case: the default settings of FORM 4.2.1, four threads, eight gigabytes. -/
example : ∃ x : ℚ, 0 < x ∧ ({ Setup.v421 with threads := 4 } : Setup).scale floorMul 8000000000 0 false
      = some (({ Setup.v421 with threads := 4 } : Setup).resized floorMul x).calc.2 ∧
    (({ Setup.v421 with threads := 4 } : Setup).resized floorMul x).calc.2.usage false ≤ 8000000000 := by
  obtain ⟨x, h0, h1, _, h2, _⟩ := C54_scale_fits floorMul floorMul_nonneg { Setup.v421 with threads := 4 } (by decide) 8000000000 0 false
    (Or.inr (by
      have : ∀ n : ℤ, 0 ≤ n → n < 2 ^ 50 → floorMul n ((1 / 2) ^ 50) = floorMul n 0 := by
        intro n h1 h2
        unfold floorMul
        rw [mul_zero, Int.floor_zero, Int.floor_eq_zero_iff, Set.mem_Ico]
        have h1' : (0 : ℚ) ≤ n := by exact_mod_cast h1
        have h2' : (n : ℚ) < 2 ^ 50 := by exact_mod_cast h2
        constructor
        · positivity
        · rw [one_div, inv_pow, ← div_eq_mul_inv, div_lt_one (by positivity)]; exact h2'
      intro n hn
      simp only [List.mem_cons, List.not_mem_nil, or_false] at hn
      rcases hn with rfl | rfl | rfl | rfl <;> exact this _ (by decide) (by decide)))
    (by
      have e : ({ Setup.v421 with threads := 4 } : Setup).resized floorMul 0
          = { Setup.v421 with threads := 4, largesize := 0, scratchsize := 0, smallsize := 0, termsinsmall := 0 } := by
        unfold Setup.resized floorMul
        simp only [mul_zero, Int.floor_zero]
        rfl
      rw [e]; decide)
  exact ⟨x, h0, h1, h2⟩

/-! ## `form_memory_use` -/

/-- Without `form_memory_use`, the default values of FORM 4.2.0 are used. With it, `make_package` obtains settings that do not use more memory (and the
estimate is the one of these settings), or, if the default settings use as much or more, the default settings (made consistent):
then the warning with their estimated usage is printed. -/
theorem C54_package_memory (mul : ℤ → ℚ → ℤ) (hmul : ∀ n x, 0 ≤ n → 0 ≤ x → 0 ≤ mul n x) (hone : ∀ n, mul n 1 = n)
    (workspace threads m : ℤ) :
    packageSetup mul workspace threads none = some ({ Setup.v420 with workspace := workspace, threads := threads }, none) ∧
    ∃ r mem, packageSetup mul workspace threads (some m) = some (r, some mem) ∧ r.Consistent ∧ mem = r.calc.1 ∧ r.threads = threads ∧
      workspace ≤ r.workspace ∧
      (mem ≤ m ∨ r = ({ Setup.v420 with workspace := max workspace 10000000, threads := threads } : Setup).calc.2) := by
  refine ⟨rfl, ?_⟩
  have e1 : ({ Setup.v420 with workspace := workspace, threads := threads } : Setup).resized mul 1
      = { Setup.v420 with workspace := max workspace 10000000, threads := threads } := by
    unfold Setup.resized
    simp only [hone]
    rfl
  have key : ∀ x : ℚ, 0 ≤ x → ∀ sp, sp = (({ Setup.v420 with workspace := workspace, threads := threads } : Setup).resized mul x).calc.2 →
      sp.Consistent ∧ sp.calc.2 = sp ∧ sp.threads = threads ∧ workspace ≤ sp.workspace := by
    rintro x hx sp rfl
    have h0 : 0 ≤ (({ Setup.v420 with workspace := workspace, threads := threads } : Setup).resized mul x).largesize := hmul _ _ (by show (0 : ℤ) ≤ 50000000; decide) hx
    have hc := C54_calc_consistent _ h0
    obtain ⟨_, ⟨b1, b2, _⟩⟩ := adjust_grow _ h0
    refine ⟨hc, C54_calc_keeps _ hc, b2, ?_⟩
    have : (({ Setup.v420 with workspace := workspace, threads := threads } : Setup).resized mul x).calc.2.workspace
      = max workspace (40000 * 250) := b1
    rw [this]; exact le_max_left _ _
  rcases le_or_gt m ((({ Setup.v420 with workspace := workspace, threads := threads } : Setup).resized mul 1).usage false) with h | h
  · have hs := C54_scale_lowest mul _ m 1 false h
    obtain ⟨k1, k2, k3, k4⟩ := key 1 (by norm_num) _ rfl
    refine ⟨_, _, by unfold packageSetup; dsimp only; rw [hs]; rfl, ?_⟩
    rw [k2]
    refine ⟨k1, rfl, k3, k4, Or.inr ?_⟩
    rw [e1]
  · obtain ⟨x, hx, hs, _, hu, _⟩ := C54_scale_fits mul hmul _ (by show (0 : ℤ) ≤ 50000000; decide) m 1 false (Or.inl rfl) h
    obtain ⟨k1, k2, k3, k4⟩ := key x hx.le _ rfl
    refine ⟨_, _, by unfold packageSetup; dsimp only; rw [hs]; rfl, ?_⟩
    rw [k2]
    exact ⟨k1, rfl, k3, k4, Or.inl hu⟩

/-- Non-trivial case: three gigabytes suffice for one thread and the default work space. -/
example : ∃ r mem, packageSetup floorMul 50000000 1 (some 3000000000) = some (r, some mem) ∧ r.Consistent ∧ mem ≤ 3000000000 := by
  obtain ⟨_, r, mem, h1, h2, h3, _, _, h4 | h4⟩ := C54_package_memory floorMul floorMul_nonneg (fun n => by simp [floorMul]) 50000000 1 3000000000
  · exact ⟨r, mem, h1, h2, h4⟩
  · refine ⟨r, mem, h1, h2, ?_⟩
    rw [h3, h4]; decide

/-! ## the tool `formset` -/

/-- `formset` writes consistent settings only if they fit in the memory of the job; if the settings with the smallest buffers need less, it
succeeds. -/
theorem C54_main_fits (mul : ℤ → ℚ → ℤ) (hmul : ∀ n x, 0 ≤ n → 0 ≤ x → 0 ≤ mul n x) (s : Setup) (hL : 0 ≤ s.largesize)
    (memory : ℤ) (human : Bool)
    (hlow : ∀ n ∈ [s.smallsize, s.largesize, s.termsinsmall, s.scratchsize], mul n ((1 / 2) ^ 50) = mul n 0) :
    (∀ r, mainSetup mul s memory human = some r → r.Consistent ∧ r.calc.2 = r ∧ r.calc.1 ≤ memory) ∧
    ((s.resized mul 0).usage human < memory → ∃ r, mainSetup mul s memory human = some r) := by
  have hM : mainSetup mul s memory human = match s.scale mul memory 0 human with
      | none => none
      | some sp => if memory < sp.calc.1 then none else some sp.calc.2 := rfl
  rcases le_or_gt memory ((s.resized mul 0).usage human) with h | h
  · have hs := C54_scale_lowest mul s memory 0 human h
    have hc := C54_calc_consistent (s.resized mul 0) (hmul _ _ hL le_rfl)
    have hk := C54_calc_keeps _ hc
    refine ⟨?_, fun h' => absurd h' (not_lt.2 h)⟩
    intro r hr
    rw [hM, hs] at hr
    dsimp only at hr
    split_ifs at hr with a
    · simp only [Option.some.injEq] at hr
      rw [hk] at hr
      subst hr
      exact ⟨hc, hk, not_lt.1 a⟩
  · obtain ⟨x, hx, hs, hc, hu, _⟩ := C54_scale_fits mul hmul s hL memory 0 human (Or.inr hlow) h
    have hk := C54_calc_keeps _ hc
    have hu' : (s.resized mul x).calc.2.calc.1 ≤ memory := by
      cases human
      · exact hu
      · refine le_trans ?_ hu
        unfold Setup.usage
        rw [if_pos rfl, roundHumanReadable_eq]
        refine le_trans (Int.self_le_toNat _) ?_
        exact roundUp_le (digits_pos _) _
    have e : mainSetup mul s memory human = some (s.resized mul x).calc.2 := by
      rw [hM, hs]
      dsimp only
      rw [if_neg (not_lt.2 hu'), hk]
    refine ⟨?_, fun _ => ⟨_, e⟩⟩
    intro r hr
    rw [e, Option.some.injEq] at hr
    subst hr
    exact ⟨hc, hk, hu'⟩

/-- The jobs share the machine: if as many jobs as possible run at once, they use no more CPUs than there are and together
no more than the given percentage of the memory. -/
theorem C54_jobs_share (ncpus : Option ℤ) (totalCpus nodes totalMemory : ℤ) (percentage : ℚ) (hc : 1 ≤ totalCpus)
    (hm : 0 ≤ totalMemory) (hp : 0 ≤ percentage) :
    let cpus := jobCpus ncpus totalCpus nodes
    let jobs := totalCpus / cpus
    1 ≤ cpus ∧ 1 ≤ jobs ∧ jobs * cpus ≤ totalCpus ∧
      ((jobs * jobMemory totalMemory percentage cpus totalCpus : ℤ) : ℚ) ≤ totalMemory * percentage / 100 := by
  intro cpus jobs
  have h1 : 1 ≤ cpus := by
    show 1 ≤ jobCpus ncpus totalCpus nodes
    unfold jobCpus
    exact le_min (le_max_right _ _) hc
  have h2 : cpus ≤ totalCpus := min_le_right _ _
  have h3 : jobs * cpus ≤ totalCpus := Int.ediv_mul_le _ (by omega)
  have h4 : 1 ≤ jobs := by
    show 1 ≤ totalCpus / cpus
    rw [Int.le_ediv_iff_mul_le (by omega)]; omega
  refine ⟨h1, h4, h3, ?_⟩
  have hT : (0 : ℚ) < totalCpus := by exact_mod_cast (by omega : 0 < totalCpus)
  have hm' : (0 : ℚ) ≤ totalMemory := by exact_mod_cast hm
  have hc' : (0 : ℚ) ≤ cpus := by exact_mod_cast (by omega : 0 ≤ cpus)
  have hj' : (0 : ℚ) ≤ jobs := by exact_mod_cast (by omega : 0 ≤ jobs)
  have hv : (0 : ℚ) ≤ totalMemory * percentage / 100 * cpus / totalCpus := by positivity
  unfold jobMemory
  dsimp only
  rw [if_pos hv, Int.cast_mul]
  have hfl := Int.floor_le ((totalMemory : ℚ) * percentage / 100 * cpus / totalCpus)
  refine (mul_le_mul_of_nonneg_left hfl hj').trans ?_
  have h3' : (jobs : ℚ) * cpus ≤ totalCpus := by exact_mod_cast h3
  have e : (jobs : ℚ) * (totalMemory * percentage / 100 * cpus / totalCpus) = (totalMemory * percentage / 100) * ((jobs * cpus) / totalCpus) := by ring
  rw [e]
  have hq : (0 : ℚ) ≤ totalMemory * percentage / 100 := by positivity
  exact mul_le_of_le_one_right hq ((div_le_one hT).2 h3')

example : jobCpus (some 6) 16 2 = 6 ∧ jobCpus none 16 2 = 8 ∧ jobCpus (some (-99999)) 16 2 = 16 := by decide

/-! ## numbers with a suffix -/

/-- `round_human_readable` returns a number of three digits times a power of ten which is at least (at most, rounding down) the given one
and differs from it by less than one percent; the text written denotes it. -/
theorem C54_readable_number (x : ℕ) (hx : 100 ≤ x) (up : Bool) :
    (∃ (k : ℤ) (e : ℕ), roundHumanReadable x up = k * 10 ^ e ∧ 100 ≤ k ∧ k ≤ 1000) ∧
    (up = true → x ≤ roundHumanReadable x up ∧ 100 * (roundHumanReadable x up - x) < x) ∧
    (up = false → roundHumanReadable x up ≤ x ∧ 100 * (x - roundHumanReadable x up) < x) ∧
    (roundHumanText x up).1 * metricPrefix (roundHumanText x up).2 = roundHumanReadable x up := by
  rw [roundHumanReadable_eq]
  have hp := digits_pos x
  have hl := digits_le hx
  have hlt : (x : ℤ) < 1000 * 10 ^ (Nat.log 10 x - 2) := by
    have h1 : x < 10 ^ (Nat.log 10 x + 1) := Nat.lt_pow_succ_log_self (by norm_num) x
    have h2 : 2 ≤ Nat.log 10 x := Nat.le_log_of_pow_le (by norm_num) (by norm_num; exact hx)
    have h3 : 1000 * 10 ^ (Nat.log 10 x - 2) = 10 ^ (Nat.log 10 x + 1) := by
      rw [show (1000 : ℕ) = 10 ^ 3 by norm_num, ← pow_add]; congr 1; omega
    rw [← h3] at h1
    exact_mod_cast h1
  refine ⟨?_, ?_, ?_, humanReadable_value up _⟩
  · cases up
    · refine ⟨(x : ℤ) / 10 ^ (Nat.log 10 x - 2), _, rfl, ?_, ?_⟩
      · rw [Int.le_ediv_iff_mul_le hp]; linarith
      · have := Int.ediv_lt_of_lt_mul hp hlt; omega
    · refine ⟨((x : ℤ) + (10 ^ (Nat.log 10 x - 2) - 1)) / 10 ^ (Nat.log 10 x - 2), _, rfl, ?_, ?_⟩
      · rw [Int.le_ediv_iff_mul_le hp]; linarith
      · have : ((x : ℤ) + (10 ^ (Nat.log 10 x - 2) - 1)) / 10 ^ (Nat.log 10 x - 2) < 1001 :=
          Int.ediv_lt_of_lt_mul hp (by linarith)
        omega
  · rintro rfl
    have h1 := roundUp_le hp x
    have h2 := roundUp_lt hp x
    refine ⟨h1, ?_⟩
    show 100 * (roundUp x (10 ^ (Nat.log 10 x - 2)) - x) < (x : ℤ)
    linarith
  · rintro rfl
    have h1 := roundDown_le hp x
    have h2 := lt_roundDown hp x
    refine ⟨h1, ?_⟩
    show 100 * ((x : ℤ) - roundDown x (10 ^ (Nat.log 10 x - 2))) < (x : ℤ)
    linarith

example : roundHumanReadable 123456 true = 124000 ∧ roundHumanText 123456 true = (124, some 'K') ∧ roundHumanText 123456 false = (123, some 'K') := by
  have h : Nat.log 10 123456 = 5 := Nat.log_eq_of_pow_le_of_lt_pow (by norm_num) (by norm_num)
  unfold roundHumanReadable roundHumanText roundDigits
  rw [h]; decide

end SecDec.Formset
