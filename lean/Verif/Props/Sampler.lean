import Verif.Proof.SamplerThreads
import Verif.Proof.SamplerLoop
import Verif.Proof.SamplerMedian
/-
C68: the sampling of the quasi-Monte Carlo integrator.
-/
namespace SecDec
namespace Sampler

/-! ### The work packages -/

/-- C68: each point of the lattice is in exactly one work package, whatever the size of the packages. -/
theorem C68_packages (maxnperpackage n : ℕ) (hn : 0 < n) (hmax : 0 < maxnperpackage) :
    ((List.range (totalPackages maxnperpackage n)).flatMap (offsets (totalPackages maxnperpackage n) n)).Perm (List.range n) ∧
    ∀ i < totalPackages maxnperpackage n, (offsets (totalPackages maxnperpackage n) n i).length ≤ maxnperpackage :=
  ⟨offsets_perm _ _ (totalPackages_pos _ _ hn hmax), fun i hi => package_length maxnperpackage n i hn hmax hi⟩

/-- C68: with batching the array of points is filled completely, without a write behind its end, by the points of the package in their order. -/
theorem C68_batching (packages n i : ℕ) (hi : i < packages) : batchRows packages n i = some ((offsets packages n i).map some) :=
  batchRows_eq packages n i hi

/-- `2` packages for `5` points. -/
example : totalPackages 3 5 = 2 ∧ offsets 2 5 0 = [0, 2, 4] ∧ offsets 2 5 1 = [1, 3] := by
  refine ⟨by decide, ?_, ?_⟩
  · simp [offsets.eq_def]
  · simp [offsets.eq_def]

/-! ### The threads -/

/-- C68: for every number of threads and devices and every schedule: when all threads have ended, the entries of a shift add up to the sum of the
integrand over the lattice. -/
theorem C68_threads (J : Job) (hP : 0 < J.packages) (hT : 0 < J.threads) (r : ℕ → ℂ) (h : Outcome J r) (k : ℕ) (hk : k < J.m) :
    ∑ j ∈ Finset.range J.threads, r (k * J.threads + j) = ∑ o ∈ Finset.range J.n, J.val k o := by
  obtain ⟨work, s, hw, hs, hd, rfl⟩ := h
  exact threads_sum J hP hT work hw s hs hd k hk

/-- C68: the threads end: there is no infinite run, and as long as a thread has not ended some thread can make a step. -/
theorem C68_threads_end (J : Job) (work : Fin J.threads → ℕ) (hw : ∀ j, 0 < work j) :
    (¬ ∃ run : ℕ → State J.threads, run 0 = J.init work ∧ ∀ t, Step J (run t) (run (t + 1))) ∧
    ∀ s, Relation.ReflTransGen (Step J) (J.init work) s → (∃ j, s.thread j ≠ .done) → ∃ s', Step J s s' :=
  ⟨no_infinite J work hw, fun s _ => progress J s⟩

/-- C68: the computation without threads gives the same sums. -/
theorem C68_serial (J : Job) (hP : 0 < J.packages) (hT : J.threads = 1) (k : ℕ) (hk : k < J.m) :
    J.serial k = ∑ o ∈ Finset.range J.n, J.val k o := serial_sum J hP hT k hk

/-- Every job has an outcome. -/
theorem outcome_exists (J : Job) : ∃ r, Outcome J r := by
  have hw : ∀ j : Fin J.threads, 0 < (fun _ => 1 : Fin J.threads → ℕ) j := fun _ => one_pos
  by_contra hh
  have step : ∀ s : {s : State J.threads // Relation.ReflTransGen (Step J) (J.init fun _ => 1) s}, ∃ s', Step J s.1 s' := by
    rintro ⟨s, hs⟩
    refine progress J s ?_
    by_contra hd
    push Not at hd
    exact hh ⟨s.r, fun _ => 1, s, hw, hs, hd, rfl⟩
  choose nxt hnxt using step
  let run : ℕ → {s : State J.threads // Relation.ReflTransGen (Step J) (J.init fun _ => 1) s} :=
    fun t => Nat.rec ⟨_, .refl⟩ (fun _ s => ⟨nxt s, s.2.tail (hnxt s)⟩) t
  exact no_infinite J (fun _ => 1) hw ⟨fun t => (run t).1, rfl, fun t => hnxt (run t)⟩

/-- Three threads, two shifts, five points in two packages: the outcome for the integrand `k + o`. -/
example : ∃ r : ℕ → ℂ, Outcome ⟨3, 2, 5, 2, fun k o => (k + o : ℕ)⟩ r ∧ r 3 + r 4 + r 5 = 15 := by
  obtain ⟨r, hr⟩ := outcome_exists ⟨3, 2, 5, 2, fun k o => ((k + o : ℕ) : ℂ)⟩
  refine ⟨r, hr, ?_⟩
  have := C68_threads _ (by decide) (by decide) r hr 1 (by decide)
  simp only [Finset.sum_range_succ, Finset.sum_range_zero] at this
  norm_num at this ⊢
  exact this

/-! ### The estimate -/

/-- The job of the iteration `it` of `sample`: shift number `it * maxmperpackage + k` of `m` shifts. -/
def iterationJob (threads maxnperpackage maxmperpackage n m it : ℕ) (val : ℕ → ℕ → ℂ) : Job :=
  ⟨threads, shiftsOf m maxmperpackage it, n, totalPackages maxnperpackage n, fun k o => val (it * maxmperpackage + k) o⟩

theorem outcome_sum (T maxn maxm n m it : ℕ) (hT : 0 < T) (hmax : 0 < maxn) (hn : 0 < n) (val : ℕ → ℕ → ℂ) (r : ℕ → ℂ)
    (h : Outcome (iterationJob T maxn maxm n m it val) r) (k : ℕ) (hk : k < shiftsOf m maxm it) :
    ∑ j ∈ Finset.range T, r (k * T + j) = ∑ o ∈ Finset.range n, val (it * maxm + k) o :=
  C68_threads (iterationJob T maxn maxm n m it val) (totalPackages_pos _ _ hn hmax) hT r h k hk

/-- C68: one call of `sample` for a lattice size without earlier results: the estimate from all `m` shifts, one average over the lattice for each,
whatever the schedules of the threads, the sizes of the packages and the number of shifts for each package. -/
theorem C68_sample (T maxn maxm n m : ℕ) (hT : 0 < T) (hmax : 0 < maxn) (hn : 0 < n) (hm : 2 ≤ m) (hM : 2 ≤ maxm) (val : ℕ → ℕ → ℂ)
    (rs : ℕ → ℕ → ℂ) (hrs : ∀ it, Outcome (iterationJob T maxn maxm n m it val) (rs it)) (previous : List Result)
    (hp : ∀ p ∈ previous.head?, p.n ≠ n) :
    ∃ res previous', sample T rs n m maxm previous = (some res, previous') ∧ IsEstimate res ((List.range m).map fun k => average n (val k)) ∧
      res.n = n ∧ res.evaluations = n * m + previous.head?.elim 0 Result.evaluations := by
  obtain ⟨out, prev', h1, h2, h3, -, h5⟩ := sample_spec T rs n m maxm hn (by omega) hM (fun k => ∑ o ∈ Finset.range n, val k o)
    (fun it k hk => outcome_sum T maxn maxm n m it hT hmax hn val (rs it) (hrs it) k hk) previous [] _ ⟨rfl, .inl ⟨rfl, hp⟩⟩ (.inr hm)
  rw [List.nil_append] at h2 h5
  refine ⟨out, prev', h1, ?_, h2.size, h3⟩
  have := estimate_of_holds out n hn _ h5 h2
  rwa [List.map_map] at this

/-- C68: a second call with the same lattice size: the estimate from all shifts of both calls together. -/
theorem C68_more_shifts (T maxn maxm n m m' : ℕ) (hT : 0 < T) (hmax : 0 < maxn) (hn : 0 < n) (hm : 2 ≤ m) (hm' : 0 < m') (hM : 2 ≤ maxm)
    (val val' : ℕ → ℕ → ℂ) (rs rs' : ℕ → ℕ → ℂ) (hrs : ∀ it, Outcome (iterationJob T maxn maxm n m it val) (rs it))
    (hrs' : ∀ it, Outcome (iterationJob T maxn maxm n m' it val') (rs' it)) (previous : List Result)
    (hp : ∀ p ∈ previous.head?, p.n ≠ n) :
    ∃ res previous', sample T rs' n m' maxm (sample T rs n m maxm previous).2 = (some res, previous') ∧
      IsEstimate res (((List.range m).map fun k => average n (val k)) ++ (List.range m').map fun k => average n (val' k)) ∧
      res.evaluations = n * (m + m') + previous.head?.elim 0 Result.evaluations := by
  obtain ⟨out, prev', h1, -, -, h4, h5⟩ := sample_spec T rs n m maxm hn (by omega) hM (fun k => ∑ o ∈ Finset.range n, val k o)
    (fun it k hk => outcome_sum T maxn maxm n m it hT hmax hn val (rs it) (hrs it) k hk) previous [] _ ⟨rfl, .inl ⟨rfl, hp⟩⟩ (.inr hm)
  rw [h1]
  obtain ⟨out2, prev2, k1, k2, k3, -, k5⟩ := sample_spec T rs' n m' maxm hn hm' hM (fun k => ∑ o ∈ Finset.range n, val' k o)
    (fun it k hk => outcome_sum T maxn maxm n m' it hT hmax hn val' (rs' it) (hrs' it) k hk) prev' _ _ h4
    (.inl (by intro h; rw [h] at h5; simp at h5))
  refine ⟨out2, prev2, k1, ?_, by rw [k3]; ring⟩
  have := estimate_of_holds out2 n hn _ k5 k2
  rw [List.nil_append, List.map_append, List.map_map, List.map_map] at this
  exact this

/-- Two shifts with the averages `1` and `3`: the mean is `2`, the standard error is `1`. -/
example (res : Result) (h : IsEstimate res [1, 3]) : res.integral = 2 ∧ res.error = 1 ∧ res.m = 2 := by
  have e1 := h.re
  have e2 := h.im
  have e3 := h.errorRe
  have e4 := h.errorIm
  norm_num [mean, meanVariance] at e1 e2 e3 e4
  exact ⟨Complex.ext (by simpa using e1) (by simpa using e2), Complex.ext (by simpa using e3) (by simpa using e4), h.count⟩

/-! ### The integrator -/

/-- C68: `integrate` ends after at most `maxeval + 1` calls of `sample`, for every integrand, every choice of the random numbers and every schedule.
Either the exception for large lattices is raised, which needs a lattice size beyond the limit, an empty table, or median lattices; or the result
fulfils the error goal or has used `maxeval` evaluations.  The result is the estimate (mean and standard error) from the averages over all shifts
of a sequence of calls for its lattice size: at least two. -/
theorem C68_integrate (O : Options) (T maxn : ℕ) (hT : 0 < T) (hmax : 0 < maxn) (hminm : 2 ≤ O.minm) (hmaxm : 2 ≤ O.maxmperpackage)
    (hminn : 0 < O.minn) (hsizes : ∀ t ∈ O.sizes, 0 < t) (habs : 0 < O.epsabs) (hrel : 0 ≤ O.epsrel)
    (val : ℕ → ℕ → ℕ → ℕ → ℂ) (rs : ℕ → ℕ → ℕ → ℕ → ℕ → ℂ)
    (hrs : ∀ call n m it, Outcome (iterationJob T maxn O.maxmperpackage n m it (val call n)) (rs call n m it)) (fuel : ℕ) (hfuel : O.maxeval < fuel) :
    (integrate O T rs fuel = some none ∧ (O.sizes = ∅ ∨ (∃ t ∈ O.sizes, O.limit ≤ t) ∨ 0 < O.latticecandidates)) ∨
    ∃ res, integrate O T rs fuel = some (some res) ∧ (Reached O res ∨ O.maxeval ≤ res.evaluations) ∧ 0 < res.n ∧
      (res.n ∈ O.sizes ∨ 0 < O.latticecandidates) ∧
      ∃ calls : List (ℕ × ℕ), (calls.map Prod.fst).Pairwise (· < ·) ∧ 2 ≤ (calls.map Prod.snd).sum ∧
        IsEstimate res (calls.flatMap fun c => (List.range c.2).map fun k => average res.n (val c.1 res.n k)) := by
  unfold integrate
  cases hg : getNextN O O.minn with
  | none => exact .inl ⟨rfl, getNextN_none O _ hg⟩
  | some n =>
    dsimp only
    obtain ⟨hv, -, hq⟩ := getNextN_valid O _ n hg
    have hn : 0 < n := by
      rcases hq with ⟨h, -⟩ | rfl | h
      · exact hsizes n h
      · exact hminn
      · rcases hv with h | ⟨-, h⟩
        · exact hsizes n h
        · by_contra h0
          have : n = 0 := by omega
          subst this
          rcases Finset.eq_empty_or_nonempty O.sizes with he | ⟨t, ht⟩
          · rw [getNextN] at hg
            have hc : O.latticecandidates = 0 ∨ 0 < O.latticecandidates := Nat.eq_zero_or_pos _
            rcases hc with hc | hc
            · simp [he, hc] at hg
            · simp [he, hc] at hg
              omega
          · exact absurd (h t ht) (by omega)
    rcases integrateLoop_spec O T rs (fun call n k => ∑ o ∈ Finset.range n, val call n k o) hmaxm hminm
      (fun call n m it k hn hk => outcome_sum T maxn O.maxmperpackage n m it hT hmax hn (val call n) (rs call n m it) (hrs call n m it) k hk) fuel 0 n O.minm [] [] 0 hn hv (by omega) ⟨rfl, .inl ⟨rfl, by simp⟩⟩ (.inr hminm) (by simp) (by simp) (by omega) (by omega) with h | h
    · exact .inl ⟨h.1, by obtain ⟨p, hp⟩ := h.2; exact getNextN_none O p hp⟩
    · obtain ⟨res, h1, h2, h3, h4, calls, h5, -, h7, h8⟩ := h
      have hest := estimate_of_holds res res.n h3 _ h7 h8
      refine .inr ⟨res, h1, ?_, h3, h4.imp id And.left, calls, h5, ?_, ?_⟩
      · refine h2.imp (fun h => (reached_iff O habs hrel res ?_ ?_).1 h) id
        · rw [hest.errorRe]; exact Real.sqrt_nonneg _
        · rw [hest.errorIm]; exact Real.sqrt_nonneg _
      · have : ∀ l : List (ℕ × ℕ), (values (fun call n k => ∑ o ∈ Finset.range n, val call n k o) res.n l).length = (l.map Prod.snd).sum := by
          intro l
          simp [values, List.length_flatMap]
        rw [← this]; exact h7
      · rw [values, List.map_flatMap] at hest
        simp only [List.map_map] at hest
        exact hest

/-- C68: with tabulated lattices only, all below the limit, there is no exception. -/
theorem C68_no_exception (O : Options) (T maxn : ℕ) (hT : 0 < T) (hmax : 0 < maxn) (hminm : 2 ≤ O.minm) (hmaxm : 2 ≤ O.maxmperpackage)
    (hminn : 0 < O.minn) (hsizes : ∀ t ∈ O.sizes, 0 < t ∧ t < O.limit) (hne : O.sizes.Nonempty) (hc : O.latticecandidates = 0)
    (habs : 0 < O.epsabs) (hrel : 0 ≤ O.epsrel) (val : ℕ → ℕ → ℕ → ℕ → ℂ) (rs : ℕ → ℕ → ℕ → ℕ → ℕ → ℂ)
    (hrs : ∀ call n m it, Outcome (iterationJob T maxn O.maxmperpackage n m it (val call n)) (rs call n m it)) :
    ∃ res, integrate O T rs (O.maxeval + 1) = some (some res) ∧ (Reached O res ∨ O.maxeval ≤ res.evaluations) ∧ res.n ∈ O.sizes := by
  rcases C68_integrate O T maxn hT hmax hminm hmaxm hminn (fun t ht => (hsizes t ht).1) habs hrel val rs hrs (O.maxeval + 1) (by omega) with h | h
  · exfalso
    rcases h.2 with h | ⟨t, ht, h⟩ | h
    · exact hne.ne_empty h
    · exact absurd (hsizes t ht).2 (by omega)
    · omega
  · obtain ⟨res, h1, h2, -, h3, -⟩ := h
    exact ⟨res, h1, h2, h3.resolve_right (by omega)⟩

/-- The hypotheses are met: two lattices, three threads, any integrand. -/
example (val : ℕ → ℕ → ℕ → ℕ → ℂ) : ∃ rs res, integrate ⟨3, 4, 2, 100, 0.01, 1e-7, false, {5, 7}, 0, 1000⟩ 3 rs 101 = some (some res) := by
  have h : ∀ call n m it, ∃ r, Outcome (iterationJob 3 2 2 n m it (val call n)) r := fun _ _ _ _ => outcome_exists _
  choose rs hrs using h
  obtain ⟨res, h, -⟩ := C68_no_exception ⟨3, 4, 2, 100, 0.01, 1e-7, false, {5, 7}, 0, 1000⟩ 3 2 (by norm_num) (by norm_num) (by norm_num) (by norm_num)
    (by norm_num) (by simp) ⟨5, by simp⟩ rfl (by norm_num) (by norm_num) val rs hrs
  exact ⟨rs, res, h⟩

/-! ### The median lattice rule -/

/-- C68: of an odd number of candidates one is chosen; at least half of the values are not above its value and at least half are not below. -/
theorem C68_median (results : List ℝ) (hodd : results.length % 2 = 1) :
    ∃ i, ∃ h : i < results.length, medianIndex results = some i ∧
      results.length < 2 * results.countP (fun v => decide (v ≤ results[i])) ∧
      results.length < 2 * results.countP (fun v => decide (results[i] ≤ v)) := median_spec results hodd

example : ∃ i, medianIndex [3, 1, 2] = some i := by
  obtain ⟨i, -, h, -⟩ := C68_median [3, 1, 2] (by decide)
  exact ⟨i, h⟩

end Sampler
end SecDec
