import Verif.Proof.QmcStat
import Mathlib.MeasureTheory.Integral.IntervalIntegral.Basic
import Mathlib.Analysis.SpecialFunctions.Integrals.Basic
/-
C42: the numerical integration kernels of the distributed evaluator; C43: the values and errors it reports for them.
-/
namespace SecDec
namespace Qmc
open MeasureTheory ProbabilityTheory Set

/-- C42, `mulmod`: it returns the product modulo `k` for every lattice size below `2^53`, in spite of the overflow of the 64-bit
products and of the rounding of the quotient. -/
theorem C42_mulmod (a b k : ℕ) (ha : a ≤ k) (hb : b ≤ k) (hk : k < 2^53) (hk0 : 0 < k) : mulmod a b k = a * b % k :=
  mulmod_eq a b k ha hb hk hk0

/-- A lattice size beyond the range in which the product fits into 64 bits. -/
example : mulmod 68719476766 68719476765 68719476767 = 68719476766 * 68719476765 % 68719476767 :=
  C42_mulmod _ _ _ (by norm_num) (by norm_num) (by norm_num) (by norm_num)

/-- The rounding is not the identity there: `2^53 + 1` is not representable. -/
example : rnd (2^53 + 1 : ℕ) ≠ ((2^53 + 1 : ℕ) : ℝ) := by
  intro h
  unfold rnd at h
  rw [if_neg (by positivity)] at h
  have habs : |((2^53 + 1 : ℕ) : ℝ)| = ((2^53 + 1 : ℕ) : ℝ) := abs_of_nonneg (by positivity)
  rw [habs, Int.log_natCast] at h
  have hl : Nat.log 2 (2^53+1) = 53 := Nat.log_eq_of_pow_le_of_lt_pow (by norm_num) (by norm_num)
  rw [hl] at h
  norm_num at h

/-- C42, integer powers: for every exponent but zero (for which the template recursion does not end) the binary powering
returns the power. -/
theorem C42_npow {R : Type*} [CommMonoid R] (x : R) (n : ℕ) (hn : 0 < n) : npow n x = some (x^n) := npow_eq x n hn

/-- C42, the CPU kernel over the whole lattice: its result is the sum of the weighted values of the integrand over all the points
of the shifted lattice, and it is NaN exactly if the integrand fails at one of them. -/
theorem C42_cpu {d : ℕ} (K : Kernel d) (hK : K.Valid) : K.cpu 0 K.lattice = K.latticeSum 0 K.lattice := cpu_whole hK

/-- C42, the CPU kernel over a range of the lattice: the same, provided that the integrand does not fail at the (at most three)
points after the range which share a vector with the last one. -/
theorem C42_cpu_range {d : ℕ} (K : Kernel d) (hK : K.Valid) (i1 i2 : ℕ) (h1 : i1 ≤ K.lattice)
    (hextra : ∀ i, i2 ≤ i → i < i2 + 3 → (K.term i).isSome) : K.cpu i1 i2 = K.latticeSum i1 i2 := by
  classical
  rw [cpu_eq hK h1]
  by_cases h : ∀ i ∈ Finset.Ico i1 i2, (K.term i).isSome
  · rw [if_pos]
    intro i hi hi2
    by_cases hlt : i < i2
    · exact h i (Finset.mem_Ico.2 ⟨hi, hlt⟩)
    · exact hextra i (by omega) (by omega)
  · rw [if_neg]
    · unfold Kernel.latticeSum osum
      rw [if_neg h]
    · intro hA
      exact h fun i hi => hA i (Finset.mem_Ico.1 hi).1 (Or.inl (Finset.mem_Ico.1 hi).2)

/-- C42, the CUDA worker: for every range of the lattice, cut into batches, blocks and threads and summed up by repeated
reductions in two buffers, the result is the same sum.  `bpb` is the number of elements of the buffer, `2^21` for complex results and
`2^22` for real ones. -/
theorem C42_cuda {d : ℕ} (K : Kernel d) (hK : K.Valid) (bpb : ℕ) (hb : 0 < bpb) (hd : 1024 ∣ bpb) (i1 i2 : ℕ) (h2 : i2 ≤ K.lattice) :
    K.cuda bpb hb i1 i2 = K.latticeSum i1 i2 := cuda_eq hK bpb hb hd h2

/-- The two workers agree. -/
theorem C42_workers_agree {d : ℕ} (K : Kernel d) (hK : K.Valid) : K.cuda (2^21) (by norm_num) 0 K.lattice = K.cpu 0 K.lattice := by
  rw [C42_cuda K hK _ _ (by norm_num) _ _ le_rfl, C42_cpu K hK]

/-- C42, splitting the lattice between several jobs: the sums of the parts add up to the sum of the whole. -/
theorem C42_split {d : ℕ} (K : Kernel d) (i1 i2 i3 : ℕ) (h1 : i1 ≤ i2) (h2 : i2 ≤ i3) :
    K.latticeSum i1 i3 = Kernel.nanAdd (K.latticeSum i1 i2) (K.latticeSum i2 i3) := osum_Ico h1 h2 _

/-- A lattice of 1021 points in two dimensions. -/
noncomputable def exampleKernel : Kernel 2 where
  lattice := 1021
  genvec := ![1, 306]
  shift := ![1/3, 1/7]
  transform := .korobov3
  body := fun x => some (x 0 * x 1)

example : exampleKernel.Valid where
  pos := by norm_num [exampleKernel]
  size := by norm_num [exampleKernel]
  genvec := by intro j; fin_cases j <;> norm_num [exampleKernel]
  shift0 := by intro j; fin_cases j <;> norm_num [exampleKernel]
  shift1 := by intro j; fin_cases j <;> norm_num [exampleKernel]

/-- C42, the transforms: for each of the twelve transforms, every dimension and every integrable function, the transformed integrand
has the same integral over the unit cube as the original one. -/
theorem C42_transform {d : ℕ} (T : Transform) (g : (Fin d → ℝ) → ℂ) (hg : IntegrableOn g (unitCube d)) :
    IntegrableOn (transformed T g) (unitCube d) ∧ ∫ x in unitCube d, transformed T g x = ∫ x in unitCube d, g x :=
  transformed_integral T g hg

/-- The transforms map the unit interval into itself, and the Korobov transforms keep the endpoints, where their weights vanish. -/
theorem C42_transform_range (T : Transform) (x : ℝ) (h0 : 0 ≤ x) (h1 : x ≤ 1) : 0 ≤ T.f x ∧ T.f x ≤ 1 ∧ 0 ≤ T.w x := by
  refine ⟨?_, ?_, w_nonneg T x h0 h1⟩
  · by_cases hT : T.isKorobov
    · rw [f_eq_hpoly T hT]
      exact ((hpoly_image T hT).le ⟨x, ⟨h0, h1⟩, rfl⟩).1
    · cases T
      · exact h0
      · show 0 ≤ (if 2*x < 2 - 2*x then 2*x else 2 - 2*x)
        split <;> linarith
      all_goals exact absurd trivial hT
  · by_cases hT : T.isKorobov
    · rw [f_eq_hpoly T hT]
      exact ((hpoly_image T hT).le ⟨x, ⟨h0, h1⟩, rfl⟩).2
    · cases T
      · exact h1
      · show (if 2*x < 2 - 2*x then 2*x else 2 - 2*x) ≤ 1
        split <;> linarith
      all_goals exact absurd trivial hT

/-- Almost every shift gives a result that is not NaN, if the integrand fails only on a set of measure zero; the result is then the
sum of the values of `g`. -/
theorem cpu_ae {d : ℕ} (n : ℕ) (hn : 0 < n) (hn2 : n < 2^53) (z : Fin d → ℕ) (hz : ∀ j, z j < n) (T : Transform)
    (body : (Fin d → ℝ) → Option ℂ) (g : (Fin d → ℝ) → ℂ)
    (hbody : ∀ᵐ x ∂(volume : Measure (Fin d → ℝ)).restrict (unitCube d), body x = some (g x)) :
    ∀ᵐ s ∂(volume : Measure (Fin d → ℝ)).restrict (unitCube d), (Kernel.mk n z s T body).cpu 0 n
      = some (∑ i ∈ Finset.Ico 0 n, transformed T g (latticePoint n z s i)) := by
  -- the transformed integrand is defined almost everywhere
  have h1 : ∀ᵐ x ∂(volume : Measure (Fin d → ℝ)).restrict (unitCube d),
      body (fun j => T.f (x j)) = some (g fun j => T.f (x j)) := by
    have hm := map_pi_weighted T d
    rw [pi_weighted] at hm
    rw [← hm] at hbody
    have h2 := ae_of_ae_map (measurable_fpi T d).aemeasurable hbody
    rw [ae_withDensity_iff (prod_w_meas T).ennreal_ofReal] at h2
    have hpos : ∀ᵐ x ∂(volume : Measure (Fin d → ℝ)).restrict (unitCube d), ∀ j, 0 < x j ∧ x j < 1 := by
      rw [cube_pi, ae_all_iff]
      intro j
      have : ∀ᵐ y ∂(volume.restrict (Icc (0:ℝ) 1)), 0 < y ∧ y < 1 := by
        rw [← Measure.restrict_congr_set (Ioo_ae_eq_Icc (a := (0:ℝ)) (b := 1))]
        exact ae_restrict_mem measurableSet_Ioo
      exact (Measure.quasiMeasurePreserving_eval (μ := fun _ : Fin d => volume.restrict (Icc (0:ℝ) 1)) j).ae this
    filter_upwards [h2, hpos] with x hx hp
    apply hx
    have : 0 < ∏ j, T.w (x j) := Finset.prod_pos fun j _ => w_pos T _ (hp j).1 (hp j).2
    simpa using this
  have h3 : ∀ᵐ s ∂(volume : Measure (Fin d → ℝ)).restrict (unitCube d), ∀ i : ℕ,
      body (fun j => T.f (latticePoint n z s i j)) = some (g fun j => T.f (latticePoint n z s i j)) := by
    rw [ae_all_iff]
    intro i
    rw [← map_point (fun j => (i:ℝ) * (z j : ℝ) / n)] at h1
    exact ae_of_ae_map (measurable_point _).aemeasurable h1
  filter_upwards [h3, Ico_cube_ae d] with s hs hs01
  have hK : (Kernel.mk n z s T body).Valid := ⟨hn, hn2, hz, fun j => (hs01 j).1, fun j => (hs01 j).2⟩
  have := C42_cpu _ hK
  dsimp only at this
  rw [this, ← latticeSum_total]
  apply osum_congr
  intro i _
  unfold Kernel.term
  dsimp only
  rw [hs i]

/-- C42, the estimate is unbiased: for every generating vector, every transform and every integrand `g` that is integrable over the
unit cube (and whose sign checks fail on a set of measure zero at most), the average of the result of the kernel over the shift,
divided by the number of points, is the integral of `g`; and almost no shift gives NaN. -/
theorem C42_unbiased {d : ℕ} (n : ℕ) (hn : 0 < n) (hn2 : n < 2^53) (z : Fin d → ℕ) (hz : ∀ j, z j < n) (T : Transform)
    (body : (Fin d → ℝ) → Option ℂ) (g : (Fin d → ℝ) → ℂ) (hg : IntegrableOn g (unitCube d))
    (hbody : ∀ᵐ x ∂(volume : Measure (Fin d → ℝ)).restrict (unitCube d), body x = some (g x)) :
    (∀ᵐ s ∂(volume : Measure (Fin d → ℝ)).restrict (unitCube d), ((Kernel.mk n z s T body).cpu 0 n).isSome) ∧
    IntegrableOn (fun s => ((Kernel.mk n z s T body).cpu 0 n).getD 0) (unitCube d) ∧
    (∫ s in unitCube d, ((Kernel.mk n z s T body).cpu 0 n).getD 0) / n = ∫ x in unitCube d, g x := by
  have hae := cpu_ae n hn hn2 z hz T body g hbody
  obtain ⟨ht, hti⟩ := transformed_integral T g hg
  obtain ⟨hs, hsi⟩ := integral_latticeSum n z _ ht
  have hae' : ∀ᵐ s ∂(volume : Measure (Fin d → ℝ)).restrict (unitCube d),
      ∑ i ∈ Finset.Ico 0 n, transformed T g (latticePoint n z s i) = ((Kernel.mk n z s T body).cpu 0 n).getD 0 := by
    filter_upwards [hae] with s h
    rw [h]; rfl
  refine ⟨?_, hs.congr hae', ?_⟩
  · filter_upwards [hae] with s h
    rw [h]; rfl
  · rw [← integral_congr_ae hae', hsi, hti]
    exact mul_div_cancel_left₀ _ (by exact_mod_cast hn.ne')

/-- An integrand in one dimension whose sign check fails at one point. -/
example : (∫ s in unitCube 1, ((Kernel.mk 1021 (fun _ => 1) s .korobov3
      (fun x => if x 0 = 1/2 then none else some (x 0 : ℂ))).cpu 0 1021).getD 0) / (1021 : ℕ)
    = ∫ x in unitCube 1, ((x 0 : ℝ) : ℂ) := by
  refine (C42_unbiased 1021 (by norm_num) (by norm_num) (fun _ => 1) (fun _ => by norm_num) .korobov3
    (fun x => if x 0 = 1/2 then none else some (x 0 : ℂ)) (fun x => ((x 0 : ℝ) : ℂ)) ?_ ?_).2.2
  · have hc : Continuous fun x : Fin 1 → ℝ => ((x 0 : ℝ) : ℂ) := by fun_prop
    exact hc.continuousOn.integrableOn_compact (isCompact_univ_pi fun _ => isCompact_Icc)
  · rw [cube_pi]
    have : ∀ᵐ y ∂(volume.restrict (Icc (0:ℝ) 1)), y ≠ 1/2 := by
      apply ae_restrict_of_ae
      rw [ae_iff]
      simp
    have := (Measure.quasiMeasurePreserving_eval (μ := fun _ : Fin 1 => volume.restrict (Icc (0:ℝ) 1)) 0).ae this
    filter_upwards [this] with x hx
    rw [if_neg hx]

/-! ### The value and the variance that the evaluator reports -/

/-- The results of the kernel for `m` shifts. -/
noncomputable def shiftResults {d m : ℕ} (n : ℕ) (z : Fin d → ℕ) (T : Transform) (body : (Fin d → ℝ) → Option ℂ)
    (s : Fin m → Fin d → ℝ) : Fin m → ℂ := fun k => ((Kernel.mk n z (s k) T body).cpu 0 n).getD 0

/-- `m` independent shifts, uniform on the unit cube. -/
noncomputable def shifts (d m : ℕ) : Measure (Fin m → Fin d → ℝ) :=
  Measure.pi fun _ => (volume : Measure (Fin d → ℝ)).restrict (unitCube d)

instance cubeProb (d : ℕ) : IsProbabilityMeasure ((volume : Measure (Fin d → ℝ)).restrict (unitCube d)) := by
  rw [cube_pi]
  have : IsProbabilityMeasure (volume.restrict (Icc (0:ℝ) 1)) := ⟨by simp⟩
  infer_instance

theorem intLattice_nat (n : ℕ) : intLattice n = n := by simp [intLattice]

/-- C43, the expectation of the reported value for a lattice size `lattice` as the evaluator keeps it, a floating-point number: the
integral times `int(lattice)/lattice`.  The value is therefore unbiased exactly for integer lattice sizes. -/
theorem C43_value {d m : ℕ} (hm : 0 < m) (lattice : ℝ) (hl : 1 ≤ lattice) (hl2 : lattice < 2^53) (z : Fin d → ℕ)
    (hz : ∀ j, z j < intLattice lattice) (T : Transform) (body : (Fin d → ℝ) → Option ℂ) (g : (Fin d → ℝ) → ℂ)
    (hg : IntegrableOn g (unitCube d))
    (hbody : ∀ᵐ x ∂(volume : Measure (Fin d → ℝ)).restrict (unitCube d), body x = some (g x)) :
    ∫ s, kernVal lattice (shiftResults (intLattice lattice) z T body s) ∂(shifts d m)
      = ((intLattice lattice : ℝ) / lattice : ℝ) * ∫ x in unitCube d, g x := by
  have hn : 0 < intLattice lattice := Nat.floor_pos.2 hl
  have hn2 : intLattice lattice < 2^53 := by
    have h1 : (intLattice lattice : ℝ) ≤ lattice := Nat.floor_le (by linarith)
    have h2 : (intLattice lattice : ℝ) < 2^53 := lt_of_le_of_lt h1 hl2
    exact_mod_cast h2
  obtain ⟨_, hint, hval⟩ := C42_unbiased (intLattice lattice) hn hn2 z hz T body g hg hbody
  unfold kernVal npMean shiftResults shifts
  rw [integral_div, integral_mean hm (fun s => ((Kernel.mk (intLattice lattice) z s T body).cpu 0 (intLattice lattice)).getD 0) hint]
  rw [← hval]
  have hn0 : ((intLattice lattice : ℕ) : ℂ) ≠ 0 := by exact_mod_cast hn.ne'
  have hl0 : (lattice : ℂ) ≠ 0 := by exact_mod_cast (by linarith : (lattice:ℝ) ≠ 0)
  push_cast
  field_simp

/-- With an integer lattice size the reported value is unbiased. -/
theorem C43_value_integer {d m : ℕ} (hm : 0 < m) (n : ℕ) (hn : 0 < n) (hn2 : n < 2^53) (z : Fin d → ℕ)
    (hz : ∀ j, z j < n) (T : Transform) (body : (Fin d → ℝ) → Option ℂ) (g : (Fin d → ℝ) → ℂ) (hg : IntegrableOn g (unitCube d))
    (hbody : ∀ᵐ x ∂(volume : Measure (Fin d → ℝ)).restrict (unitCube d), body x = some (g x)) :
    ∫ s, kernVal n (shiftResults n z T body s) ∂(shifts d m) = ∫ x in unitCube d, g x := by
  have h := C43_value (m := m) hm (n:ℝ) (by exact_mod_cast hn) (by exact_mod_cast hn2) z (by rw [intLattice_nat]; exact hz) T body g
    hg hbody
  rw [intLattice_nat] at h
  rw [h, div_self (by exact_mod_cast hn.ne')]
  simp

/-- The defect for sizes that are not integers: unless the integral vanishes, the expected value differs from it.  The evaluator
proposes such sizes if it constructs its own (median) lattices, see `C43_proposal_defect`. -/
theorem C43_value_defect {d m : ℕ} (hm : 0 < m) (lattice : ℝ) (hl : 1 ≤ lattice) (hl2 : lattice < 2^53)
    (hfrac : (intLattice lattice : ℝ) ≠ lattice) (z : Fin d → ℕ)
    (hz : ∀ j, z j < intLattice lattice) (T : Transform) (body : (Fin d → ℝ) → Option ℂ) (g : (Fin d → ℝ) → ℂ)
    (hg : IntegrableOn g (unitCube d))
    (hbody : ∀ᵐ x ∂(volume : Measure (Fin d → ℝ)).restrict (unitCube d), body x = some (g x))
    (hI : ∫ x in unitCube d, g x ≠ 0) :
    ∫ s, kernVal lattice (shiftResults (intLattice lattice) z T body s) ∂(shifts d m) ≠ ∫ x in unitCube d, g x := by
  rw [C43_value hm lattice hl hl2 z hz T body g hg hbody]
  intro h
  have h1 : (((intLattice lattice : ℝ) / lattice : ℝ) : ℂ) = 1 := by
    apply mul_right_cancel₀ hI
    rw [h, one_mul]
  have h2 : (intLattice lattice : ℝ) / lattice = 1 := by exact_mod_cast h1
  rw [div_eq_one_iff_eq (by linarith)] at h2
  exact hfrac h2

/-- The sizes proposed in the first phase are not rounded: from a lattice of 1021 points, a kernel whose variance is too large by a
factor 25/4 gets 2552.5 points. -/
theorem C43_proposal_defect : propose1 1021 (5/2) = 2552.5 ∧ (intLattice (propose1 1021 (5/2)) : ℝ) ≠ propose1 1021 (5/2) := by
  have h : propose1 1021 (5/2) = 2552.5 := by
    unfold propose1
    norm_num
  refine ⟨h, ?_⟩
  rw [h]
  have : intLattice (2552.5 : ℝ) = 2552 := by
    unfold intLattice
    rw [Nat.floor_eq_iff (by norm_num)]
    norm_num
  rw [this]; norm_num

/-- C43, the reported variance: its expectation is `1 - 1/m` times the variance of the reported value, for the real and for the
imaginary part alike.  (The reported error is therefore too small on average, by about 1.6 percent for 32 shifts;
for one shift it is zero.) -/
theorem C43_variance {d m : ℕ} (hm : 0 < m) (n : ℕ) (hn : 0 < n) (z : Fin d → ℕ) (T : Transform)
    (body : (Fin d → ℝ) → Option ℂ)
    (hre : MemLp (fun s => (((Kernel.mk n z s T body).cpu 0 n).getD 0).re) 2 ((volume : Measure (Fin d → ℝ)).restrict (unitCube d)))
    (him : MemLp (fun s => (((Kernel.mk n z s T body).cpu 0 n).getD 0).im) 2 ((volume : Measure (Fin d → ℝ)).restrict (unitCube d))) :
    ∫ s, (kernVar n (shiftResults n z T body s)).re ∂(shifts d m)
      = (1 - 1/m) * Var[fun s => (kernVal n (shiftResults n z T body s)).re; shifts d m] ∧
    ∫ s, (kernVar n (shiftResults n z T body s)).im ∂(shifts d m)
      = (1 - 1/m) * Var[fun s => (kernVal n (shiftResults n z T body s)).im; shifts d m] := by
  have hn0 : (n:ℝ) ≠ 0 := by exact_mod_cast hn.ne'
  have hm0 : (m:ℝ) ≠ 0 := by exact_mod_cast hm.ne'
  have e1 : ∀ v : Fin m → ℂ, (kernVar n v).re = npVar (fun k => (v k).re) * (1 / ((n:ℝ)^2 * m)) := by
    intro v
    have : kernVar n v = ((npVar (fun k => (v k).re) * (1 / ((n:ℝ)^2 * m)) : ℝ) : ℂ)
        + ((npVar (fun k => (v k).im) * (1 / ((n:ℝ)^2 * m)) : ℝ) : ℂ) * Complex.I := by
      unfold kernVar; push_cast; rw [div_eq_mul_one_div]; ring
    rw [this, Complex.add_re, Complex.ofReal_re, Complex.re_ofReal_mul, Complex.I_re]; ring
  have e2 : ∀ v : Fin m → ℂ, (kernVar n v).im = npVar (fun k => (v k).im) * (1 / ((n:ℝ)^2 * m)) := by
    intro v
    have : kernVar n v = ((npVar (fun k => (v k).re) * (1 / ((n:ℝ)^2 * m)) : ℝ) : ℂ)
        + ((npVar (fun k => (v k).im) * (1 / ((n:ℝ)^2 * m)) : ℝ) : ℂ) * Complex.I := by
      unfold kernVar; push_cast; rw [div_eq_mul_one_div]; ring
    rw [this, Complex.add_im, Complex.ofReal_im, Complex.im_ofReal_mul, Complex.I_im]; ring
  have e3 : ∀ v : Fin m → ℂ, (kernVal n v).re = (1/(n:ℝ)) * ((∑ k, (v k).re) / m) := by
    intro v
    have : kernVal n v = ((1/(n:ℝ) / m : ℝ) : ℂ) * ∑ k, v k := by unfold kernVal npMean; push_cast; ring
    rw [this, Complex.re_ofReal_mul, Complex.re_sum]; ring
  have e4 : ∀ v : Fin m → ℂ, (kernVal n v).im = (1/(n:ℝ)) * ((∑ k, (v k).im) / m) := by
    intro v
    have : kernVal n v = ((1/(n:ℝ) / m : ℝ) : ℂ) * ∑ k, v k := by unfold kernVal npMean; push_cast; ring
    rw [this, Complex.im_ofReal_mul, Complex.im_sum]; ring
  simp only [e1, e2, e3, e4, shifts]
  constructor
  · rw [integral_mul_const, variance_const_mul]
    have h1 := integral_npVar (m := m) hm _ hre
    have h2 := variance_mean (m := m) _ hre
    unfold shiftResults
    rw [h1, h2]
    field_simp
  · rw [integral_mul_const, variance_const_mul]
    have h1 := integral_npVar (m := m) hm _ him
    have h2 := variance_mean (m := m) _ him
    unfold shiftResults
    rw [h1, h2]
    field_simp

/-- With a single shift (`--shifts=1`) the reported variance is zero, whatever the integrand. -/
theorem C43_single_shift_defect (lattice : ℝ) (v : Fin 1 → ℂ) : kernVar lattice v = 0 := by
  unfold kernVar npVar
  simp

/-- A bounded integrand has square-integrable results: the hypotheses of `C43_variance` hold for the example kernel's integrand
`x0*x1`. -/
example : MemLp (fun s => (((Kernel.mk 1021 ![1, 306] s .korobov3 (fun x => some ((x 0 : ℂ) * x 1))).cpu 0 1021).getD 0).re) 2
    ((volume : Measure (Fin 2 → ℝ)).restrict (unitCube 2)) := by
  have hae := cpu_ae (d := 2) 1021 (by norm_num) (by norm_num) ![1, 306] (by intro j; fin_cases j <;> norm_num) .korobov3
    (fun x => some ((x 0 : ℂ) * x 1)) (fun x => (x 0 : ℂ) * x 1) (by filter_upwards with x; rfl)
  have hcont : Continuous (transformed (d := 2) .korobov3 (fun x => (x 0 : ℂ) * x 1)) := by
    unfold transformed
    have := f_continuous .korobov3
    have := w_continuous .korobov3
    fun_prop
  obtain ⟨C, hC⟩ := (isCompact_univ_pi fun _ : Fin 2 => isCompact_Icc (a := (0:ℝ)) (b := 1)).exists_bound_of_continuousOn
    hcont.continuousOn
  have hmeas : AEStronglyMeasurable (fun s => (∑ i ∈ Finset.Ico 0 1021,
      transformed (d := 2) .korobov3 (fun x => (x 0 : ℂ) * x 1) (latticePoint 1021 ![1, 306] s i)).re)
      ((volume : Measure (Fin 2 → ℝ)).restrict (unitCube 2)) := by
    apply Measurable.aestronglyMeasurable
    apply Complex.measurable_re.comp
    apply Finset.measurable_sum
    intro i _
    exact hcont.measurable.comp (measurable_point _)
  have hb : MemLp (fun s => (∑ i ∈ Finset.Ico 0 1021,
      transformed (d := 2) .korobov3 (fun x => (x 0 : ℂ) * x 1) (latticePoint 1021 ![1, 306] s i)).re) 2
      ((volume : Measure (Fin 2 → ℝ)).restrict (unitCube 2)) := by
    apply MemLp.of_bound hmeas (1021 * C)
    filter_upwards with s
    refine (Complex.abs_re_le_norm _).trans ((norm_sum_le _ _).trans ?_)
    refine (Finset.sum_le_card_nsmul _ _ C fun i _ => hC _ ?_).trans ?_
    · intro j _
      exact ⟨Int.fract_nonneg _, (Int.fract_lt_one _).le⟩
    · simp
  refine hb.ae_eq ?_
  filter_upwards [hae] with s hs
  rw [hs]; rfl

/-! ### Keeping the better result -/

/-- C43, the update: the variance of the real part that is kept never grows. -/
theorem C43_update_re (old : ℂ × ℂ) (new : ℂ × ℂ) : ∃ v, (luckyUpdate (old.1, some old.2) new).2 = some v ∧ v.re ≤ old.2.re ∧
    (luckyUpdate (old.1, some old.2) new = (old.1, some old.2) ∨ luckyUpdate (old.1, some old.2) new = (new.1, some new.2)) := by
  unfold luckyUpdate
  dsimp only
  split
  · next h =>
    refine ⟨new.2, rfl, ?_, Or.inr rfl⟩
    unfold complexLe at h
    rcases of_decide_eq_true h with h | h
    · exact h.le
    · exact h.1.le
  · exact ⟨old.2, rfl, le_rfl, Or.inl rfl⟩

/-- The defect: the complex variances are compared lexicographically, so that the variance of the imaginary part — and with it the
sum of both, from which the errors and the lattice sizes are computed — may grow without bound, and a result that is better by any
factor may be rejected. -/
theorem C43_update_defect (M : ℝ) :
    (∃ old new : ℂ × ℂ, luckyUpdate (old.1, some old.2) new = (new.1, some new.2) ∧ old.2.re + old.2.im + M < new.2.re + new.2.im) ∧
    (∃ old new : ℂ × ℂ, luckyUpdate (old.1, some old.2) new = (old.1, some old.2) ∧ new.2.re + new.2.im + M < old.2.re + old.2.im) := by
  refine ⟨⟨(0, ⟨1, 0⟩), (0, ⟨1/2, M + 1⟩), ?_, ?_⟩, ⟨(0, ⟨1, M + 2⟩), (0, ⟨2, 0⟩), ?_, ?_⟩⟩
  · unfold luckyUpdate complexLe; norm_num
  · norm_num; linarith
  · unfold luckyUpdate complexLe; norm_num
  · norm_num; linarith

end Qmc
end SecDec
