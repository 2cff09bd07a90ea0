import Verif.Proof.Variance
import Verif.Props.Orders
import Mathlib.Probability.Distributions.Gaussian.Real
import Mathlib.Probability.Independence.Basic
/-
C36: error propagation of `disteval.py`.
-/
namespace SecDec
namespace Orders
open MeasureTheory ProbabilityTheory
open scoped List
variable {r : ℕ} {κ : Type*} {Ω : Type*} [MeasurableSpace Ω] {μ : Measure Ω} [IsProbabilityMeasure μ]

/-- C36: the squared error reported for one order of a sum of integrals is reported exactly if the value is, and its real and
imaginary part are the variances of the real and the imaginary part of the value, if the results of the kernels are
uncorrelated. -/
theorem C36_sums [Fintype κ] (tab : Table r κ ℂ) (key : ℕ × Ord r) (K : κ → Ω → ℂ) (var : κ → ℂ)
    (h : Uncorrelated μ K var) :
    (ampVar tab key var = none ↔ ∀ val, ampVal tab key val = none) ∧
    ∀ v, ampVar tab key var = some v → ∃ X : Ω → ℂ, (∀ ω, ampVal tab key (fun k => K k ω) = some (X ω)) ∧
      Var[fun ω => (X ω).re; μ] = v.re ∧ Var[fun ω => (X ω).im; μ] = v.im := by
  classical
  constructor
  · cases hd : dget tab key <;> simp [ampVar, ampVal, hd]
  · intro v hv
    cases hd : dget tab key with
    | none => simp [ampVar, hd] at hv
    | some row =>
      refine ⟨fun ω => ∑ k, row k * K k ω, fun ω => by simp [ampVal, hd], ?_⟩
      obtain ⟨h1, h2⟩ := lin_list h ((Finset.univ : Finset κ).toList.map fun k => (row k, k)) (by
        rw [List.map_map]; simpa [Function.comp_def] using Finset.nodup_toList _)
      have hsum : ∀ f : κ → ℂ, ((Finset.univ : Finset κ).toList.map f).sum = ∑ k, f k := fun f => Finset.sum_map_toList _ f
      simp only [List.map_map, Function.comp_def, hsum] at h1 h2
      have hv' : v = ∑ k, mulVariance (row k) (var k) := by
        simp only [ampVar, hd, Option.map_some, Option.some.injEq] at hv
        rw [← hv, ← Finset.sum_add_distrib]
        refine Finset.sum_congr rfl fun k _ => ?_
        apply Complex.ext <;> simp [mulVariance]
      rw [hv']
      exact ⟨h1, h2⟩

/-- C36: the same for the individual integrals: an order is listed with an error exactly if it is listed with a value, and the
squared error is the variance of the value. No kernel occurs twice in the integral, and no order twice in the prefactor. -/
theorem C36_integrals (info : Info r κ ℂ) (lowest prefHighest : Ord r) (K : κ → Ω → ℂ) (var : κ → ℂ)
    (h : Uncorrelated μ K var) (hpref : (info.pref.map (·.1)).Nodup) (hker : (info.orders.flatMap (·.2)).Nodup) :
    (∀ val, (intVar info lowest prefHighest var).map (·.1) ~ (intVal info lowest prefHighest val).map (·.1)) ∧
    ∀ k v, (k, v) ∈ intVar info lowest prefHighest var →
      ∃ X : Ω → ℂ, (∀ ω, (k, X ω) ∈ intVal info lowest prefHighest (fun x => K x ω)) ∧
        Var[fun ω => (X ω).re; μ] = v.re ∧ Var[fun ω => (X ω).im; μ] = v.im := by
  have hperm : ∀ val, (intVar info lowest prefHighest var).map (·.1) ~ (intVal info lowest prefHighest val).map (·.1) := by
    intro val
    obtain ⟨h1, h2, -⟩ := bracketMul_spec mulVariance info.pref (info.orders.map (kernVal var)) (lowest + prefHighest)
    obtain ⟨h1', h2', -⟩ := bracketMul_spec (· * ·) info.pref (info.orders.map (kernVal val)) (lowest + prefHighest)
    refine (List.perm_ext_iff_of_nodup h1 h1').2 fun k => ?_
    rw [h2, h2']
    simp [kernVal]
  refine ⟨hperm, fun k v hv => ?_⟩
  have hmem : ∀ ω, ∃ x, (k, x) ∈ intVal info lowest prefHighest (fun x => K x ω) := by
    intro ω
    have := (hperm (fun x => K x ω)).mem_iff.1 (List.mem_map.2 ⟨_, hv, rfl⟩)
    obtain ⟨⟨k', x⟩, hx, rfl⟩ := List.mem_map.1 this
    exact ⟨x, hx⟩
  choose X hX using hmem
  refine ⟨X, hX, ?_⟩
  have hval : ∀ (mul : ℂ → ℂ → ℂ) (w : κ → ℂ) (x : ℂ),
      (∀ c (l : List κ) (v : κ → ℂ), mul c (l.map v).sum = (l.map fun x => mul c (v x)).sum) →
      (k, x) ∈ bracketMul mul info.pref (info.orders.map (kernVal w)) (lowest + prefHighest) →
      x = ((contrib info k).map fun t => mul t.1 (w t.2)).sum := by
    intro mul w x hmul hx
    obtain ⟨-, hs⟩ := C27_bracket_mul_general mul _ _ _ _ _ hx
    rw [hs, contrib_sum _ _ _ hmul]
    generalize info.orders.map (kernVal w) = b
    induction info.pref with
    | nil => simp
    | cons s a ih =>
      rw [List.map_cons, List.sum_cons, ← ih, List.product_cons, List.map_append, List.sum_append, List.map_map]
      rfl
  have hXs : ∀ ω, X ω = ((contrib info k).map fun t => t.1 * K t.2 ω).sum := fun ω =>
    hval (· * ·) (fun x => K x ω) _ (fun c l v => by rw [← List.sum_map_mul_left]) (hX ω)
  have hv' := hval mulVariance var v (fun c l w => mulVariance_sum c l w) hv
  simp only [hXs, hv']
  exact lin_list h _ (contrib_nodup info k hpref hker)

/-- For every set of kernels there are uncorrelated results with unit variances: independent standard Gaussians. -/
theorem uncorrelated_exists (κ : Type) [Fintype κ] :
    ∃ (μ : Measure (κ × Bool → ℝ)) (_ : IsProbabilityMeasure μ) (K : κ → (κ × Bool → ℝ) → ℂ),
      Uncorrelated μ K fun _ => ⟨1, 1⟩ := by
  let K : κ → (κ × Bool → ℝ) → ℂ := fun k ω => ⟨ω (k, false), ω (k, true)⟩
  have hp : ∀ p, part K p = fun ω => ω p := by rintro ⟨k, _ | _⟩ <;> rfl
  have hpres := fun p : κ × Bool => measurePreserving_eval (fun _ : κ × Bool => gaussianReal 0 1) p
  have hL : ∀ p, MemLp (part K p) 2 (Measure.pi fun _ : κ × Bool => gaussianReal 0 1) := by
    intro p
    rw [hp]
    exact (memLp_id_gaussianReal 2).comp_measurePreserving (hpres p)
  have hvar : ∀ p : κ × Bool, Var[fun ω : κ × Bool → ℝ => ω p; Measure.pi fun _ : κ × Bool => gaussianReal 0 1] = 1 := by
    intro p
    have := variance_id_gaussianReal (μ := 0) (v := 1)
    rw [← (hpres p).map_eq, variance_map aemeasurable_id (hpres p).measurable.aemeasurable] at this
    simpa [Function.comp_def] using this
  refine ⟨Measure.pi fun _ => gaussianReal 0 1, inferInstance, K, hL, ?_, ?_, ?_⟩
  · intro p q hpq
    have hi := iIndepFun_pi (μ := fun _ : κ × Bool => gaussianReal 0 1) (X := fun _ x => x) (fun _ => aemeasurable_id)
    have := (hi.indepFun hpq).covariance_eq_zero (by simpa [hp] using hL p) (by simpa [hp] using hL q)
    simpa [hp] using this
  · intro k; exact (hvar (k, false)).symm
  · intro k; exact (hvar (k, true)).symm

/-- Coefficient `2 + 3i` of order `-1` and kernels `0, 1` in orders `0, 1`: the squared errors at orders `-1`, `0`. -/
example : intVar (r := 1) (κ := Fin 2) ⟨[(![-1], ⟨2, 3⟩)], [(![0], [0]), (![1], [1])]⟩ ![0] ![0] (fun k => ⟨k + 1, 1⟩) =
    [(![-1], ⟨13, 13⟩), (![0], ⟨17, 22⟩)] := by
  have h1 : bracketMul mulVariance [((![-1] : Ord 1), (⟨2, 3⟩ : ℂ))] ([(![0], [0]), (![1], [1])].map (kernVal fun k : Fin 2 => (⟨k + 1, 1⟩ : ℂ)))
      (![0] + ![0]) = [(![-1], 0 + mulVariance ⟨2, 3⟩ ⟨0 + 1, 1⟩), (![0], 0 + mulVariance ⟨2, 3⟩ ⟨1 + 1, 1⟩)] := by
    simp [bracketMul, bracketStep, kernVal, dget, dset, allLe]
  rw [intVar, h1]
  simp only [List.cons.injEq, Prod.mk.injEq, true_and, and_true, zero_add]
  constructor <;> apply Complex.ext <;> norm_num [mulVariance]

end Orders
end SecDec
