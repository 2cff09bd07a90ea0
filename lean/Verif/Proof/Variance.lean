import Verif.Model.Variance
import Verif.Spec.Variance
import Verif.Proof.Orders
namespace SecDec
namespace Orders
open MeasureTheory ProbabilityTheory
variable {r : ℕ} {κ : Type*} {Ω : Type*} [MeasurableSpace Ω] {μ : Measure Ω} [IsProbabilityMeasure μ]

/-- Variance of a linear combination of uncorrelated real random variables. -/
theorem variance_lin {ι : Type*} [Fintype ι] [DecidableEq ι] (X : ι → Ω → ℝ) (hX : ∀ i, MemLp (X i) 2 μ)
    (hc : ∀ i j, i ≠ j → cov[X i, X j; μ] = 0) (c : ι → ℝ) :
    Var[fun ω => ∑ i, c i * X i ω; μ] = ∑ i, c i ^ 2 * Var[X i; μ] := by
  rw [variance_fun_sum (fun i => (hX i).const_mul (c i))]
  refine Finset.sum_congr rfl fun i _ => ?_
  rw [Finset.sum_eq_single i]
  · rw [covariance_const_mul_left, covariance_const_mul_right, covariance_self (hX i).aemeasurable]; ring
  · intro j _ hj
    rw [covariance_const_mul_left, covariance_const_mul_right, hc i j hj.symm]; ring
  · simp

theorem lin_list {K : κ → Ω → ℂ} {var : κ → ℂ} (h : Uncorrelated μ K var) (T : List (ℂ × κ)) (hT : (T.map (·.2)).Nodup) :
    Var[fun ω => ((T.map fun t => t.1 * K t.2 ω).sum).re; μ] = ((T.map fun t => mulVariance t.1 (var t.2)).sum).re ∧
    Var[fun ω => ((T.map fun t => t.1 * K t.2 ω).sum).im; μ] = ((T.map fun t => mulVariance t.1 (var t.2)).sum).im := by
  classical
  have hinj : ∀ i j : Fin T.length, T[i].2 = T[j].2 → i = j := by
    intro i j hij
    have := List.nodup_iff_injective_get.1 hT
    have h2 := @this ⟨i, by simp⟩ ⟨j, by simp⟩ (by simpa using hij)
    exact Fin.ext (by simpa using h2)
  let X : Fin T.length × Bool → Ω → ℝ := fun p => part K (T[p.1].2, p.2)
  have hX : ∀ p, MemLp (X p) 2 μ := fun p => h.finite _
  have hc : ∀ p q, p ≠ q → cov[X p, X q; μ] = 0 := by
    intro p q hpq
    refine h.cov _ _ fun he => hpq ?_
    rw [Prod.mk.injEq] at he
    exact Prod.ext (hinj _ _ he.1) he.2
  have hs : ∀ f : ℂ × κ → ℂ, (T.map f).sum = ∑ i : Fin T.length, f T[i] := by
    intro f
    rw [← List.sum_ofFn]
    congr 1
    apply List.ext_getElem <;> simp
  constructor
  · have e : (fun ω => ((T.map fun t => t.1 * K t.2 ω).sum).re) =
        fun ω => ∑ p, (if p.2 then -T[p.1].1.im else T[p.1].1.re) * X p ω := by
      funext ω
      rw [hs, Complex.re_sum, Fintype.sum_prod_type]
      refine Finset.sum_congr rfl fun i _ => ?_
      simp only [Fintype.sum_bool, X, part, Complex.mul_re]
      simp; ring
    rw [e, variance_lin X hX hc, hs, Complex.re_sum, Fintype.sum_prod_type]
    refine Finset.sum_congr rfl fun i _ => ?_
    simp only [Fintype.sum_bool, X, part, mulVariance, h.re, h.im]
    simp; ring
  · have e : (fun ω => ((T.map fun t => t.1 * K t.2 ω).sum).im) =
        fun ω => ∑ p, (if p.2 then T[p.1].1.re else T[p.1].1.im) * X p ω := by
      funext ω
      rw [hs, Complex.im_sum, Fintype.sum_prod_type]
      refine Finset.sum_congr rfl fun i _ => ?_
      simp only [Fintype.sum_bool, X, part, Complex.mul_im]
      simp
    rw [e, variance_lin X hX hc, hs, Complex.im_sum, Fintype.sum_prod_type]
    refine Finset.sum_congr rfl fun i _ => ?_
    simp only [Fintype.sum_bool, X, part, mulVariance, h.re, h.im]
    simp; ring

theorem mulVariance_zero (c : ℂ) : mulVariance c 0 = 0 := by
  apply Complex.ext <;> simp [mulVariance]

theorem mulVariance_add (c v w : ℂ) : mulVariance c (v + w) = mulVariance c v + mulVariance c w := by
  apply Complex.ext <;> simp [mulVariance] <;> ring

theorem mulVariance_sum (c : ℂ) (l : List κ) (v : κ → ℂ) :
    mulVariance c (l.map v).sum = (l.map fun k => mulVariance c (v k)).sum := by
  induction l with
  | nil => simp [mulVariance_zero]
  | cons k l ih => simp [mulVariance_add, ih]

theorem sum_map_flatMap {α β : Type*} (l : List α) (f : α → List β) (g : β → ℂ) :
    ((l.flatMap f).map g).sum = (l.map fun a => ((f a).map g).sum).sum := by
  induction l with
  | nil => simp
  | cons a l ih => simp [ih]

/-- The kernels, with their coefficients, that contribute to order `k` of an integral. -/
def contrib (info : Info r κ ℂ) (k : Ord r) : List (ℂ × κ) :=
  info.pref.flatMap fun s => info.orders.flatMap fun o => if s.1 + o.1 = k then o.2.map fun x => (s.2, x) else []

theorem contrib_sum (info : Info r κ ℂ) (k : Ord r) (mul : ℂ → ℂ → ℂ)
    (hmul : ∀ c (l : List κ) (v : κ → ℂ), mul c (l.map v).sum = (l.map fun x => mul c (v x)).sum) (v : κ → ℂ) :
    ((contrib info k).map fun t => mul t.1 (v t.2)).sum =
      (info.pref.map fun t1 => ((info.orders.map (kernVal v)).map fun t2 =>
        if t1.1 + t2.1 = k then mul t1.2 t2.2 else 0).sum).sum := by
  rw [contrib, sum_map_flatMap]
  congr 1
  refine List.map_congr_left fun s _ => ?_
  rw [sum_map_flatMap, List.map_map]
  congr 1
  refine List.map_congr_left fun o _ => ?_
  by_cases h : s.1 + o.1 = k
  · have h' : s.1 + (kernVal v o).1 = k := h
    rw [Function.comp_apply, if_pos h, if_pos h']
    simp only [kernVal]
    rw [hmul, List.map_map]; rfl
  · have h' : ¬ s.1 + (kernVal v o).1 = k := h
    rw [Function.comp_apply, if_neg h, if_neg h']; simp

theorem contrib_nodup (info : Info r κ ℂ) (k : Ord r) (hp : (info.pref.map (·.1)).Nodup)
    (ho : (info.orders.flatMap (·.2)).Nodup) : ((contrib info k).map (·.2)).Nodup := by
  have hin : ∀ s : Ord r × ℂ, (info.orders.flatMap fun o => if s.1 + o.1 = k then o.2.map fun x => (s.2, x) else []).map (·.2)
      = (info.orders.filter fun o => s.1 + o.1 = k).flatMap (·.2) := by
    intro s
    induction info.orders with
    | nil => rfl
    | cons o os ih =>
      by_cases h : s.1 + o.1 = k
      · simp only [List.flatMap_cons, if_pos h, List.map_append, ih, List.filter_cons, decide_eq_true h, if_true, List.map_map]
        congr 1
        simp [Function.comp_def]
      · simp [h, ih]
  have hu : ∀ o ∈ info.orders, ∀ o' ∈ info.orders, ∀ x, x ∈ o.2 → x ∈ o'.2 → o = o' := by
    intro o h o' h' x hx hx'
    by_contra hne
    have : Std.Symm (Function.onFun List.Disjoint fun o : Ord r × List κ => o.2) := ⟨fun _ _ hd => List.Disjoint.symm hd⟩
    exact (List.nodup_flatMap.1 ho).2.forall h h' hne hx hx'
  rw [contrib, List.map_flatMap, List.nodup_flatMap]
  refine ⟨fun s _ => ?_, ?_⟩
  · rw [hin]
    exact ho.sublist (List.filter_sublist.flatMap _)
  · have hp' : info.pref.Pairwise fun a b => a.1 ≠ b.1 := List.pairwise_map.1 hp
    refine hp'.imp fun {a b} hab => ?_
    simp only [Function.onFun, hin]
    intro x hx hy
    simp only [List.mem_flatMap, List.mem_filter, decide_eq_true_eq] at hx hy
    obtain ⟨o, ⟨h1, h2⟩, h3⟩ := hx
    obtain ⟨o', ⟨h1', h2'⟩, h3'⟩ := hy
    have := hu o h1 o' h1' x h3 h3'
    subst this
    exact hab (add_right_cancel (h2.trans h2'.symm))

end Orders
end SecDec
