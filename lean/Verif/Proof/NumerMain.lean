import Verif.Proof.NumerContract
import Verif.Proof.MiscPairs
import Mathlib.Analysis.SpecialFunctions.Gamma.Basic
/-
The summands of the code and Wick's theorem (proof of property C50).
-/
namespace SecDec
namespace Numer
open scoped BigOperators
open Misc
noncomputable section
variable {L E d : ℕ} {I : Type} [DecidableEq I]

theorem mapM_sum {α β : Type} (f : α → Option β) (v : β → ℂ) (w : α → ℂ) (l : List α)
    (h : ∀ a ∈ l, ∃ b, f a = some b ∧ v b = w a) :
    ∃ m, l.mapM f = some m ∧ (m.map v).sum = (l.map w).sum := by
  induction l with
  | nil => exact ⟨[], rfl, rfl⟩
  | cons a l ih =>
    obtain ⟨b, hb, hv⟩ := h a (by simp)
    obtain ⟨m, hm, hs⟩ := ih fun x hx => h x (by simp [hx])
    exact ⟨b :: m, by simp [List.mapM_cons, hb, hm], by simp [hv, hs]⟩

theorem sum_flatten {β : Type} (v : β → ℂ) (m : List (List β)) :
    (m.flatten.map v).sum = (m.map fun b => (b.map v).sum).sum := by
  induction m with
  | nil => rfl
  | cons a m ih => rw [List.flatten_cons, List.map_append, List.sum_append, ih]; rfl

/-! ### Lists mapped -/

theorem picks_map {α β : Type} (φ : α → β) (l : List α) :
    picks (l.map φ) = (picks l).map fun y => (φ y.1, y.2.map φ) := by
  induction l with
  | nil => rfl
  | cons x l ih => simp [picks, ih, Function.comp_def]

theorem wick_map {α β : Type} (φ : α → β) (h : β → β → ℂ) (P : β → ℂ) : ∀ (n : ℕ) (l : List α), l.length = n →
    wick h P (l.map φ) = wick (fun x y => h (φ x) (φ y)) (fun x => P (φ x)) l := by
  intro n
  induction n using Nat.strong_induction_on with
  | _ n ih =>
    intro l hl
    cases l with
    | nil => simp [wick_nil]
    | cons x l =>
      rw [List.map_cons, wick_cons, wick_cons, ih l.length (by simp at hl; omega) l rfl, picks_map, List.map_map]
      congr 2
      refine List.map_congr_left fun y hy => ?_
      have := picks_length l y hy
      rw [Function.comp_apply, ih y.2.length (by simp at hl; omega) y.2 rfl]

/-! ### The output summand -/

def vecP (D : Data L E) (p : Fin E → Fin d → ℂ) (x : Fin L) (m : Fin d) : ℂ := ∑ e, D.P x e * p e m

theorem summand_value (ε : Fin d → ℂ) (p : Fin E → Fin d → ℂ) (τ : I → Fin d) (S : Summand E I) :
    S.value ε p τ = S.coef * tval ε (S.vecs.map (fun v => Fac.vec (fun m => ∑ e, v.1 e * p e m) v.2) ++
      S.metrics.map (fun g : I × I => (Fac.met g.1 g.2 : Fac d I))) τ := by
  unfold Summand.value tval einstein
  have h1 : S.idx = idxs (S.vecs.map (fun v => Fac.vec (fun m => ∑ e, v.1 e * p e m) v.2) ++
      S.metrics.map (fun g : I × I => (Fac.met g.1 g.2 : Fac d I))) := by
    simp only [Summand.idx, idxs, List.flatMap_append, List.flatMap_map]
    congr 1
    simp [Fac.idx, List.flatMap_singleton']
    exact List.map_eq_flatMap
  rw [← h1]
  have h2 : (fun σ : I → Fin d => S.coef * (S.vecs.map fun v => ∑ e, v.1 e * p e (σ v.2)).prod *
      (S.metrics.map fun g => metric ε (σ g.1) (σ g.2)).prod) = fun σ => S.coef *
      pval ε (S.vecs.map (fun v => Fac.vec (fun m => ∑ e, v.1 e * p e m) v.2) ++
      S.metrics.map (fun g : I × I => (Fac.met g.1 g.2 : Fac d I))) σ := by
    funext σ
    simp only [pval, List.map_append, List.prod_append, List.map_map, mul_assoc]
    rfl
  rw [h2, contract_smul]

/-- the product of the metric tensors, of the vectors "P" and of the external momenta -/
def body (D : Data L E) (p : Fin E → Fin d → ℂ) (ext : List (Fin E × I)) (pairs : List ((Fin L × I) × (Fin L × I)))
    (B : List (Fin L × I)) : List (Fac d I) :=
  pairs.map (fun q => Fac.met q.1.2 q.2.2) ++ (B.map (fun v => Fac.vec (vecP D p v.1) v.2) ++
    ext.map (fun v => Fac.vec (p v.1) v.2))

theorem facs_true (pairs : List ((Fin L × I) × (Fin L × I))) :
    facs d (pairs.map fun q => (⟨q.1.2, q.2.2, true⟩ : Entry I)) = pairs.map (fun q => Fac.met q.1.2 q.2.2) := by
  induction pairs with
  | nil => rfl
  | cons q l ih => simp only [List.map_cons, facs, if_true, ih]

def coefOf (D : Data L E) (pairs : List ((Fin L × I) × (Fin L × I))) : ℂ := (pairs.map fun q => D.aM q.1.1 q.2.1).prod

theorem summand_spec {ε : Fin d → ℂ} (hε : ∀ m, ε m ^ 2 = 1) (D : Data L E) (hD : D.D = d) (p : Fin E → Fin d → ℂ)
    (τ : I → Fin d) (R r : ℕ) (t : Term L E I) (pairs : List ((Fin L × I) × (Fin L × I))) (B : List (Fin L × I))
    (sc : ℂ) (hsc : scalarFactor D R r = some sc) (hb : Bdd (body D p t.ext pairs B)) :
    ∃ S, summand D R r t pairs B = some S ∧
      S.value ε p τ = sc * D.U ^ (R - t.loop.length) * t.coef * coefOf D pairs * tval ε (body D p t.ext pairs B) τ := by
  unfold summand
  rw [hsc]
  refine ⟨_, rfl, ?_⟩
  rw [summand_value]
  dsimp only
  set es := pairs.map fun q => (⟨q.1.2, q.2.2, true⟩ : Entry I) with hes
  have e0 : body D p t.ext pairs B = facs d es ++ (B.map (fun v : Fin L × I => Fac.vec (vecP D p v.1) v.2) ++
    t.ext.map (fun v : Fin E × I => Fac.vec (p v.1) v.2)) := by rw [hes, facs_true]; rfl
  have e1 := matchLoop_same hε es (B.map (fun v : Fin L × I => Fac.vec (vecP D p v.1) v.2) ++ t.ext.map (fun v : Fin E × I => Fac.vec (p v.1) v.2))
  have e2 := contractVecs_same hε (vecP D p) B (matchLoop es) (t.ext.map (fun v : Fin E × I => Fac.vec (p v.1) v.2))
  set q := contractVecs B (matchLoop es) with hq
  have e3 := contractVecs_same hε p t.ext q.2 (q.1.map (fun v : Fin L × I => Fac.vec (vecP D p v.1) v.2))
  set x := contractVecs t.ext q.2 with hx
  have e4 : Same ε (body D p t.ext pairs B) (facs d x.2 ++ (x.1.map (fun v : Fin E × I => Fac.vec (p v.1) v.2) ++
      q.1.map (fun v : Fin L × I => Fac.vec (vecP D p v.1) v.2))) := by
    rw [e0]
    exact e1.trans (e2.trans ((Same.of_perm (List.Perm.append_left _ List.perm_append_comm)).trans e3))
  obtain ⟨h1, h2⟩ := e4 hb
  obtain ⟨h3, h4⟩ := leftover_val hε x.2 _ h2
  rw [h1, h3, hD]
  have hperm : (List.map (fun v : (Fin E → ℂ) × I => Fac.vec (fun m => ∑ e, v.1 e * p e m) v.2)
        (List.map (fun v : Fin L × I => (D.P v.1, v.2)) q.1 ++ List.map (fun v : Fin E × I => (Pi.single v.1 (1 : ℂ), v.2)) x.1) ++
        List.map (fun g : I × I => (Fac.met g.1 g.2 : Fac d I)) (leftover (d : ℂ) x.2).2).Perm
      (List.map (fun g : I × I => (Fac.met g.1 g.2 : Fac d I)) (leftover (d : ℂ) x.2).2 ++
        (x.1.map (fun v : Fin E × I => Fac.vec (p v.1) v.2) ++ q.1.map (fun v : Fin L × I => Fac.vec (vecP D p v.1) v.2))) := by
    refine List.perm_append_comm.trans (List.Perm.append_left _ ?_)
    rw [List.map_append, List.map_map, List.map_map]
    refine List.perm_append_comm.trans ?_
    refine List.Perm.append ?_ ?_
    · have : (fun v : (Fin E → ℂ) × I => Fac.vec (fun m => ∑ e, v.1 e * p e m) v.2) ∘ (fun v : Fin E × I => (Pi.single v.1 (1 : ℂ), v.2)) =
          fun v : Fin E × I => Fac.vec (p v.1) v.2 := by
        funext v
        simp only [Function.comp_apply]
        congr 1
        funext m
        rw [Finset.sum_eq_single v.1]
        · simp
        · intro e _ he; simp [Pi.single_eq_of_ne he]
        · simp
      rw [this]
    · exact List.Perm.refl _
  rw [tval_perm ε hperm]
  unfold coefOf
  ring

/-! ### The sum over the subsets and the pairings -/

/-- The sum over the even subsets and their pairings, with a weight `w j` for `j` pairs. -/
def wsum (ε : Fin d → ℂ) (D : Data L E) (p : Fin E → Fin d → ℂ) (τ : I → Fin d) (t : Term L E I) (w : ℕ → ℂ) : ℂ :=
  ((splits t.loop).map fun s => if s.1.length % 2 = 0 then w (s.1.length / 2) *
    ((allPairsRec s.1).map fun pairs => coefOf D pairs * tval ε (body D p t.ext pairs s.2) τ).sum else 0).sum

theorem idxs_body (D : Data L E) (p : Fin E → Fin d → ℂ) (ext : List (Fin E × I)) (pairs : List ((Fin L × I) × (Fin L × I)))
    (B : List (Fin L × I)) :
    idxs (body D p ext pairs B) = (flat pairs).map Prod.snd ++ (B.map Prod.snd ++ ext.map Prod.snd) := by
  simp only [idxs, body, flat, List.flatMap_append, List.flatMap_map, List.map_flatMap]
  congr 1
  congr 1
  · rw [List.map_eq_flatMap]; rfl
  · rw [List.map_eq_flatMap]; rfl

theorem body_count (D : Data L E) (p : Fin E → Fin d → ℂ) (t : Term L E I) (A B : List (Fin L × I))
    (hA : A.length % 2 = 0) (hAB : (A ++ B).Perm t.loop) (pairs : List ((Fin L × I) × (Fin L × I)))
    (hp : pairs ∈ allPairsRec A) (μ : I) : (idxs (body D p t.ext pairs B)).count μ = t.idx.count μ := by
  have h1 := allPairsRec_sound (A.length / 2) A (by omega) pairs hp
  rw [idxs_body, ← List.append_assoc, ← List.map_append, Term.idx]
  exact (List.Perm.append_right _ (((List.Perm.append_right B h1).trans hAB).map _)).count_eq μ

theorem mean_wsum {ε : Fin d → ℂ} (hε : ∀ m, ε m ^ 2 = 1) (D : Data L E) (M : Fin L → Fin L → ℂ) (hU : D.U ≠ 0)
    (haM : ∀ a c, ∑ b, D.aM a b * M b c = if a = c then D.U else 0) (p : Fin E → Fin d → ℂ) {α : ℂ} (hα : α ≠ 0)
    {T : List (Fin L × Fin d) → ℂ} (hT : Moments ε M (fun a m => ∑ e, D.Q a e * p e m) α T) (τ : I → Fin d)
    (t : Term L E I) :
    t.mean ε p T τ = t.coef * (D.U ^ t.loop.length)⁻¹ * wsum ε D p τ t (fun j => (-D.U / (2 * α)) ^ j) := by
  unfold Term.mean einstein
  have hP : ∀ (a : Fin L) (m : Fin d), ∑ b, D.aM a b * ∑ e, D.Q b e * p e m = vecP D p a m := by
    intro a m
    simp only [vecP, Data.P, Finset.mul_sum, Finset.sum_mul]
    rw [Finset.sum_comm]
    exact Finset.sum_congr rfl fun e _ => Finset.sum_congr rfl fun b _ => by ring
  have e1 : (fun σ : I → Fin d => t.coef * T (t.loop.map fun f => (f.1, σ f.2)) * (t.ext.map fun f => p f.1 (σ f.2)).prod) =
      fun σ => (t.coef * (D.U ^ t.loop.length)⁻¹) * (List.map (fun s : List (Fin L × I) × List (Fin L × I) =>
        if s.1.length % 2 = 0 then (-D.U / (2 * α)) ^ (s.1.length / 2) *
        ((allPairsRec s.1).map fun pairs => coefOf D pairs * pval ε (body D p t.ext pairs s.2) σ).sum else 0) (splits t.loop)).sum := by
    funext σ
    rw [moments_wick hε hU haM hα hT _ _ rfl, wick_map _ _ _ _ _ rfl, List.length_map, wick]
    simp only [hP]
    rw [mul_assoc, mul_assoc, mul_assoc, mul_comm (List.sum _) (List.prod _), ← sum_map_mul']
    congr 3
    refine List.map_congr_left fun s hs => ?_
    by_cases h2 : s.1.length % 2 = 0
    · rw [if_pos h2, if_pos h2]
      rw [pairSum_scale (fun x y : Fin L × I => D.aM x.1 y.1 * metric ε (σ x.2) (σ y.2)) _ (s.1.length / 2) s.1 (by omega)]
      rw [pairSum, mul_comm, mul_assoc, mul_assoc]
      congr 1
      rw [mul_comm, ← sum_map_mul']
      congr 1
      refine List.map_congr_left fun pairs _ => ?_
      simp only [coefOf, pval, body, List.map_append, List.prod_append, List.map_map]
      rw [List.prod_map_mul]
      simp only [Function.comp_def, Fac.val]
      ring
    · rw [if_neg h2, if_neg h2]; simp
  rw [e1, contract_smul]
  beta_reduce
  congr 1
  rw [contract_list_sum]
  unfold wsum
  congr 1
  refine List.map_congr_left fun s hs => ?_
  by_cases h2 : s.1.length % 2 = 0
  · simp only [if_pos h2]
    rw [contract_smul]
    beta_reduce
    congr 1
    rw [contract_list_sum]
    congr 1
    refine List.map_congr_left fun pairs hp => ?_
    rw [contract_smul]
    beta_reduce
    congr 1
    unfold tval einstein
    have hperm : (repeated t.idx).Perm (repeated (idxs (body D p t.ext pairs s.2))) :=
      repeated_perm fun μ => by rw [body_count D p t s.1 s.2 h2 (splits_perm _ s hs) pairs hp]
    rw [contract_perm ε hperm]
  · simp only [if_neg h2]
    rw [contract_zero]

theorem reduceGamma_some (s : ℂ) (half : ℕ) : ∀ n k : ℕ, k + n = half →
    ∃ g, reduceGamma s half k = some g ∧
      (∀ hs : ((half : ℕ) : ℝ) < s.re, Complex.Gamma (s - k) = g * Complex.Gamma (s - half)) := by
  intro n
  induction n with
  | zero =>
    intro k hk
    rw [reduceGamma.eq_def, if_pos (by omega)]
    exact ⟨1, rfl, fun _ => by rw [show k = half by omega]; simp⟩
  | succ n ih =>
    intro k hk
    obtain ⟨g, hg, h2⟩ := ih (k + 1) (by omega)
    rw [reduceGamma.eq_def, if_neg (by omega), dif_pos (by omega), hg]
    refine ⟨_, rfl, fun hs => ?_⟩
    have h3 := h2 hs
    have hne : s - (k + 1 : ℕ) ≠ 0 := by
      intro h
      have h' := congrArg Complex.re h
      simp only [Complex.sub_re, Complex.natCast_re, Complex.zero_re] at h'
      have : ((k + 1 : ℕ) : ℝ) ≤ half := by exact_mod_cast (by omega : k + 1 ≤ half)
      linarith
    have h4 := Complex.Gamma_add_one _ hne
    rw [show s - ((k + 1 : ℕ) : ℂ) + 1 = s - k by push_cast; ring, h3] at h4
    rw [h4]; ring

/-- The weight of `j` pairs in the code. -/
theorem scalarFactor_some (D : Data L E) (R r : ℕ) (hr : r % 2 = 0) (hrR : r ≤ R) :
    ∃ sc, scalarFactor D R r = some sc ∧ (((R / 2 : ℕ) : ℝ) < D.s.re →
      (-1 / 2) ^ (r / 2) * D.F ^ (r / 2) * Complex.Gamma (D.s - (r / 2 : ℕ)) = sc * Complex.Gamma (D.s - (R / 2 : ℕ))) := by
  obtain ⟨g, hg, h⟩ := reduceGamma_some D.s (R / 2) (R / 2 - r / 2) (r / 2) (by omega)
  unfold scalarFactor
  rw [if_pos hr, hg]
  refine ⟨_, rfl, fun hs => ?_⟩
  rw [h hs]; ring

theorem termSummands_spec {ε : Fin d → ℂ} (hε : ∀ m, ε m ^ 2 = 1) (D : Data L E) (hD : D.D = d) (p : Fin E → Fin d → ℂ)
    (τ : I → Fin d) (R : ℕ) (t : Term L E I) (hR : t.loop.length ≤ R) (ht : ∀ μ, t.idx.count μ ≤ 2) (w : ℕ → ℂ)
    (hw : ∀ j, 2 * j ≤ R → scalarFactor D R (2 * j) = some (w j)) :
    ∃ out, termSummands D R t = some out ∧
      (out.map fun S => S.value ε p τ).sum = D.U ^ (R - t.loop.length) * t.coef * wsum ε D p τ t w := by
  obtain ⟨subs, hsubs, hperm⟩ := C09_powerset t.loop 0 2 (by omega)
  unfold termSummands
  rw [hsubs]
  have key : ∀ A ∈ subs, ∃ o, ((missing t.loop A).bind fun pIdx => (allPairs A).bind fun pairings =>
      pairings.mapM fun pairs => summand D R A.length t pairs pIdx) = some o ∧
      (o.map fun S => S.value ε p τ).sum = D.U ^ (R - t.loop.length) * t.coef * (w (A.length / 2) *
        ((allPairsRec A).map fun pairs => coefOf D pairs * tval ε (body D p t.ext pairs ((missing t.loop A).getD [])) τ).sum) := by
    intro A hA
    have hA' := hperm.subset hA
    simp only [List.mem_filter, List.mem_sublists, decide_eq_true_eq] at hA'
    obtain ⟨hsub, _, hdvd⟩ := hA'
    have h2 : A.length % 2 = 0 := by omega
    cases hm : missing t.loop A with
    | none => exact absurd hsub.subperm ((C09_missing t.loop A).1.1 hm)
    | some B =>
      have hB := ((C09_missing t.loop A).2 B hm).1
      have hAB : (A ++ B).Perm t.loop := List.perm_append_comm.trans hB
      have hle : A.length ≤ R := le_trans hsub.length_le hR
      simp only [Option.bind_some, allPairs, if_pos h2, Option.getD_some]
      obtain ⟨o, ho, hs⟩ := mapM_sum (fun pairs => summand D R A.length t pairs B) (fun S => S.value ε p τ)
        (fun pairs => (D.U ^ (R - t.loop.length) * t.coef * w (A.length / 2)) * (coefOf D pairs * tval ε (body D p t.ext pairs B) τ))
        (allPairsRec A) (by
          intro pairs hp
          obtain ⟨S, hS, hv⟩ := summand_spec hε D hD p τ R A.length t pairs B (w (A.length / 2))
            (by have := hw (A.length / 2) (by omega); rwa [show 2 * (A.length / 2) = A.length by omega] at this)
            (fun μ => by rw [body_count D p t A B h2 hAB pairs hp]; exact ht μ)
          exact ⟨S, hS, by rw [hv]; ring⟩)
      refine ⟨o, ho, ?_⟩
      rw [hs, sum_map_mul']; ring
  obtain ⟨o, ho, hs⟩ := mapM_sum _ (fun b : List (Summand E I) => (b.map fun S => S.value ε p τ).sum) _ subs key
  simp only [Option.bind_some]
  refine ⟨o.flatten, by rw [ho]; rfl, ?_⟩
  rw [sum_flatten, hs, sum_map_mul']
  congr 1
  rw [(hperm.map _).sum_eq]
  have hq := ((splits_fst t.loop).trans (List.sublists_perm_sublists' t.loop).symm).filter
    (fun l => decide (0 ≤ l.length ∧ 2 ∣ l.length - 0))
  rw [← (hq.map _).sum_eq, wsum]
  clear hs ho o key hsubs hperm hq
  have hsp := splits_perm t.loop
  generalize splits t.loop = sp at hsp
  induction sp with
  | nil => rfl
  | cons s sp ih =>
    have ih' := ih fun s hs => hsp s (by simp [hs])
    have hs := hsp s (by simp)
    rw [List.map_cons, List.map_cons, List.sum_cons, ← ih']
    by_cases h2 : s.1.length % 2 = 0
    · rw [List.filter_cons_of_pos (by simp; omega), List.map_cons, List.sum_cons, if_pos h2]
      congr 2
      have hsub : List.Subperm s.1 t.loop := (List.sublist_append_left s.1 s.2).subperm.trans hs.subperm
      cases hm : missing t.loop s.1 with
      | none => exact absurd hsub ((C09_missing t.loop s.1).1.1 hm)
      | some B =>
        have hB := ((C09_missing t.loop s.1).2 B hm).1
        have hBs : B.Perm s.2 := by
          have h3 : (s.1 ++ B).Perm (s.1 ++ s.2) := (List.perm_append_comm.trans hB).trans hs.symm
          exact (List.perm_append_left_iff _).1 h3
        congr 1
        refine List.map_congr_left fun pairs _ => ?_
        congr 1
        apply tval_perm
        unfold body
        exact List.Perm.append_left _ (List.Perm.append_right _ (hBs.map _))
    · rw [List.filter_cons_of_neg (by simp; omega), if_neg h2, zero_add]

end
end Numer
end SecDec
