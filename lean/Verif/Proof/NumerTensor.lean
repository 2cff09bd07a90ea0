import Verif.Proof.NumerMain
import Mathlib.Analysis.SpecialFunctions.Gamma.Beta
/-
Reading the terms, and the integral over the scale (proof of property C50).
-/
namespace SecDec
namespace Numer
open scoped BigOperators
open Misc MeasureTheory
noncomputable section
variable {L E d n : ℕ} {I : Type} [DecidableEq I]

/-! ### `_numerator_tensors` -/

theorem filter_split {α : Type} [BEq α] [LawfulBEq α] [DecidableEq α] (l : List α) (a : α) :
    (List.replicate (l.count a) a ++ l.filter (fun f => f ≠ a)).Perm l := by
  have h := List.filter_append_perm (fun x => x == a) l
  rw [List.filter_beq] at h
  refine List.Perm.trans ?_ h
  refine List.Perm.append_left _ ?_
  have : (fun f => decide (f ≠ a)) = fun x => !(x == a) := by funext x; by_cases hx : x = a <;> simp [hx]
  rw [this]

def searchStep (μ : I) (st : List (Fin n × I) × ℕ × List (Fin n × I)) (i : Fin n) :
    Option (List (Fin n × I) × ℕ × List (Fin n × I)) :=
  let c := st.2.2.count (i, μ)
  if st.2.1 + c ≤ 2 then
    some (st.1 ++ List.replicate c (i, μ), st.2.1 + c, st.2.2.filter (fun f => f ≠ (i, μ)))
  else none

theorem search_list (μ : I) (is : List (Fin n)) : ∀ st : List (Fin n × I) × ℕ × List (Fin n × I),
    (∀ st', is.foldlM (searchStep μ) st = some st' → ∃ got, st'.1 = st.1 ++ got ∧ (got ++ st'.2.2).Perm st.2.2 ∧
      st'.2.1 = st.2.1 + got.length ∧ (∀ f ∈ got, f.2 = μ) ∧ (∀ f ∈ st'.2.2, f ∈ st.2.2 ∧ ¬ (f.2 = μ ∧ f.1 ∈ is)) ∧
      (st.2.1 ≤ 2 → st'.2.1 ≤ 2)) ∧
    (st.2.1 + st.2.2.countP (fun f => f.2 = μ) ≤ 2 → ∃ st', is.foldlM (searchStep μ) st = some st') := by
  induction is with
  | nil =>
    intro st
    refine ⟨fun st' h => ?_, fun _ => ⟨st, rfl⟩⟩
    have : st = st' := by simpa using h
    subst this
    exact ⟨[], by simp⟩
  | cons i is ih =>
    intro st
    have hsplit := filter_split st.2.2 (i, μ)
    have hcp : st.2.2.countP (fun f => f.2 = μ) = st.2.2.count (i, μ) +
        (st.2.2.filter (fun f => f ≠ (i, μ))).countP (fun f => f.2 = μ) := by
      rw [← hsplit.countP_eq, List.countP_append]
      congr 1
      rw [List.countP_replicate]; simp
    constructor
    · intro st' h
      rw [List.foldlM_cons] at h
      obtain ⟨s1, h1, h2⟩ := Option.bind_eq_some_iff.1 h
      unfold searchStep at h1
      dsimp only at h1
      by_cases hc : st.2.1 + st.2.2.count (i, μ) ≤ 2
      · rw [if_pos hc, Option.some.injEq] at h1
        obtain ⟨got, g1, g2, g3, g4, g5, g6⟩ := (ih s1).1 st' h2
        subst h1
        refine ⟨List.replicate (st.2.2.count (i, μ)) (i, μ) ++ got, ?_, ?_, ?_, ?_, ?_, ?_⟩
        · rw [g1, List.append_assoc]
        · rw [List.append_assoc]
          exact (List.Perm.append_left _ g2).trans hsplit
        · rw [g3, List.length_append, List.length_replicate]; dsimp only; omega
        · intro f hf
          rcases List.mem_append.1 hf with hf | hf
          · rw [List.eq_of_mem_replicate hf]
          · exact g4 f hf
        · intro f hf
          obtain ⟨k1, k2⟩ := g5 f hf
          dsimp only at k1
          rw [List.mem_filter] at k1
          refine ⟨k1.1, ?_⟩
          rintro ⟨k3, k4⟩
          rcases List.mem_cons.1 k4 with k4 | k4
          · have k5 := k1.2
            simp only [ne_eq, decide_eq_true_eq] at k5
            exact k5 (Prod.ext k4 k3)
          · exact k2 ⟨k3, k4⟩
        · intro _; exact g6 hc
      · rw [if_neg hc] at h1; exact absurd h1 (by simp)
    · intro hb
      have hc : st.2.1 + st.2.2.count (i, μ) ≤ 2 := by omega
      obtain ⟨st', h'⟩ := (ih (st.1 ++ List.replicate (st.2.2.count (i, μ)) (i, μ), st.2.1 + st.2.2.count (i, μ),
        st.2.2.filter (fun f => f ≠ (i, μ)))).2 (by dsimp only; omega)
      refine ⟨st', ?_⟩
      rw [List.foldlM_cons, searchStep, if_pos hc]
      exact h'

theorem search_some (μ : I) (lst : List (Fin n × I)) (c : ℕ) (facs : List (Fin n × I))
    (st' : List (Fin n × I) × ℕ × List (Fin n × I)) (h : searchMomenta μ lst c facs = some st') :
    ∃ got, st'.1 = lst ++ got ∧ (got ++ st'.2.2).Perm facs ∧ st'.2.1 = c + got.length ∧
      got.length = facs.countP (fun f => f.2 = μ) ∧ (∀ f ∈ st'.2.2, f ∈ facs ∧ f.2 ≠ μ) ∧ (c ≤ 2 → st'.2.1 ≤ 2) := by
  obtain ⟨got, g1, g2, g3, g4, g5, g6⟩ := (search_list μ (List.finRange n) (lst, c, facs)).1 st' h
  have g5' : ∀ f ∈ st'.2.2, f ∈ facs ∧ f.2 ≠ μ := fun f hf =>
    ⟨(g5 f hf).1, fun hμ => (g5 f hf).2 ⟨hμ, List.mem_finRange _⟩⟩
  refine ⟨got, g1, g2, g3, ?_, g5', g6⟩
  rw [← g2.countP_eq, List.countP_append, List.countP_eq_length.2 (fun f hf => by simpa using g4 f hf),
    List.countP_eq_zero.2 (fun f hf => by simpa using (g5' f hf).2), Nat.add_zero]

theorem search_exists (μ : I) (lst : List (Fin n × I)) (c : ℕ) (facs : List (Fin n × I))
    (h : c + facs.countP (fun f => f.2 = μ) ≤ 2) : ∃ st', searchMomenta μ lst c facs = some st' :=
  (search_list μ (List.finRange n) (lst, c, facs)).2 h

def tstep (st : (List (Fin L × I) × List (Fin L × I)) × (List (Fin E × I) × List (Fin E × I))) (μ : I) :
    Option ((List (Fin L × I) × List (Fin L × I)) × (List (Fin E × I) × List (Fin E × I))) :=
  (searchMomenta μ st.1.1 0 st.1.2).bind fun a =>
      (searchMomenta μ st.2.1 a.2.1 st.2.2).map fun b => ((a.1, a.2.2), (b.1, b.2.2))

theorem tstep_list (indices : List I) : ∀ st : (List (Fin L × I) × List (Fin L × I)) × (List (Fin E × I) × List (Fin E × I)),
    (∀ st', indices.foldlM tstep st = some st' →
      (st'.1.1 ++ st'.1.2).Perm (st.1.1 ++ st.1.2) ∧ (st'.2.1 ++ st'.2.2).Perm (st.2.1 ++ st.2.2) ∧
      (∀ f ∈ st'.1.2, f ∈ st.1.2 ∧ f.2 ∉ indices) ∧ (∀ f ∈ st'.2.2, f ∈ st.2.2 ∧ f.2 ∉ indices) ∧
      (∀ μ ∈ indices, st.1.2.countP (fun f => f.2 = μ) + st.2.2.countP (fun f => f.2 = μ) ≤ 2)) ∧
    ((∀ μ ∈ indices, st.1.2.countP (fun f => f.2 = μ) + st.2.2.countP (fun f => f.2 = μ) ≤ 2) →
      ∃ st', indices.foldlM tstep st = some st') := by
  induction indices with
  | nil =>
    intro st
    refine ⟨fun st' h => ?_, fun _ => ⟨st, rfl⟩⟩
    have : st = st' := by simpa using h
    subst this
    simp
  | cons μ indices ih =>
    intro st
    -- what one step does
    have step : ∀ s1, tstep st μ = some s1 →
        (s1.1.1 ++ s1.1.2).Perm (st.1.1 ++ st.1.2) ∧ (s1.2.1 ++ s1.2.2).Perm (st.2.1 ++ st.2.2) ∧
        (∀ f ∈ s1.1.2, f ∈ st.1.2 ∧ f.2 ≠ μ) ∧ (∀ f ∈ s1.2.2, f ∈ st.2.2 ∧ f.2 ≠ μ) ∧
        st.1.2.countP (fun f => f.2 = μ) + st.2.2.countP (fun f => f.2 = μ) ≤ 2 ∧
        (∀ ν, ν ≠ μ → s1.1.2.countP (fun f => f.2 = ν) = st.1.2.countP (fun f => f.2 = ν) ∧
          s1.2.2.countP (fun f => f.2 = ν) = st.2.2.countP (fun f => f.2 = ν)) := by
      intro s1 h1
      unfold tstep at h1
      obtain ⟨a, ha, h2⟩ := Option.bind_eq_some_iff.1 h1
      obtain ⟨b, hb, rfl⟩ := Option.map_eq_some_iff.1 h2
      obtain ⟨g, g1, g2, g3, g4, g5, g6⟩ := search_some μ _ _ _ _ ha
      obtain ⟨k, k1, k2, k3, k4, k5, k6⟩ := search_some μ _ _ _ _ hb
      dsimp only
      refine ⟨?_, ?_, g5, k5, ?_, ?_⟩
      · rw [g1, List.append_assoc]; exact List.Perm.append_left _ g2
      · rw [k1, List.append_assoc]; exact List.Perm.append_left _ k2
      · have := k6 (g6 (by omega)); omega
      · intro ν hν
        have e : ∀ {m : ℕ} (got rem facs : List (Fin m × I)), (got ++ rem).Perm facs →
            got.length = facs.countP (fun f => f.2 = μ) → (∀ f ∈ rem, f ∈ facs ∧ f.2 ≠ μ) →
            rem.countP (fun f => f.2 = ν) = facs.countP (fun f => f.2 = ν) := by
          intro m got rem facs q1 q2 q3
          have q4 : got.countP (fun f => f.2 = μ) = got.length := by
            have := q1.countP_eq (fun f => decide (f.2 = μ))
            have hz : rem.countP (fun f => decide (f.2 = μ)) = 0 :=
              List.countP_eq_zero.2 (fun f hf => by simpa using (q3 f hf).2)
            rw [List.countP_append, hz] at this
            omega
          have hz : got.countP (fun f => decide (f.2 = ν)) = 0 := by
            refine List.countP_eq_zero.2 fun f hf => ?_
            have := List.countP_eq_length.1 q4 f hf
            simp only [decide_eq_true_eq] at this ⊢
            rw [this]; exact Ne.symm hν
          rw [← q1.countP_eq, List.countP_append, hz, Nat.zero_add]
        exact ⟨e g a.2.2 _ g2 g4 g5, e k b.2.2 _ k2 k4 k5⟩
    constructor
    · intro st' h
      rw [List.foldlM_cons] at h
      obtain ⟨s1, h1, h2⟩ := Option.bind_eq_some_iff.1 h
      obtain ⟨a1, a2, a3, a4, a5, a6⟩ := step s1 h1
      obtain ⟨b1, b2, b3, b4, b5⟩ := (ih s1).1 st' h2
      refine ⟨b1.trans a1, b2.trans a2, ?_, ?_, ?_⟩
      · intro f hf
        obtain ⟨c1, c2⟩ := b3 f hf
        exact ⟨(a3 f c1).1, by simp [(a3 f c1).2, c2]⟩
      · intro f hf
        obtain ⟨c1, c2⟩ := b4 f hf
        exact ⟨(a4 f c1).1, by simp [(a4 f c1).2, c2]⟩
      · intro ν hν
        by_cases hνμ : ν = μ
        · subst hνμ; exact a5
        · have := b5 ν (by simpa [hνμ] using hν)
          rw [(a6 ν hνμ).1, (a6 ν hνμ).2] at this
          exact this
    · intro hb
      have h0 := hb μ (by simp)
      obtain ⟨a, ha⟩ := search_exists μ st.1.1 0 st.1.2 (by omega)
      obtain ⟨g, g1, g2, g3, g4, g5, g6⟩ := search_some μ _ _ _ _ ha
      obtain ⟨b, hb'⟩ := search_exists μ st.2.1 a.2.1 st.2.2 (by omega)
      have hst : tstep st μ = some ((a.1, a.2.2), (b.1, b.2.2)) := by
        rw [tstep, ha]; simp [hb']
      obtain ⟨_, _, _, _, _, a6⟩ := step _ hst
      obtain ⟨st', h'⟩ := (ih ((a.1, a.2.2), (b.1, b.2.2))).2 (by
        intro ν hν
        by_cases hνμ : ν = μ
        · obtain ⟨_, _, a3, a4, _, _⟩ := step _ hst
          rw [List.countP_eq_zero.2, List.countP_eq_zero.2]
          · omega
          · intro f hf; rw [hνμ]; simpa using (a4 f hf).2
          · intro f hf; rw [hνμ]; simpa using (a3 f hf).2
        · have := hb ν (by simp [hν])
          rw [(a6 ν hνμ).1, (a6 ν hνμ).2]; exact this)
      exact ⟨st', by rw [List.foldlM_cons, hst]; exact h'⟩

theorem idx_count (t : Term L E I) (μ : I) :
    t.idx.count μ = t.loop.countP (fun f => f.2 = μ) + t.ext.countP (fun f => f.2 = μ) := by
  unfold Term.idx
  rw [List.count_append, List.count_eq_countP, List.count_eq_countP, List.countP_map, List.countP_map]
  have : ∀ {m : ℕ}, ((fun x => x == μ) ∘ Prod.snd : Fin m × I → Bool) = fun f => decide (f.2 = μ) := by
    intro m; funext f; by_cases hf : f.2 = μ <;> simp [hf]
  rw [this, this]

/-- the lists of the code are rearrangements of the factors of the term -/
theorem tensors_some (indices : List I) (t t' : Term L E I) (hall : ∀ μ ∈ t.idx, μ ∈ indices)
    (h : tensors indices t = some t') :
    t'.loop.Perm t.loop ∧ t'.ext.Perm t.ext ∧ t'.coef = t.coef ∧ ∀ μ, t.idx.count μ ≤ 2 := by
  unfold tensors at h
  obtain ⟨st, hst, rfl⟩ := Option.map_eq_some_iff.1 h
  obtain ⟨a1, a2, a3, a4, a5⟩ := (tstep_list indices _).1 st hst
  have e1 : st.1.2 = [] := by
    rw [List.eq_nil_iff_forall_not_mem]
    intro f hf
    exact (a3 f hf).2 (hall _ (by unfold Term.idx; exact List.mem_append_left _ (List.mem_map_of_mem (a3 f hf).1)))
  have e2 : st.2.2 = [] := by
    rw [List.eq_nil_iff_forall_not_mem]
    intro f hf
    exact (a4 f hf).2 (hall _ (by unfold Term.idx; exact List.mem_append_right _ (List.mem_map_of_mem (a4 f hf).1)))
  refine ⟨by simpa [e1] using a1, by simpa [e2] using a2, rfl, fun μ => ?_⟩
  by_cases hμ : μ ∈ t.idx
  · rw [idx_count]; exact a5 μ (hall μ hμ)
  · rw [List.count_eq_zero.2 hμ]; omega

theorem tensors_exists (indices : List I) (t : Term L E I) (h : ∀ μ ∈ indices, t.idx.count μ ≤ 2) :
    ∃ t', tensors indices t = some t' := by
  obtain ⟨st, hst⟩ := (tstep_list indices ((([] : List (Fin L × I)), t.loop), (([] : List (Fin E × I)), t.ext))).2
    (fun μ hμ => by have := h μ hμ; rwa [idx_count] at this)
  refine ⟨⟨st.1.1, st.2.1, t.coef⟩, ?_⟩
  unfold tensors
  exact congrArg (Option.map fun st : (List (Fin L × I) × List (Fin L × I)) × (List (Fin E × I) × List (Fin E × I)) =>
    (⟨st.1.1, st.2.1, t.coef⟩ : Term L E I)) hst

omit [DecidableEq I] in
theorem idx_perm {t t' : Term L E I} (h1 : t'.loop.Perm t.loop) (h2 : t'.ext.Perm t.ext) : t'.idx.Perm t.idx :=
  List.Perm.append (h1.map _) (h2.map _)

theorem mean_perm (ε : Fin d → ℂ) (p : Fin E → Fin d → ℂ) (T : List (Fin L × Fin d) → ℂ)
    (hT : ∀ l l', l.Perm l' → T l = T l') (τ : I → Fin d) {t t' : Term L E I} (h1 : t'.loop.Perm t.loop)
    (h2 : t'.ext.Perm t.ext) (h3 : t'.coef = t.coef) : t'.mean ε p T τ = t.mean ε p T τ := by
  unfold Term.mean einstein
  have hp : (repeated t'.idx).Perm (repeated t.idx) := repeated_perm fun μ => by rw [(idx_perm h1 h2).count_eq]
  rw [contract_perm ε hp]
  congr 1
  funext σ
  rw [h3, hT _ _ (h1.map _), (h2.map _).prod_eq]

/-! ### The integral over the scale -/

theorem integral_list_sum {β : Type} {f : β → ℝ → ℂ} {S : Set ℝ} (l : List β) (h : ∀ b ∈ l, IntegrableOn (f b) S) :
    IntegrableOn (fun x => (l.map fun b => f b x).sum) S ∧
      ∫ x in S, (l.map fun b => f b x).sum = (l.map fun b => ∫ x in S, f b x).sum := by
  induction l with
  | nil => simp
  | cons b l ih =>
    obtain ⟨i1, i2⟩ := ih fun x hx => h x (by simp [hx])
    have h0 := h b (by simp)
    simp only [List.map_cons, List.sum_cons]
    exact ⟨h0.add i1, by rw [integral_add h0 i1, i2]⟩

theorem scale_integral (s : ℂ) (U : ℂ) (r : ℝ) (hr : 0 < r) (j : ℕ) (hs : (j : ℝ) < s.re) :
    IntegrableOn (fun a : ℝ => (a : ℂ) ^ (s - 1) * Complex.exp (-(r * a)) * (-U / (2 * a)) ^ j) (Set.Ioi 0) ∧
    ∫ a : ℝ in Set.Ioi 0, (a : ℂ) ^ (s - 1) * Complex.exp (-(r * a)) * (-U / (2 * a)) ^ j =
      (1 / (r : ℂ)) ^ s * ((-1 / 2) ^ j * (r * U) ^ j * Complex.Gamma (s - j)) := by
  have e : ∀ a ∈ Set.Ioi (0 : ℝ), (a : ℂ) ^ (s - 1) * Complex.exp (-(r * a)) * (-U / (2 * a)) ^ j =
      (-U / 2) ^ j * ((a : ℂ) ^ (s - j - 1) * Complex.exp (-(r * a))) := by
    intro a ha
    have ha' : (a : ℂ) ≠ 0 := by exact_mod_cast (ne_of_gt ha)
    rw [show s - 1 = (s - j - 1) + (j : ℂ) by ring, Complex.cpow_add _ _ ha', Complex.cpow_natCast,
      show -U / (2 * (a : ℂ)) = (-U / 2) / a by field_simp, div_pow]
    field_simp
  have hg := Complex.integral_cpow_mul_exp_neg_mul_Ioi (a := s - j) (r := r) (by simp; linarith) hr
  constructor
  · rw [integrableOn_congr_fun e measurableSet_Ioi]
    apply Integrable.const_mul
    by_contra hn
    have h0 := integral_undef hn
    rw [hg] at h0
    have h1 : (1 / (r : ℂ)) ^ (s - j) ≠ 0 := by
      rw [Complex.cpow_def_of_ne_zero (by simp; exact ne_of_gt hr)]; exact Complex.exp_ne_zero _
    rcases mul_eq_zero.1 h0 with h2 | h2
    · exact h1 h2
    · exact Complex.Gamma_ne_zero_of_re_pos (by simp; linarith) h2
  · rw [setIntegral_congr_fun measurableSet_Ioi e, integral_const_mul, hg]
    have hr' : (r : ℂ) ≠ 0 := by exact_mod_cast (ne_of_gt hr)
    have h1 : (1 / (r : ℂ)) ^ s = (1 / (r : ℂ)) ^ (s - j) * (1 / (r : ℂ)) ^ j := by
      rw [← Complex.cpow_natCast, ← Complex.cpow_add _ _ (by simp [hr'])]; ring_nf
    rw [h1, mul_pow, one_div, inv_pow, div_pow, div_pow, neg_pow U]
    field_simp

theorem wsum_integral (ε : Fin d → ℂ) (D : Data L E) (p : Fin E → Fin d → ℂ) (τ : I → Fin d) (t : Term L E I)
    (g : ℝ → ℂ) (w : ℕ → ℝ → ℂ) (v : ℕ → ℂ)
    (h : ∀ j, 2 * j ≤ t.loop.length → IntegrableOn (fun a => g a * w j a) (Set.Ioi 0) ∧ ∫ a in Set.Ioi 0, g a * w j a = v j) :
    IntegrableOn (fun a => g a * wsum ε D p τ t (fun j => w j a)) (Set.Ioi 0) ∧
    ∫ a in Set.Ioi 0, g a * wsum ε D p τ t (fun j => w j a) = wsum ε D p τ t v := by
  unfold wsum
  have e0 : (fun a => g a * ((splits t.loop).map fun s => if s.1.length % 2 = 0 then w (s.1.length / 2) a *
      ((allPairsRec s.1).map fun pairs => coefOf D pairs * tval ε (body D p t.ext pairs s.2) τ).sum else 0).sum) =
      fun a => ((splits t.loop).map fun s => g a * if s.1.length % 2 = 0 then w (s.1.length / 2) a *
      ((allPairsRec s.1).map fun pairs => coefOf D pairs * tval ε (body D p t.ext pairs s.2) τ).sum else 0).sum := by
    funext a
    rw [sum_map_mul']
  rw [e0]
  have key : ∀ s ∈ splits t.loop, IntegrableOn (fun a => g a * if s.1.length % 2 = 0 then w (s.1.length / 2) a *
      ((allPairsRec s.1).map fun pairs => coefOf D pairs * tval ε (body D p t.ext pairs s.2) τ).sum else 0) (Set.Ioi 0) ∧
      ∫ a in Set.Ioi 0, (g a * if s.1.length % 2 = 0 then w (s.1.length / 2) a *
      ((allPairsRec s.1).map fun pairs => coefOf D pairs * tval ε (body D p t.ext pairs s.2) τ).sum else 0) =
      if s.1.length % 2 = 0 then v (s.1.length / 2) *
      ((allPairsRec s.1).map fun pairs => coefOf D pairs * tval ε (body D p t.ext pairs s.2) τ).sum else 0 := by
    intro s hs
    have hl := (splits_perm _ s hs).length_eq
    rw [List.length_append] at hl
    by_cases h2 : s.1.length % 2 = 0
    · simp only [if_pos h2, ← mul_assoc]
      obtain ⟨h3, h4⟩ := h (s.1.length / 2) (by omega)
      exact ⟨h3.mul_const _, by rw [integral_mul_const, h4]⟩
    · simp only [if_neg h2, mul_zero]
      exact ⟨integrableOn_zero, by simp⟩
  obtain ⟨h5, h6⟩ := integral_list_sum _ fun s hs => (key s hs).1
  refine ⟨h5, ?_⟩
  rw [h6]
  congr 1
  exact List.map_congr_left fun s hs => (key s hs).2

theorem wsum_mul (ε : Fin d → ℂ) (D : Data L E) (p : Fin E → Fin d → ℂ) (τ : I → Fin d) (t : Term L E I) (c : ℂ)
    (w v : ℕ → ℂ) (h : ∀ j, 2 * j ≤ t.loop.length → w j = c * v j) :
    wsum ε D p τ t w = c * wsum ε D p τ t v := by
  unfold wsum
  rw [← sum_map_mul']
  congr 1
  refine List.map_congr_left fun s hs => ?_
  have hl := (splits_perm _ s hs).length_eq
  rw [List.length_append] at hl
  by_cases h2 : s.1.length % 2 = 0
  · simp only [if_pos h2]; rw [h _ (by omega)]; ring
  · simp only [if_neg h2]; ring

theorem le_max {l : List ℕ} {R : ℕ} (h : l.max? = some R) : ∀ x ∈ l, x ≤ R :=
  (List.max?_eq_some_iff.1 h).2

theorem mapM_forall₂ {α β : Type} {f : α → Option β} : ∀ {l : List α} {m : List β}, l.mapM f = some m →
    List.Forall₂ (fun a b => f a = some b) l m := by
  intro l
  induction l with
  | nil => intro m h; simp at h; subst h; exact List.Forall₂.nil
  | cons a l ih =>
    intro m h
    rw [List.mapM_cons] at h
    obtain ⟨b, hb, h2⟩ := Option.bind_eq_some_iff.1 h
    obtain ⟨m', hm', h3⟩ := Option.bind_eq_some_iff.1 h2
    have : b :: m' = m := by simpa using h3
    subst this
    exact List.Forall₂.cons hb (ih hm')

theorem mapM_exists {α β : Type} {f : α → Option β} (l : List α) (h : ∀ a ∈ l, ∃ b, f a = some b) :
    ∃ m, l.mapM f = some m := by
  obtain ⟨m, hm, _⟩ := mapM_sum f (fun _ => 0) (fun _ => 0) l fun a ha => by
    obtain ⟨b, hb⟩ := h a ha; exact ⟨b, hb, rfl⟩
  exact ⟨m, hm⟩

theorem numerator_moments {ε : Fin d → ℂ} (hε : ∀ m, ε m ^ 2 = 1) (D : Data L E) (hD : D.D = d) (M : Fin L → Fin L → ℂ)
    (hU : D.U ≠ 0) (haM : ∀ a c, ∑ b, D.aM a b * M b c = if a = c then D.U else 0) (p : Fin E → Fin d → ℂ)
    (T : ℝ → List (Fin L × Fin d) → ℂ)
    (hT : ∀ a : ℝ, 0 < a → Moments ε M (fun a m => ∑ e, D.Q a e * p e m) a (T a)) (τ : I → Fin d)
    (indices : List I) (isOne : Bool) (terms : List (Term L E I)) (hadm : ∀ t ∈ terms, t.Adm indices)
    (hone : isOne = true → terms = [⟨[], [], 1⟩])
    (R : ℕ) (hR : (terms.map fun t => t.loop.length).max? = some R) (r : ℝ) (hr : 0 < r) (hF : D.F = r * D.U)
    (hs : ((R / 2 : ℕ) : ℝ) < D.s.re) :
    ∃ out, numerator D indices isOne terms = some out ∧
      ∫ a : ℝ in Set.Ioi 0, (a : ℂ) ^ (D.s - 1) * Complex.exp (-(r * a)) * (terms.map fun t => t.mean ε p (T a) τ).sum =
        Complex.Gamma (gammaArgument D R) * (1 / (r : ℂ)) ^ D.s * (D.U ^ R)⁻¹ * (out.map fun S => S.value ε p τ).sum := by
  obtain ⟨ts, hts⟩ := mapM_exists (f := tensors indices) terms fun t ht =>
    tensors_exists indices t fun μ _ => (hadm t ht).2 μ
  have hf := mapM_forall₂ hts
  -- the weights
  choose! w hw1 hw2 using fun j (hj : 2 * j ≤ R) => scalarFactor_some D R (2 * j) (by omega) hj
  have hw3 : ∀ j, 2 * j ≤ R → (-1 / 2) ^ j * D.F ^ j * Complex.Gamma (D.s - j) = w j * Complex.Gamma (D.s - (R / 2 : ℕ)) := by
    intro j hj
    have := hw2 j hj hs
    rwa [show 2 * j / 2 = j by omega] at this
  -- the rank
  have hlen : ts.map (fun t => t.loop.length) = terms.map fun t => t.loop.length := by
    have : ∀ {l m}, List.Forall₂ (fun a b => tensors indices a = some b) l m → (∀ t ∈ l, Term.Adm (L := L) (E := E) indices t) →
        m.map (fun t => t.loop.length) = l.map fun t => t.loop.length := by
      intro l m h
      induction h with
      | nil => intro _; rfl
      | cons h1 _ ih =>
        intro ha
        rw [List.map_cons, List.map_cons, ih fun t ht => ha t (by simp [ht])]
        rw [(tensors_some indices _ _ (ha _ (by simp)).1 h1).1.length_eq]
    exact this hf hadm
  have hR' : highestRank ts = some R := by unfold highestRank; rw [hlen]; exact hR
  have hle : ∀ t ∈ ts, t.loop.length ≤ R := fun t ht => le_max hR' _ (List.mem_map_of_mem ht)
  -- one term
  have hcnt : ∀ t ∈ ts, ∀ μ, t.idx.count μ ≤ 2 := by
    intro t ht μ
    obtain ⟨i, hi⟩ := List.mem_iff_getElem?.1 ht
    have hlen2 := hf.length_eq
    have hi' : i < ts.length := (List.getElem?_eq_some_iff.1 hi).1
    have := List.Forall₂.get hf (show i < terms.length by omega) hi'
    simp only [List.get_eq_getElem] at this
    rw [(List.getElem?_eq_some_iff.1 hi).2] at this
    have hm := List.getElem_mem (l := terms) (show i < terms.length by omega)
    obtain ⟨q1, q2, q3, q4⟩ := tensors_some indices _ _ (hadm _ hm).1 this
    rw [(idx_perm q1 q2).count_eq]; exact q4 μ
  obtain ⟨outs, ho1, ho2⟩ := mapM_sum (termSummands D R) (fun b => (b.map fun S => S.value ε p τ).sum)
    (fun t => D.U ^ (R - t.loop.length) * t.coef * wsum ε D p τ t w) ts (fun t ht =>
      termSummands_spec hε D hD p τ R t (hle t ht) (hcnt t ht) w hw1)
  have hint : ∀ t ∈ ts, IntegrableOn (fun a : ℝ => (a : ℂ) ^ (D.s - 1) * Complex.exp (-(r * a)) * t.mean ε p (T a) τ) (Set.Ioi 0) ∧
      ∫ a : ℝ in Set.Ioi 0, (a : ℂ) ^ (D.s - 1) * Complex.exp (-(r * a)) * t.mean ε p (T a) τ =
        Complex.Gamma (gammaArgument D R) * (1 / (r : ℂ)) ^ D.s * (D.U ^ R)⁻¹ *
          (D.U ^ (R - t.loop.length) * t.coef * wsum ε D p τ t w) := by
    intro t ht
    have e : ∀ a ∈ Set.Ioi (0 : ℝ), (a : ℂ) ^ (D.s - 1) * Complex.exp (-(r * a)) * t.mean ε p (T a) τ =
        (t.coef * (D.U ^ t.loop.length)⁻¹) * (((a : ℂ) ^ (D.s - 1) * Complex.exp (-(r * a))) *
          wsum ε D p τ t (fun j => (-D.U / (2 * (a : ℂ))) ^ j)) := by
      intro a ha
      have ha' : (a : ℂ) ≠ 0 := by exact_mod_cast (ne_of_gt ha)
      rw [mean_wsum hε D M hU haM p ha' (hT a ha) τ t]; ring
    obtain ⟨i1, i2⟩ := wsum_integral ε D p τ t (fun a => (a : ℂ) ^ (D.s - 1) * Complex.exp (-(r * a)))
      (fun j a => (-D.U / (2 * (a : ℂ))) ^ j)
      (fun j => (1 / (r : ℂ)) ^ D.s * ((-1 / 2) ^ j * (r * D.U) ^ j * Complex.Gamma (D.s - j)))
      (fun j hj => scale_integral D.s D.U r hr j (by
        have h1 := hle t ht
        have : (j : ℝ) ≤ (R / 2 : ℕ) := by exact_mod_cast (by omega : j ≤ R / 2)
        linarith))
    constructor
    · rw [integrableOn_congr_fun e measurableSet_Ioi]; exact i1.const_mul _
    · rw [setIntegral_congr_fun measurableSet_Ioi e, integral_const_mul, i2,
        wsum_mul ε D p τ t ((1 / (r : ℂ)) ^ D.s * Complex.Gamma (D.s - (R / 2 : ℕ))) _ w (by
          intro j hj
          have h1 := hle t ht
          rw [← hF, hw3 j (by omega)]; ring)]
      have hg : gammaArgument D R = D.s - (R / 2 : ℕ) := rfl
      have hpow : (D.U ^ t.loop.length)⁻¹ = (D.U ^ R)⁻¹ * D.U ^ (R - t.loop.length) := by
        rw [eq_comm, inv_mul_eq_iff_eq_mul₀ (pow_ne_zero _ hU), eq_mul_inv_iff_mul_eq₀ (pow_ne_zero _ hU), ← pow_add]
        congr 1
        have := hle t ht
        omega
      rw [hg, hpow]; ring
  have hmain : ∫ a : ℝ in Set.Ioi 0, (a : ℂ) ^ (D.s - 1) * Complex.exp (-(r * a)) * (terms.map fun t => t.mean ε p (T a) τ).sum =
        Complex.Gamma (gammaArgument D R) * (1 / (r : ℂ)) ^ D.s * (D.U ^ R)⁻¹ * (outs.flatten.map fun S => S.value ε p τ).sum := by
    obtain ⟨_, i2⟩ := integral_list_sum ts fun t ht => (hint t ht).1
    rw [sum_flatten, ho2, ← sum_map_mul', ← List.map_congr_left fun t ht => (hint t ht).2, ← i2]
    refine setIntegral_congr_fun measurableSet_Ioi fun a ha => ?_
    rw [sum_map_mul']
    congr 1
    have : ∀ {l m}, List.Forall₂ (fun a b => tensors indices a = some b) l m → (∀ t ∈ l, Term.Adm (L := L) (E := E) indices t) →
        (l.map fun t => t.mean ε p (T a) τ).sum = (m.map fun t => t.mean ε p (T a) τ).sum := by
      intro l m h
      induction h with
      | nil => intro _; rfl
      | cons h1 _ ih =>
        intro hl
        obtain ⟨q1, q2, q3, _⟩ := tensors_some indices _ _ (hl _ (by simp)).1 h1
        rw [List.map_cons, List.map_cons, List.sum_cons, List.sum_cons, ih fun t ht => hl t (by simp [ht]),
          mean_perm ε p (T a) (hT a ha).perm τ q1 q2 q3]
    exact this hf hadm
  unfold numerator
  rw [hts]
  simp only [Option.bind_some, hR', ho1, Option.map_some]
  cases isOne with
  | false => exact ⟨_, rfl, hmain⟩
  | true =>
    refine ⟨_, rfl, ?_⟩
    rw [hmain]
    congr 1
    -- the shortcut gives the same number
    have := hone rfl
    subst this
    have hR0 : R = 0 := by simpa using hR.symm
    subst hR0
    have hl0 : ts.map (fun t => t.loop.length) = [0] := by rw [hlen]; rfl
    obtain ⟨t, rfl⟩ : ∃ t, ts = [t] := List.length_eq_one_iff.1 (by simpa using congrArg List.length hl0)
    have ht0 : t.loop = [] := List.length_eq_zero_iff.1 (by simpa using hl0)
    have hq : tensors indices (⟨[], [], 1⟩ : Term L E I) = some t := by
      cases hf with | cons h _ => exact h
    obtain ⟨q1, q2, q3, _⟩ := tensors_some indices _ _ (hadm _ (by simp)).1 hq
    have hx0 : t.ext = [] := List.Perm.eq_nil q2
    rw [sum_flatten, ho2]
    have hw0 : w 0 = 1 := by
      have := hw1 0 (by omega)
      unfold scalarFactor at this
      rw [if_pos (by omega), reduceGamma.eq_def, if_pos (by omega)] at this
      simpa using this.symm
    have e1 : wsum ε D p τ t w = 1 := by
      unfold wsum
      rw [ht0]
      simp [splits, allPairsRec, hw0, coefOf, body, hx0, tval, einstein, idxs, repeated, contract, pval]
    simp [e1, q3, Summand.value, Summand.idx, einstein, repeated, contract]
end
end Numer
end SecDec
