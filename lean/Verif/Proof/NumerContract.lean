import Verif.Proof.NumerWick
/-
The contractions of metric tensors by the code keep the value of a product (proof of property C50).
-/
namespace SecDec
namespace Numer
open scoped BigOperators
variable {d : ℕ} {I : Type} [DecidableEq I]

/-- A factor of a product of tensors. -/
inductive Fac (d : ℕ) (I : Type) where
  | vec (v : Fin d → ℂ) (μ : I)
  | met (μ ν : I)

def Fac.idx : Fac d I → List I
  | .vec _ μ => [μ]
  | .met μ ν => [μ, ν]

noncomputable def Fac.val (ε : Fin d → ℂ) (σ : I → Fin d) : Fac d I → ℂ
  | .vec v μ => v (σ μ)
  | .met μ ν => metric ε (σ μ) (σ ν)

def idxs (X : List (Fac d I)) : List I := X.flatMap Fac.idx
noncomputable def pval (ε : Fin d → ℂ) (X : List (Fac d I)) (σ : I → Fin d) : ℂ := (X.map (Fac.val ε σ)).prod
noncomputable def tval (ε : Fin d → ℂ) (X : List (Fac d I)) (τ : I → Fin d) : ℂ := einstein ε (idxs X) (pval ε X) τ

def Bdd (X : List (Fac d I)) : Prop := ∀ μ, (idxs X).count μ ≤ 2

theorem sumIndex_comm (ε : Fin d → ℂ) (μ ν : I) (f : (I → Fin d) → ℂ) :
    sumIndex ε μ (sumIndex ε ν f) = sumIndex ε ν (sumIndex ε μ f) := by
  by_cases h : μ = ν
  · subst h; rfl
  · funext σ
    simp only [sumIndex, Finset.mul_sum]
    rw [Finset.sum_comm]
    refine Finset.sum_congr rfl fun a _ => Finset.sum_congr rfl fun b _ => ?_
    rw [Function.update_comm h]
    ring

theorem contract_perm (ε : Fin d → ℂ) {J J' : List I} (h : J.Perm J') (f : (I → Fin d) → ℂ) :
    contract ε J f = contract ε J' f := by
  induction h with
  | nil => rfl
  | cons x _ ih => simp only [contract, ih]
  | swap x y l => simp only [contract]; rw [sumIndex_comm]
  | trans _ _ ih1 ih2 => rw [ih1, ih2]

theorem contract_append (ε : Fin d → ℂ) (J J' : List I) (f : (I → Fin d) → ℂ) :
    contract ε (J ++ J') f = contract ε J (contract ε J' f) := by
  induction J with
  | nil => rfl
  | cons x J ih => simp only [List.cons_append, contract, ih]

theorem contract_smul (ε : Fin d → ℂ) (J : List I) (c : ℂ) (f : (I → Fin d) → ℂ) :
    contract ε J (fun σ => c * f σ) = fun σ => c * contract ε J f σ := by
  induction J with
  | nil => rfl
  | cons x J ih =>
    simp only [contract, ih]
    funext σ
    simp only [sumIndex, Finset.mul_sum]
    exact Finset.sum_congr rfl fun a _ => by ring

theorem contract_add (ε : Fin d → ℂ) (J : List I) (f g : (I → Fin d) → ℂ) :
    contract ε J (fun σ => f σ + g σ) = fun σ => contract ε J f σ + contract ε J g σ := by
  induction J with
  | nil => rfl
  | cons x J ih =>
    simp only [contract, ih]
    funext σ
    simp only [sumIndex, ← Finset.sum_add_distrib]
    exact Finset.sum_congr rfl fun a _ => by ring

theorem contract_zero (ε : Fin d → ℂ) (J : List I) : contract ε J (fun _ => 0) = fun _ => 0 := by
  have := contract_smul ε J 0 (fun _ => 0)
  simpa using this

theorem contract_list_sum {β : Type} (ε : Fin d → ℂ) (J : List I) (l : List β) (f : β → (I → Fin d) → ℂ) (τ : I → Fin d) :
    contract ε J (fun σ => (l.map fun b => f b σ).sum) τ = (l.map fun b => contract ε J (f b) τ).sum := by
  induction l with
  | nil => simp [contract_zero]
  | cons b l ih => simp only [List.map_cons, List.sum_cons, contract_add, ih]

theorem mem_repeated (l : List I) (μ : I) : μ ∈ repeated l ↔ l.count μ = 2 := by
  unfold repeated
  simp only [List.mem_filter, List.mem_dedup, decide_eq_true_eq, and_iff_right_iff_imp]
  intro h
  exact List.count_pos_iff.1 (by omega)

theorem repeated_nodup (l : List I) : (repeated l).Nodup := (List.nodup_dedup l).filter _

theorem repeated_perm {l l' : List I} (h : ∀ μ, l.count μ = 2 ↔ l'.count μ = 2) : (repeated l).Perm (repeated l') := by
  rw [List.perm_ext_iff_of_nodup (repeated_nodup _) (repeated_nodup _)]
  intro μ; rw [mem_repeated, mem_repeated, h]

theorem repeated_cons {l l' : List I} (μ : I) (h2 : l.count μ = 2) (h0 : l'.count μ ≠ 2)
    (h : ∀ ν, ν ≠ μ → (l.count ν = 2 ↔ l'.count ν = 2)) : (repeated l).Perm (μ :: repeated l') := by
  rw [List.perm_ext_iff_of_nodup (repeated_nodup _)]
  · intro ν
    rw [List.mem_cons, mem_repeated, mem_repeated]
    by_cases hν : ν = μ
    · subst hν; simp [h2]
    · simp [hν, h ν hν]
  · rw [List.nodup_cons, mem_repeated]
    exact ⟨h0, repeated_nodup _⟩

theorem idxs_perm {X Y : List (Fac d I)} (h : X.Perm Y) : (idxs X).Perm (idxs Y) := h.flatMap_right _

theorem tval_perm (ε : Fin d → ℂ) {X Y : List (Fac d I)} (h : X.Perm Y) (τ : I → Fin d) : tval ε X τ = tval ε Y τ := by
  have hp : (repeated (idxs X)).Perm (repeated (idxs Y)) := repeated_perm fun μ => by rw [(idxs_perm h).count_eq]
  unfold tval einstein
  rw [contract_perm ε hp]
  congr 1
  funext σ
  exact (h.map _).prod_eq

theorem Bdd.perm {X Y : List (Fac d I)} (h : X.Perm Y) (hX : Bdd X) : Bdd Y := fun μ => by
  rw [← (idxs_perm h).count_eq]; exact hX μ

theorem val_update (ε : Fin d → ℂ) (σ : I → Fin d) (μ : I) (m : Fin d) (Y : Fac d I) (h : μ ∉ Y.idx) :
    Fac.val ε (Function.update σ μ m) Y = Fac.val ε σ Y := by
  cases Y with
  | vec v ν => simp only [Fac.idx, List.mem_singleton] at h; simp [Fac.val, Function.update_of_ne (Ne.symm h)]
  | met ν ρ =>
    simp only [Fac.idx, List.mem_cons, List.not_mem_nil, or_false, not_or] at h
    simp [Fac.val, Function.update_of_ne (Ne.symm h.1), Function.update_of_ne (Ne.symm h.2)]

theorem pval_update (ε : Fin d → ℂ) (σ : I → Fin d) (μ : I) (m : Fin d) (X : List (Fac d I)) (h : μ ∉ idxs X) :
    pval ε X (Function.update σ μ m) = pval ε X σ := by
  unfold pval
  congr 1
  refine List.map_congr_left fun Y hY => val_update ε σ μ m Y fun hm => h ?_
  exact List.mem_flatMap.2 ⟨Y, hY, hm⟩

/-- `Y'` is `Y` with the index `μ`, which it carries once, replaced by `ν`. -/
structure Renamed (μ ν : I) (Y Y' : Fac d I) : Prop where
  idx : ∃ rest : List I, Y.idx.Perm (μ :: rest) ∧ Y'.idx.Perm (ν :: rest)
  val : ∀ ε (σ : I → Fin d), Fac.val ε (Function.update σ μ (σ ν)) Y = Fac.val ε σ Y'

theorem tval_metric (ε : Fin d → ℂ) (hε : ∀ m, ε m ^ 2 = 1) (μ ν : I) (Y Y' : Fac d I) (R : List (Fac d I))
    (h : Bdd (.met μ ν :: Y :: R)) (hY : Renamed μ ν Y Y') (hne : μ ≠ ν) :
    (∀ τ, tval ε (.met μ ν :: Y :: R) τ = tval ε (Y' :: R) τ) ∧ Bdd (Y' :: R) := by
  obtain ⟨rest, hr, hr'⟩ := hY.idx
  have c1 : ∀ ρ, (idxs (.met μ ν :: Y :: R)).count ρ =
      (if μ = ρ then 2 else 0) + (if ν = ρ then 1 else 0) + rest.count ρ + (idxs R).count ρ := by
    intro ρ
    simp only [idxs, List.flatMap_cons, List.count_append, hr.count_eq]
    simp only [Fac.idx, List.count_cons, List.count_nil, beq_iff_eq]
    split_ifs <;> omega
  have c2 : ∀ ρ, (idxs (Y' :: R)).count ρ = (if ν = ρ then 1 else 0) + rest.count ρ + (idxs R).count ρ := by
    intro ρ
    simp only [idxs, List.flatMap_cons, List.count_append, hr'.count_eq, List.count_cons, beq_iff_eq]
    omega
  have hμ := h μ
  rw [c1, if_pos rfl, if_neg (Ne.symm hne)] at hμ
  constructor
  · intro τ
    have hp : (repeated (idxs (.met μ ν :: Y :: R))).Perm (μ :: repeated (idxs (Y' :: R))) := by
      apply repeated_cons
      · rw [c1, if_pos rfl, if_neg (Ne.symm hne)]; omega
      · rw [c2, if_neg (Ne.symm hne)]; omega
      · intro ρ hρ
        rw [c1, c2, if_neg (Ne.symm hρ)]; simp
    unfold tval einstein
    rw [contract_perm ε (hp.trans (List.perm_append_singleton _ _).symm), contract_append]
    congr 1
    funext σ
    simp only [contract, sumIndex]
    have hR : μ ∉ idxs R := fun hm => by have := List.count_pos_iff.2 hm; omega
    have e : ∀ m, pval ε (.met μ ν :: Y :: R) (Function.update σ μ m) =
        metric ε m (σ ν) * (Fac.val ε (Function.update σ μ m) Y * pval ε R σ) := by
      intro m
      have := pval_update ε σ μ m R hR
      simp only [pval] at this
      simp only [pval, List.map_cons, List.prod_cons, this, Fac.val, Function.update_self,
        Function.update_of_ne (Ne.symm hne)]
    simp only [e, metric]
    rw [Finset.sum_eq_single (σ ν)]
    · rw [if_pos rfl, hY.val ε σ]
      simp only [pval, List.map_cons, List.prod_cons]
      have := hε (σ ν)
      linear_combination (Fac.val ε σ Y' * (List.map (Fac.val ε σ) R).prod) * this
    · intro m _ hm; rw [if_neg hm]; ring
    · simp
  · intro ρ
    have := h ρ
    rw [c1] at this
    rw [c2]
    omega

theorem tval_trace (ε : Fin d → ℂ) (hε : ∀ m, ε m ^ 2 = 1) (μ : I) (R : List (Fac d I))
    (h : Bdd (.met μ μ :: R)) :
    (∀ τ, tval ε (.met μ μ :: R) τ = d * tval ε R τ) ∧ Bdd R := by
  have c1 : ∀ ρ, (idxs (.met μ μ :: R)).count ρ = (if μ = ρ then 2 else 0) + (idxs R).count ρ := by
    intro ρ
    simp only [idxs, List.flatMap_cons, List.count_append, Fac.idx, List.count_cons, List.count_nil, beq_iff_eq]
    split_ifs <;> omega
  have hμ := h μ
  rw [c1, if_pos rfl] at hμ
  constructor
  · intro τ
    have hp : (repeated (idxs (.met μ μ :: R))).Perm (μ :: repeated (idxs R)) := by
      apply repeated_cons
      · rw [c1, if_pos rfl]; omega
      · omega
      · intro ρ hρ
        rw [c1, if_neg (Ne.symm hρ)]; simp
    unfold tval einstein
    rw [contract_perm ε (hp.trans (List.perm_append_singleton _ _).symm), contract_append]
    have hR : μ ∉ idxs R := fun hm => by have := List.count_pos_iff.2 hm; omega
    have e : contract ε [μ] (pval ε (.met μ μ :: R)) = fun σ => (d : ℂ) * pval ε R σ := by
      funext σ
      have e : ∀ m, pval ε (.met μ μ :: R) (Function.update σ μ m) = ε m * pval ε R σ := by
        intro m
        have := pval_update ε σ μ m R hR
        simp only [pval] at this
        simp only [pval, List.map_cons, List.prod_cons, this, Fac.val, Function.update_self, metric, if_true]
      simp only [contract, sumIndex, e]
      have : ∀ m, ε m * (ε m * pval ε R σ) = pval ε R σ := fun m => by
        linear_combination (pval ε R σ) * hε m
      simp only [this, Finset.sum_const, Finset.card_univ, Fintype.card_fin, nsmul_eq_mul]
    rw [e, contract_smul]
  · intro ρ
    have := h ρ
    rw [c1] at this
    omega

theorem renamed_left (μ ν ρ : I) (h : ρ ≠ μ) : Renamed (d := d) μ ν (.met μ ρ) (.met ν ρ) := by
  refine ⟨⟨[ρ], List.Perm.refl _, List.Perm.refl _⟩, fun ε σ => ?_⟩
  simp [Fac.val, Function.update_of_ne h]

theorem renamed_right (μ ν ρ : I) (h : ρ ≠ μ) : Renamed (d := d) μ ν (.met ρ μ) (.met ρ ν) := by
  refine ⟨⟨[ρ], List.Perm.swap _ _ _, List.Perm.swap _ _ _⟩, fun ε σ => ?_⟩
  simp [Fac.val, Function.update_of_ne h]

theorem renamed_vec (μ ν : I) (v : Fin d → ℂ) : Renamed μ ν (.vec v μ) (.vec v ν) := by
  refine ⟨⟨[], List.Perm.refl _, List.Perm.refl _⟩, fun ε σ => ?_⟩
  simp [Fac.val]

theorem tval_symm (ε : Fin d → ℂ) (μ ν : I) (R : List (Fac d I)) :
    (∀ τ, tval ε (.met μ ν :: R) τ = tval ε (.met ν μ :: R) τ) ∧ (Bdd (Fac.met μ ν :: R) → Bdd (Fac.met ν μ :: R)) := by
  have hp : (idxs (.met μ ν :: R)).Perm (idxs (.met ν μ :: R)) := List.Perm.swap _ _ _
  constructor
  · intro τ
    unfold tval einstein
    have hp' : (repeated (idxs (.met μ ν :: R))).Perm (repeated (idxs (.met ν μ :: R))) :=
      repeated_perm fun μ => by rw [hp.count_eq]
    rw [contract_perm ε hp']
    congr 1
    funext σ
    simp only [pval, List.map_cons, List.prod_cons, Fac.val, metric]
    congr 1
    by_cases h : σ μ = σ ν
    · simp [h]
    · simp [h, Ne.symm h]
  · intro h ρ; rw [← hp.count_eq]; exact h ρ

theorem count_le_of_bdd {X : List (Fac d I)} (h : Bdd X) (A B : List (Fac d I)) (hp : X.Perm (A ++ B)) (μ : I) :
    (idxs A).count μ ≤ 2 := by
  have := h μ
  rw [(idxs_perm hp).count_eq, idxs, List.flatMap_append, List.count_append] at this
  unfold idxs; omega

theorem ne_of_bdd2 {μ ν ρ : I} {R : List (Fac d I)} (h : Bdd (.met μ ν :: .met μ ρ :: R)) : μ ≠ ν ∧ ρ ≠ μ := by
  have := h μ
  simp only [idxs, List.flatMap_cons, Fac.idx, List.count_append, List.count_cons, List.count_nil, beq_iff_eq] at this
  constructor
  · rintro rfl; simp at this
  · rintro rfl; simp at this; omega

theorem ne_of_bdd2' {μ ν ρ : I} {R : List (Fac d I)} (h : Bdd (.met μ ν :: .met ρ μ :: R)) : μ ≠ ν ∧ ρ ≠ μ := by
  have := h μ
  simp only [idxs, List.flatMap_cons, Fac.idx, List.count_append, List.count_cons, List.count_nil, beq_iff_eq] at this
  constructor
  · rintro rfl; simp at this
  · rintro rfl; simp at this; omega

theorem ne_of_bdd1 {μ ν : I} {v : Fin d → ℂ} {R : List (Fac d I)} (h : Bdd (.met μ ν :: .vec v μ :: R)) : μ ≠ ν := by
  have := h μ
  simp only [idxs, List.flatMap_cons, Fac.idx, List.count_append, List.count_cons, List.count_nil, beq_iff_eq] at this
  rintro rfl; simp at this

/-- Two products with the same value, both without an index that occurs more than twice. -/
def Same (ε : Fin d → ℂ) (X Y : List (Fac d I)) : Prop := Bdd X → (∀ τ, tval ε X τ = tval ε Y τ) ∧ Bdd Y

theorem Same.trans {ε : Fin d → ℂ} {X Y Z : List (Fac d I)} (h : Same ε X Y) (h' : Same ε Y Z) : Same ε X Z := fun hX =>
  ⟨fun τ => ((h hX).1 τ).trans ((h' (h hX).2).1 τ), (h' (h hX).2).2⟩
theorem Same.of_perm {ε : Fin d → ℂ} {X Y : List (Fac d I)} (h : X.Perm Y) : Same ε X Y := fun hX =>
  ⟨tval_perm ε h, hX.perm h⟩

theorem same_left {ε : Fin d → ℂ} (hε : ∀ m, ε m ^ 2 = 1) (μ ν ρ : I) (R : List (Fac d I)) :
    Same ε (.met μ ν :: .met μ ρ :: R) (.met ν ρ :: R) := fun h =>
  tval_metric ε hε μ ν _ _ R h (renamed_left μ ν ρ (ne_of_bdd2 h).2) (ne_of_bdd2 h).1

theorem same_right {ε : Fin d → ℂ} (hε : ∀ m, ε m ^ 2 = 1) (μ ν ρ : I) (R : List (Fac d I)) :
    Same ε (.met μ ν :: .met ρ μ :: R) (.met ρ ν :: R) := fun h =>
  tval_metric ε hε μ ν _ _ R h (renamed_right μ ν ρ (ne_of_bdd2' h).2) (ne_of_bdd2' h).1

theorem same_vec {ε : Fin d → ℂ} (hε : ∀ m, ε m ^ 2 = 1) (μ ν : I) (v : Fin d → ℂ) (R : List (Fac d I)) :
    Same ε (.met μ ν :: .vec v μ :: R) (.vec v ν :: R) := fun h =>
  tval_metric ε hε μ ν _ _ R h (renamed_vec μ ν v) (ne_of_bdd1 h)

theorem same_symm {ε : Fin d → ℂ} (μ ν : I) (R : List (Fac d I)) :
    Same ε (.met μ ν :: R) (.met ν μ :: R) := fun h => ⟨(tval_symm ε μ ν R).1, (tval_symm ε μ ν R).2 h⟩

/-- The open metric tensors. -/
def facs (d : ℕ) : List (Entry I) → List (Fac d I)
  | [] => []
  | e :: es => if e.unmatched then .met e.left e.right :: facs d es else facs d es

omit [DecidableEq I] in
theorem facs_append (l l' : List (Entry I)) : facs d (l ++ l') = facs d l ++ facs d l' := by
  induction l with
  | nil => rfl
  | cons e es ih => simp only [List.cons_append, facs, ih]; split_ifs <;> simp

theorem matchInto_same {ε : Fin d → ℂ} (hε : ∀ m, ε m ^ 2 = 1) (μ ν : I) (l : List (Entry I)) :
    ∀ (l' : List (Entry I)) (R : List (Fac d I)), matchInto μ ν l = some l' →
    Same ε (.met μ ν :: (facs d l ++ R)) (facs d l' ++ R) := by
  induction l with
  | nil => intro l' R h; simp [matchInto] at h
  | cons e es ih =>
    intro l' R h
    have step : ∀ a, matchInto μ ν es = some a →
        Same ε (.met μ ν :: (facs d (e :: es) ++ R)) (facs d (e :: a) ++ R) := by
      intro a ha
      by_cases he : e.unmatched
      · simp only [facs, he, if_true, List.cons_append]
        refine Same.trans (Same.of_perm ?_) (Same.trans (ih a (.met e.left e.right :: R) ha) (Same.of_perm List.perm_middle))
        refine List.Perm.cons _ (List.perm_middle.symm)
      · simp only [facs, he]
        exact ih a R ha
    unfold matchInto at h
    by_cases he : e.unmatched
    · rw [if_pos he] at h
      simp only [facs, he, if_true, List.cons_append] at step ⊢
      by_cases h1 : μ = e.left
      · rw [if_pos h1, Option.some.injEq] at h
        subst h
        simp only [facs, he, if_true, List.cons_append]
        rw [← h1]; exact same_left hε μ ν _ _
      rw [if_neg h1] at h
      by_cases h2 : μ = e.right
      · rw [if_pos h2, Option.some.injEq] at h
        subst h
        simp only [facs, he, if_true, List.cons_append]
        rw [← h2]; exact same_right hε μ ν _ _
      rw [if_neg h2] at h
      by_cases h3 : ν = e.left
      · rw [if_pos h3, Option.some.injEq] at h
        subst h
        simp only [facs, he, if_true, List.cons_append]
        rw [← h3]; exact (same_symm μ ν _).trans (same_left hε ν μ _ _)
      rw [if_neg h3] at h
      by_cases h4 : ν = e.right
      · rw [if_pos h4, Option.some.injEq] at h
        subst h
        simp only [facs, he, if_true, List.cons_append]
        rw [← h4]; exact (same_symm μ ν _).trans (same_right hε ν μ _ _)
      rw [if_neg h4] at h
      obtain ⟨a, ha, rfl⟩ := Option.map_eq_some_iff.1 h
      simpa only [facs, he, if_true, List.cons_append] using step a ha
    · rw [if_neg he] at h
      obtain ⟨a, ha, rfl⟩ := Option.map_eq_some_iff.1 h
      exact step a ha

theorem matchPass_same {ε : Fin d → ℂ} (hε : ∀ m, ε m ^ 2 = 1) (rest : List (Entry I)) :
    ∀ (done : List (Entry I)) (R : List (Fac d I)),
    Same ε (facs d (done ++ rest) ++ R) (facs d (matchPass done rest).1 ++ R) := by
  induction rest with
  | nil => intro done R; simp only [List.append_nil, matchPass]; exact Same.of_perm (List.Perm.refl _)
  | cons e es ih =>
    intro done R
    unfold matchPass
    have keep : Same ε (facs d (done ++ e :: es) ++ R) (facs d (matchPass (done ++ [e]) es).1 ++ R) := by
      have := ih (done ++ [e]) R
      simpa using this
    by_cases he : e.unmatched
    · rw [if_pos he]
      cases hm : matchInto e.left e.right done with
      | none => exact keep
      | some done' =>
        dsimp only
        refine Same.trans ?_ (ih (done' ++ [{ e with unmatched := false }]) R)
        have := matchInto_same hε e.left e.right done done' (facs d es ++ R) hm
        refine Same.trans (Same.of_perm ?_) (Same.trans this (Same.of_perm ?_))
        · simp only [facs_append, facs, he, if_true, List.append_assoc, List.cons_append]
          exact List.perm_middle
        · simp only [facs_append, facs, List.append_assoc]
          exact List.Perm.refl _
    · rw [if_neg he]; exact keep

theorem matchLoop_same {ε : Fin d → ℂ} (hε : ∀ m, ε m ^ 2 = 1) (l : List (Entry I)) (R : List (Fac d I)) :
    Same ε (facs d l ++ R) (facs d (matchLoop l) ++ R) := by
  fun_induction matchLoop l with
  | case1 l h ih => exact Same.trans (matchPass_same hε l [] R) ih
  | case2 l h => exact matchPass_same hε l [] R

theorem contractVec_same {ε : Fin d → ℂ} (hε : ∀ m, ε m ^ 2 = 1) (v : Fin d → ℂ) (μ : I) (l : List (Entry I)) :
    ∀ (R : List (Fac d I)),
    Same ε (.vec v μ :: (facs d l ++ R)) (.vec v (contractVec μ l).1 :: (facs d (contractVec μ l).2 ++ R)) := by
  induction l with
  | nil => intro R; exact Same.of_perm (List.Perm.refl _)
  | cons e es ih =>
    intro R
    unfold contractVec
    by_cases he : e.unmatched
    · rw [if_pos he]
      by_cases h1 : e.left = μ
      · rw [if_pos h1]
        simp only [facs, he, if_true, List.cons_append]
        refine Same.trans (Same.of_perm (List.Perm.swap _ _ _)) ?_
        rw [h1]; exact same_vec hε μ _ v _
      rw [if_neg h1]
      by_cases h2 : e.right = μ
      · rw [if_pos h2]
        simp only [facs, he, if_true, List.cons_append]
        refine Same.trans (Same.of_perm (List.Perm.swap _ _ _)) ?_
        rw [h2]; exact (same_symm _ _ _).trans (same_vec hε μ _ v _)
      rw [if_neg h2]
      simp only [facs, he, if_true, List.cons_append]
      have := ih (.met e.left e.right :: R)
      refine Same.trans (Same.of_perm ?_) (Same.trans this (Same.of_perm ?_))
      · exact List.Perm.cons _ List.perm_middle.symm
      · exact List.Perm.cons _ List.perm_middle
    · rw [if_neg he]
      simp only [facs, he]
      exact ih R

theorem contractVecs_same {V : Type} {ε : Fin d → ℂ} (hε : ∀ m, ε m ^ 2 = 1) (w : V → Fin d → ℂ) (vs : List (V × I)) :
    ∀ (l : List (Entry I)) (R : List (Fac d I)),
    Same ε (facs d l ++ (vs.map (fun v => Fac.vec (w v.1) v.2) ++ R))
      (facs d (contractVecs vs l).2 ++ ((contractVecs vs l).1.map (fun v => Fac.vec (w v.1) v.2) ++ R)) := by
  induction vs with
  | nil => intro l R; exact Same.of_perm (List.Perm.refl _)
  | cons v vs ih =>
    intro l R
    obtain ⟨v, μ⟩ := v
    unfold contractVecs
    simp only [List.map_cons, List.cons_append]
    have h1 := contractVec_same hε (w v) μ l (vs.map (fun v => Fac.vec (w v.1) v.2) ++ R)
    have h2 := ih (contractVec μ l).2 (.vec (w v) (contractVec μ l).1 :: R)
    refine Same.trans (Same.of_perm List.perm_middle) (Same.trans h1 (Same.trans (Same.of_perm ?_) (Same.trans h2 (Same.of_perm ?_))))
    · simp only [← List.append_assoc]
      exact List.perm_middle.symm
    · exact List.Perm.append_left _ List.perm_middle

theorem leftover_val {ε : Fin d → ℂ} (hε : ∀ m, ε m ^ 2 = 1) (l : List (Entry I)) : ∀ (R : List (Fac d I)),
    Bdd (facs d l ++ R) →
    (∀ τ, tval ε (facs d l ++ R) τ =
      (leftover (d : ℂ) l).1 * tval ε ((leftover (d : ℂ) l).2.map (fun g : I × I => (Fac.met g.1 g.2 : Fac d I)) ++ R) τ) ∧
    Bdd ((leftover (d : ℂ) l).2.map (fun g : I × I => (Fac.met g.1 g.2 : Fac d I)) ++ R) := by
  induction l with
  | nil => intro R h; exact ⟨fun τ => by simp [leftover, facs], h⟩
  | cons e es ih =>
    intro R h
    unfold leftover
    by_cases he : e.unmatched
    · rw [if_pos he]
      simp only [facs, he, if_true, List.cons_append] at h ⊢
      by_cases h1 : e.left = e.right
      · rw [if_pos h1]
        rw [← h1] at h ⊢
        obtain ⟨h2, h3⟩ := tval_trace ε hε e.left _ h
        obtain ⟨h4, h5⟩ := ih R h3
        exact ⟨fun τ => by rw [h2, h4]; ring, h5⟩
      · rw [if_neg h1]
        have hp : (Fac.met e.left e.right :: (facs d es ++ R)).Perm (facs d es ++ Fac.met e.left e.right :: R) :=
          List.perm_middle.symm
        obtain ⟨h4, h5⟩ := ih _ (h.perm hp)
        have hq : ((leftover (d : ℂ) es).2.map (fun g : I × I => (Fac.met g.1 g.2 : Fac d I)) ++ Fac.met e.left e.right :: R).Perm
          (Fac.met e.left e.right :: ((leftover (d : ℂ) es).2.map (fun g : I × I => (Fac.met g.1 g.2 : Fac d I)) ++ R)) := List.perm_middle
        refine ⟨fun τ => ?_, ?_⟩
        · rw [tval_perm ε hp, h4, tval_perm ε hq]; simp
        · have := h5.perm hq; simpa using this
    · rw [if_neg he]
      simp only [facs, he] at h ⊢
      exact ih R h
end Numer
end SecDec
