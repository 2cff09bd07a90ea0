import Verif.Model.Orders
import Verif.Spec.Orders
import Mathlib.Algebra.BigOperators.Ring.Finset
import Mathlib.Algebra.BigOperators.Group.List.Basic
import Mathlib.Algebra.Ring.Pi
import Mathlib.Tactic.Ring
import Mathlib.Tactic.Linarith
set_option linter.unusedSectionVars false
namespace SecDec
namespace Orders

section dict
variable {K V : Type*} [DecidableEq K]

theorem dget_dset (d : List (K × V)) (k k' : K) (v : V) :
    dget (dset d k v) k' = if k = k' then some v else dget d k' := by
  induction d with
  | nil => simp [dset, dget]
  | cons t d ih =>
    obtain ⟨a, b⟩ := t
    by_cases h : a = k
    · subst h; by_cases h2 : a = k' <;> simp [dset, dget, h2]
    · by_cases h2 : a = k'
      · subst h2; simp [dset, dget, h, Ne.symm h]
      · simp [dset, dget, h, h2, ih]

theorem mem_keys_dset (d : List (K × V)) (k k' : K) (v : V) :
    k' ∈ (dset d k v).map (·.1) ↔ k' = k ∨ k' ∈ d.map (·.1) := by
  induction d with
  | nil => simp [dset]
  | cons t d ih =>
    obtain ⟨a, b⟩ := t
    by_cases h : a = k
    · subst h; simp [dset]
    · simp only [dset, h, if_false, List.map_cons, List.mem_cons, ih]; tauto

theorem nodup_dset (d : List (K × V)) (k : K) (v : V) (h : (d.map (·.1)).Nodup) :
    ((dset d k v).map (·.1)).Nodup := by
  induction d with
  | nil => simp [dset]
  | cons t d ih =>
    obtain ⟨a, b⟩ := t
    rw [List.map_cons, List.nodup_cons] at h
    by_cases h' : a = k
    · subst h'; simpa [dset] using h
    · simp only [dset, h', if_false, List.map_cons, List.nodup_cons]
      refine ⟨?_, ih h.2⟩
      rw [mem_keys_dset]; rintro (rfl | h3)
      · exact h' rfl
      · exact h.1 h3

theorem dget_isSome (d : List (K × V)) (k : K) : (dget d k).isSome ↔ k ∈ d.map (·.1) := by
  induction d with
  | nil => simp [dget]
  | cons t d ih =>
    obtain ⟨a, b⟩ := t
    by_cases h : a = k
    · subst h; simp [dget]
    · simp only [dget, h, if_false, ih, List.map_cons, List.mem_cons]
      exact ⟨Or.inr, fun h2 => h2.resolve_left (Ne.symm h)⟩

theorem sum_ite_key {M : Type*} [AddCommMonoid M] (d : List (K × M)) (h : (d.map (·.1)).Nodup) (k : K) :
    (d.map fun t => if t.1 = k then t.2 else 0).sum = (dget d k).getD 0 := by
  induction d with
  | nil => simp [dget]
  | cons t d ih =>
    obtain ⟨a, b⟩ := t
    rw [List.map_cons, List.nodup_cons] at h
    by_cases h' : a = k
    · subst h'
      have : (d.map fun t => if t.1 = a then t.2 else 0).sum = 0 := by
        apply List.sum_eq_zero
        simp only [List.mem_map]
        rintro _ ⟨t, ht, rfl⟩
        rw [if_neg]; intro h2; exact h.1 (List.mem_map.2 ⟨t, ht, h2⟩)
      simp [dget, this]
    · simp [dget, h', ih h.2]
end dict

variable {r : ℕ}

section bracket
variable {A B C : Type*} [AddCommMonoid C]

theorem bracketInner (mul : A → B → C) (mx k1 : Ord r) (v1 : A) (br2 : List (Ord r × B))
    (br : List (Ord r × C)) :
    ((br.map (·.1)).Nodup → ((br2.foldl (bracketStep mul mx k1 v1) br).map (·.1)).Nodup) ∧
    (∀ k, k ∈ (br2.foldl (bracketStep mul mx k1 v1) br).map (·.1) ↔
      k ∈ br.map (·.1) ∨ (allLe k mx ∧ ∃ t2 ∈ br2, k1 + t2.1 = k)) ∧
    (∀ k, (dget (br2.foldl (bracketStep mul mx k1 v1) br) k).getD 0 =
      (dget br k).getD 0 +
        (br2.map fun t2 => if allLe k mx ∧ k1 + t2.1 = k then mul v1 t2.2 else 0).sum) := by
  induction br2 generalizing br with
  | nil => simp
  | cons t br2 ih =>
    simp only [List.foldl_cons]
    obtain ⟨h1, h2, h3⟩ := ih (bracketStep mul mx k1 v1 br t)
    by_cases hc : allLe (k1 + t.1) mx
    · have e : bracketStep mul mx k1 v1 br t = dset br (k1 + t.1) ((dget br (k1 + t.1)).getD 0 + mul v1 t.2) := by
        simp [bracketStep, hc]
      refine ⟨fun h => h1 (by rw [e]; exact nodup_dset _ _ _ h), fun k => ?_, fun k => ?_⟩
      · rw [h2 k, e, mem_keys_dset]
        simp only [List.mem_cons, exists_eq_or_imp]
        constructor
        · rintro ((rfl | h) | ⟨h, h'⟩)
          · exact Or.inr ⟨hc, Or.inl rfl⟩
          · exact Or.inl h
          · exact Or.inr ⟨h, Or.inr h'⟩
        · rintro (h | ⟨h, rfl | h'⟩)
          · exact Or.inl (Or.inr h)
          · exact Or.inl (Or.inl rfl)
          · exact Or.inr ⟨h, h'⟩
      · rw [h3 k, e, dget_dset]
        by_cases hk : k1 + t.1 = k
        · subst hk; simp [hc, add_assoc]
        · simp [hk]
    · have e : bracketStep mul mx k1 v1 br t = br := by simp [bracketStep, hc]
      rw [e] at h1 h2 h3 ⊢
      refine ⟨h1, fun k => ?_, fun k => ?_⟩
      · rw [h2 k]
        simp only [List.mem_cons, exists_eq_or_imp]
        constructor
        · rintro (h | ⟨h, h'⟩)
          · exact Or.inl h
          · exact Or.inr ⟨h, Or.inr h'⟩
        · rintro (h | ⟨h, rfl | h'⟩)
          · exact Or.inl h
          · exact absurd h hc
          · exact Or.inr ⟨h, h'⟩
      · rw [h3 k, List.map_cons, List.sum_cons, if_neg, zero_add]
        rintro ⟨h, rfl⟩; exact hc h

theorem bracketMul_spec (mul : A → B → C) (br1 : List (Ord r × A)) (br2 : List (Ord r × B)) (mx : Ord r) :
    ((bracketMul mul br1 br2 mx).map (·.1)).Nodup ∧
    (∀ k, k ∈ (bracketMul mul br1 br2 mx).map (·.1) ↔
      allLe k mx ∧ ∃ t1 ∈ br1, ∃ t2 ∈ br2, t1.1 + t2.1 = k) ∧
    (∀ k, (dget (bracketMul mul br1 br2 mx) k).getD 0 =
      (br1.map fun t1 => (br2.map fun t2 =>
        if allLe k mx ∧ t1.1 + t2.1 = k then mul t1.2 t2.2 else 0).sum).sum) := by
  have key : ∀ (br1 : List (Ord r × A)) (br : List (Ord r × C)),
      ((br.map (·.1)).Nodup →
        ((br1.foldl (fun br t1 => br2.foldl (bracketStep mul mx t1.1 t1.2) br) br).map (·.1)).Nodup) ∧
      (∀ k, k ∈ (br1.foldl (fun br t1 => br2.foldl (bracketStep mul mx t1.1 t1.2) br) br).map (·.1) ↔
        k ∈ br.map (·.1) ∨ (allLe k mx ∧ ∃ t1 ∈ br1, ∃ t2 ∈ br2, t1.1 + t2.1 = k)) ∧
      (∀ k, (dget (br1.foldl (fun br t1 => br2.foldl (bracketStep mul mx t1.1 t1.2) br) br) k).getD 0 =
        (dget br k).getD 0 + (br1.map fun t1 => (br2.map fun t2 =>
          if allLe k mx ∧ t1.1 + t2.1 = k then mul t1.2 t2.2 else 0).sum).sum) := by
    intro br1
    induction br1 with
    | nil => intro br; simp
    | cons t br1 ih =>
      intro br
      obtain ⟨h1, h2, h3⟩ := ih (br2.foldl (bracketStep mul mx t.1 t.2) br)
      obtain ⟨g1, g2, g3⟩ := bracketInner mul mx t.1 t.2 br2 br
      refine ⟨fun h => h1 (g1 h), fun k => ?_, fun k => ?_⟩
      · rw [List.foldl_cons, h2, g2]
        simp only [List.mem_cons, exists_eq_or_imp, and_or_left, or_assoc]
      · rw [List.foldl_cons, h3, g3, List.map_cons, List.sum_cons, add_assoc]
  obtain ⟨h1, h2, h3⟩ := key br1 []
  refine ⟨h1 (by simp), fun k => (h2 k).trans (by simp), fun k => (h3 k).trans (by simp [dget])⟩
end bracket

/-! ### Laurent polynomials -/
section laurent
variable {F : Type*} [CommRing F]

theorem coeff_lpoly (d : List (Ord r × F)) (k : Ord r) :
    (lpoly d).coeff k = (d.map fun t => if t.1 = k then t.2 else 0).sum := by
  classical
  induction d with
  | nil => simp [lpoly]
  | cons t d ih =>
    have : lpoly (t :: d) = HahnSeries.single t.1 t.2 + lpoly d := by simp [lpoly]
    rw [this, HahnSeries.coeff_add, ih, List.map_cons, List.sum_cons, HahnSeries.coeff_single]
    congr 1
    by_cases h : k = t.1
    · simp [h]
    · simp [h, Ne.symm h]

theorem coeff_lpoly_mul (d : List (Ord r × F)) (e : List (Ord r × F)) (k : Ord r) :
    (lpoly d * lpoly e).coeff k =
      (d.map fun t1 => (e.map fun t2 => if t1.1 + t2.1 = k then t1.2 * t2.2 else 0).sum).sum := by
  classical
  induction d with
  | nil => simp [lpoly]
  | cons t d ih =>
    have : lpoly (t :: d) = HahnSeries.single t.1 t.2 + lpoly d := by simp [lpoly]
    rw [this, add_mul, HahnSeries.coeff_add, ih, List.map_cons, List.sum_cons]
    congr 1
    clear ih this
    induction e with
    | nil => simp [lpoly]
    | cons u e ihe =>
      have : lpoly (u :: e) = HahnSeries.single u.1 u.2 + lpoly e := by simp [lpoly]
      rw [this, mul_add, HahnSeries.coeff_add, ihe, List.map_cons, List.sum_cons,
        HahnSeries.single_mul_single, HahnSeries.coeff_single]
      congr 1
      by_cases h : k = t.1 + u.1
      · simp [h]
      · simp [h, Ne.symm h]

theorem coeff_lpoly_bracketMul (d e : List (Ord r × F)) (mx k : Ord r) :
    (lpoly (bracketMul (· * ·) d e mx)).coeff k =
      if allLe k mx then (lpoly d * lpoly e).coeff k else 0 := by
  obtain ⟨h1, h2, h3⟩ := bracketMul_spec (fun a b : F => a * b) d e mx
  rw [coeff_lpoly, sum_ite_key _ h1, h3, coeff_lpoly_mul]
  by_cases h : allLe k mx
  · simp [h]
  · simp [h]

/-- A product has no term at `p` if one factor starts at `l` and the other has no terms up to `p - l`. -/
theorem coeff_mul_eq_zero {X Y : Laurent r F} {l p : Ord r} (hX : ∀ a, X.coeff a ≠ 0 → l ≤ a)
    (hY : ∀ b, b ≤ p - l → Y.coeff b = 0) : (X * Y).coeff p = 0 := by
  rw [HahnSeries.coeff_mul]
  apply Finset.sum_eq_zero
  rintro ⟨a, b⟩ hab
  rw [Finset.mem_antidiagonal] at hab
  obtain ⟨ha, hb, hab⟩ := hab
  simp only at ha hb hab ⊢
  have hla := hX a ha
  have : b ≤ p - l := by
    intro i
    have h1 := hla i
    have h2 : a i + b i = p i := by rw [← hab]; rfl
    simp only [Pi.sub_apply]; linarith
  exact absurd (hY b this) hb

theorem le_mul_support {X Y : Laurent r F} {l m : Ord r} (hX : ∀ a, X.coeff a ≠ 0 → l ≤ a)
    (hY : ∀ a, Y.coeff a ≠ 0 → m ≤ a) : ∀ a, (X * Y).coeff a ≠ 0 → l + m ≤ a := by
  intro a ha
  by_contra hc
  apply ha
  rw [HahnSeries.coeff_mul]
  apply Finset.sum_eq_zero
  rintro ⟨b, c⟩ hbc
  rw [Finset.mem_antidiagonal] at hbc
  obtain ⟨h1, h2, h3⟩ := hbc
  simp only at h1 h2 h3
  exact absurd (h3 ▸ add_le_add (hX b h1) (hY c h2)) hc

variable {d : List (Ord r × F)} {S : Laurent r F} {h : Ord r}

theorem Expands.coeff_lpoly_eq (hd : Expands d S h) (a : Ord r) :
    (lpoly d).coeff a = if a ∈ d.map (·.1) then S.coeff a else 0 := by
  rw [coeff_lpoly]
  split
  · rename_i hm
    obtain ⟨t, ht, rfl⟩ := List.mem_map.1 hm
    rw [sum_ite_key _ hd.nodup]
    have hs := (dget_isSome d t.1).2 hm
    obtain ⟨v, hv⟩ := Option.isSome_iff_exists.1 hs
    have : ∀ (d : List (Ord r × F)) k v, dget d k = some v → (k, v) ∈ d := by
      intro d k v; induction d with
      | nil => simp [dget]
      | cons u d ih =>
        obtain ⟨a, b⟩ := u
        by_cases h : a = k
        · subst h; simp only [dget, if_true]; rintro ⟨⟩; simp
        · simp only [dget, h, if_false]; intro h'; exact List.mem_cons_of_mem _ (ih h')
    rw [hv]
    exact (hd.coeff _ (this d _ v hv)).symm
  · rename_i hm
    apply List.sum_eq_zero
    simp only [List.mem_map]
    rintro _ ⟨t, ht, rfl⟩
    rw [if_neg]; rintro rfl; exact hm (List.mem_map.2 ⟨t, ht, rfl⟩)

theorem Expands.coeff_sub (hd : Expands d S h) {a : Ord r} (ha : a ≤ h) : (S - lpoly d).coeff a = 0 := by
  rw [HahnSeries.coeff_sub, hd.coeff_lpoly_eq]
  split
  · simp
  · rename_i hm
    by_contra hc
    exact hm (hd.complete a ha (by simpa using hc))

theorem minAxis0_spec (l : List (Ord r)) (m : Ord r) (h : minAxis0 l = some m) :
    (∀ x ∈ l, m ≤ x) ∧ ∀ i, ∃ x ∈ l, x i = m i := by
  cases l with
  | nil => simp [minAxis0] at h
  | cons x l =>
    simp only [minAxis0, Option.some.injEq] at h
    subst h
    induction l using List.reverseRecOn with
    | nil => simp
    | append_singleton l y ih =>
      rw [List.foldl_append, List.foldl_cons, List.foldl_nil]
      refine ⟨fun z hz i => ?_, fun i => ?_⟩
      · simp only [List.mem_cons, List.mem_append, List.not_mem_nil, or_false] at hz
        rcases hz with rfl | hz | rfl
        · exact (min_le_left _ _).trans (ih.1 z (by simp) i)
        · exact (min_le_left _ _).trans (ih.1 z (by simp [hz]) i)
        · exact min_le_right _ _
      · rcases min_choice (l.foldl (fun m y i => min (m i) (y i)) x i) (y i) with hh | hh
        · obtain ⟨z, hz, hz'⟩ := ih.2 i
          refine ⟨z, ?_, by rw [hh]; exact hz'⟩
          simp only [List.mem_cons, List.mem_append] at hz ⊢; tauto
        · exact ⟨y, by simp, by rw [hh]⟩

theorem maxAxis0_spec (l : List (Ord r)) (m : Ord r) (h : maxAxis0 l = some m) :
    (∀ x ∈ l, x ≤ m) ∧ ∀ i, ∃ x ∈ l, x i = m i := by
  cases l with
  | nil => simp [maxAxis0] at h
  | cons x l =>
    simp only [maxAxis0, Option.some.injEq] at h
    subst h
    induction l using List.reverseRecOn with
    | nil => simp
    | append_singleton l y ih =>
      rw [List.foldl_append, List.foldl_cons, List.foldl_nil]
      refine ⟨fun z hz i => ?_, fun i => ?_⟩
      · simp only [List.mem_cons, List.mem_append, List.not_mem_nil, or_false] at hz
        rcases hz with rfl | hz | rfl
        · exact (ih.1 z (by simp) i).trans (le_max_left _ _)
        · exact (ih.1 z (by simp [hz]) i).trans (le_max_left _ _)
        · exact le_max_right _ _
      · rcases max_choice (l.foldl (fun m y i => max (m i) (y i)) x i) (y i) with hh | hh
        · obtain ⟨z, hz, hz'⟩ := ih.2 i
          refine ⟨z, ?_, by rw [hh]; exact hz'⟩
          simp only [List.mem_cons, List.mem_append] at hz ⊢; tauto
        · exact ⟨y, by simp, by rw [hh]⟩

theorem minAxis0_isSome (l : List (Ord r)) (h : l ≠ []) : ∃ m, minAxis0 l = some m := by
  cases l with
  | nil => exact absurd rfl h
  | cons x l => exact ⟨_, rfl⟩

theorem maxAxis0_isSome (l : List (Ord r)) (h : l ≠ []) : ∃ m, maxAxis0 l = some m := by
  cases l with
  | nil => exact absurd rfl h
  | cons x l => exact ⟨_, rfl⟩

theorem Expands.lead_le (hd : Expands d S h) {m : Ord r} (hm : minAxis0 (d.map (·.1)) = some m) :
    ∀ a, S.coeff a ≠ 0 → m ≤ a := by
  intro a ha i
  obtain ⟨t, ht, hta⟩ := hd.lead a ha i
  exact ((minAxis0_spec _ _ hm).1 t.1 (List.mem_map.2 ⟨t, ht, rfl⟩) i).trans hta

theorem lpoly_lead_le {m : Ord r} (hm : minAxis0 (d.map (·.1)) = some m) :
    ∀ a, (lpoly d).coeff a ≠ 0 → m ≤ a := by
  intro a ha
  rw [coeff_lpoly] at ha
  by_contra hc
  apply ha
  apply List.sum_eq_zero
  simp only [List.mem_map]
  rintro _ ⟨t, ht, rfl⟩
  rw [if_neg]; rintro rfl
  exact hc ((minAxis0_spec _ _ hm).1 t.1 (List.mem_map.2 ⟨t, ht, rfl⟩))

/-- Replacing the three factors by their truncations does not change the coefficient at `p`. -/
theorem coeff_triple {P C K : Laurent r F} {dP dC dK : List (Ord r × F)} {hP hC hK : Ord r}
    (eP : Expands dP P hP) (eC : Expands dC C hC) (eK : Expands dK K hK) {pl cl kl p : Ord r}
    (mP : minAxis0 (dP.map (·.1)) = some pl) (mC : minAxis0 (dC.map (·.1)) = some cl)
    (mK : minAxis0 (dK.map (·.1)) = some kl)
    (h1 : p ≤ hP + cl + kl) (h2 : p ≤ pl + hC + kl) (h3 : p ≤ pl + cl + hK) :
    (P * C * K).coeff p = (lpoly dP * lpoly dC * lpoly dK).coeff p := by
  have e : P * C * K = lpoly dP * lpoly dC * lpoly dK + (C * K) * (P - lpoly dP)
      + (lpoly dP * K) * (C - lpoly dC) + (lpoly dP * lpoly dC) * (K - lpoly dK) := by ring
  rw [e, HahnSeries.coeff_add, HahnSeries.coeff_add, HahnSeries.coeff_add,
    coeff_mul_eq_zero (Y := P - lpoly dP) (l := cl + kl) (le_mul_support (eC.lead_le mC) (eK.lead_le mK)),
    coeff_mul_eq_zero (Y := C - lpoly dC) (l := pl + kl) (le_mul_support (lpoly_lead_le mP) (eK.lead_le mK)),
    coeff_mul_eq_zero (Y := K - lpoly dK) (l := pl + cl) (le_mul_support (lpoly_lead_le mP) (lpoly_lead_le mC))]
  · simp
  · intro b hb; apply eK.coeff_sub; intro i
    have a1 := hb i; have a2 := h3 i
    simp only [Pi.sub_apply, Pi.add_apply] at a1 a2; linarith
  · intro b hb; apply eC.coeff_sub; intro i
    have a1 := hb i; have a2 := h2 i
    simp only [Pi.sub_apply, Pi.add_apply] at a1 a2; linarith
  · intro b hb; apply eP.coeff_sub; intro i
    have a1 := hb i; have a2 := h1 i
    simp only [Pi.sub_apply, Pi.add_apply] at a1 a2; linarith

theorem coeff_pair {P K : Laurent r F} {dP dK : List (Ord r × F)} {hP hK : Ord r}
    (eP : Expands dP P hP) (eK : Expands dK K hK) {pl kl p : Ord r}
    (mP : minAxis0 (dP.map (·.1)) = some pl) (mK : minAxis0 (dK.map (·.1)) = some kl)
    (h1 : p ≤ hP + kl) (h3 : p ≤ pl + hK) :
    (P * K).coeff p = (lpoly dP * lpoly dK).coeff p := by
  have e : P * K = lpoly dP * lpoly dK + K * (P - lpoly dP) + lpoly dP * (K - lpoly dK) := by ring
  rw [e, HahnSeries.coeff_add, HahnSeries.coeff_add, coeff_mul_eq_zero (Y := P - lpoly dP) (l := kl) (eK.lead_le mK),
    coeff_mul_eq_zero (Y := K - lpoly dK) (l := pl) (lpoly_lead_le mP)]
  · simp
  · intro b hb; apply eK.coeff_sub; intro i
    have a1 := hb i; have a2 := h3 i
    simp only [Pi.sub_apply, Pi.add_apply] at a1 a2; linarith
  · intro b hb; apply eP.coeff_sub; intro i
    have a1 := hb i; have a2 := h1 i
    simp only [Pi.sub_apply, Pi.add_apply] at a1 a2; linarith
end laurent

/-! ### The table of weights -/
section table
variable {κ F : Type*} [DecidableEq κ] [Fintype κ] [CommRing F]

/-- value of one row of the table, `0` for an absent one. -/
def rowVal (tab : Table r κ F) (key : ℕ × Ord r) (val : κ → F) : F := (ampVal tab key val).getD 0

theorem rowVal_eq (tab : Table r κ F) (key : ℕ × Ord r) (val : κ → F) :
    rowVal tab key val = ∑ k, ((dget tab key).getD 0) k * val k := by
  unfold rowVal ampVal
  cases dget tab key <;> simp

theorem row_update (row : κ → F) (ks : List κ) (c : F) (val : κ → F) :
    ∑ k, (ks.foldl (fun row k => Function.update row k (row k + c)) row) k * val k =
      ∑ k, row k * val k + c * (ks.map val).sum := by
  induction ks generalizing row with
  | nil => simp
  | cons k ks ih =>
    rw [List.foldl_cons, ih, List.map_cons, List.sum_cons, mul_add, ← add_assoc]
    congr 1
    have : ∀ j, Function.update row k (row k + c) j * val j =
        row j * val j + if j = k then c * val k else 0 := by
      intro j; by_cases h : j = k
      · subst h; simp [add_mul]
      · simp [h]
    simp [this, Finset.sum_add_distrib]

theorem rowVal_addKernels (tab : Table r κ F) (key key' : ℕ × Ord r) (c : F) (ks : List κ) (val : κ → F) :
    rowVal (addKernels tab key c ks) key' val =
      rowVal tab key' val + if key = key' then c * (ks.map val).sum else 0 := by
  rw [rowVal_eq, rowVal_eq, addKernels, dget_dset]
  by_cases h : key = key'
  · subst h; simp [row_update]
  · simp [h]

theorem split_inner (ampid : ℕ) (rq mh : Ord r) (o : Ord r × List κ) (pf : List (Ord r × F))
    (tab : Table r κ F) (val : κ → F) (a : ℕ) (p : Ord r) :
    rowVal (pf.foldl (splitStep ampid rq mh o) tab) (a, p) val = rowVal tab (a, p) val +
      if ampid = a ∧ allLe p rq ∧ allLe p mh then
        (pf.map fun t => if o.1 + t.1 = p then t.2 * (o.2.map val).sum else 0).sum else 0 := by
  induction pf generalizing tab with
  | nil => simp
  | cons t pf ih =>
    rw [List.foldl_cons, ih]
    by_cases hp : o.1 + t.1 = p
    · subst hp
      by_cases hc : allLe (o.1 + t.1) rq ∧ allLe (o.1 + t.1) mh
      · rw [splitStep, if_pos hc, rowVal_addKernels]
        by_cases ha : ampid = a
        · simp [ha, hc, add_assoc]
        · simp [ha]
      · rw [splitStep, if_neg hc]; simp [hc]
    · have : rowVal (splitStep ampid rq mh o tab t) (a, p) val = rowVal tab (a, p) val := by
        unfold splitStep; split
        · rw [rowVal_addKernels, if_neg (by simp [hp]), add_zero]
        · rfl
      rw [this]; simp [hp]

theorem split_outer (ampid : ℕ) (rq mh : Ord r) (os : List (Ord r × List κ)) (pf : List (Ord r × F))
    (tab : Table r κ F) (val : κ → F) (a : ℕ) (p : Ord r) :
    rowVal (os.foldl (fun tab o => pf.foldl (splitStep ampid rq mh o) tab) tab) (a, p) val =
      rowVal tab (a, p) val +
      if ampid = a ∧ allLe p rq ∧ allLe p mh then
        (lpoly pf * lpoly (os.map (kernVal val))).coeff p else 0 := by
  have key : rowVal (os.foldl (fun tab o => pf.foldl (splitStep ampid rq mh o) tab) tab) (a, p) val =
      rowVal tab (a, p) val +
      if ampid = a ∧ allLe p rq ∧ allLe p mh then
        (os.map fun o => (pf.map fun t => if o.1 + t.1 = p then t.2 * (o.2.map val).sum else 0).sum).sum
        else 0 := by
    induction os generalizing tab with
    | nil => simp
    | cons o os ih =>
      rw [List.foldl_cons, ih, split_inner]
      split <;> simp [add_assoc]
  rw [key, mul_comm, coeff_lpoly_mul]
  simp only [List.map_map, Function.comp_def, kernVal, mul_comm]

theorem keys_inner (ampid : ℕ) (rq mh : Ord r) (o : Ord r × List κ) (pf : List (Ord r × F))
    (tab : Table r κ F) (key : ℕ × Ord r) :
    key ∈ (pf.foldl (splitStep ampid rq mh o) tab).map (·.1) ↔ key ∈ tab.map (·.1) ∨
      (key.1 = ampid ∧ allLe key.2 rq ∧ allLe key.2 mh ∧ ∃ t ∈ pf, o.1 + t.1 = key.2) := by
  induction pf generalizing tab with
  | nil => simp
  | cons t pf ih =>
    rw [List.foldl_cons, ih]
    unfold splitStep
    split
    · rename_i hc
      rw [addKernels, mem_keys_dset]
      simp only [List.mem_cons, exists_eq_or_imp]
      constructor
      · rintro ((rfl | h) | ⟨h1, h2, h3, h4⟩)
        · exact Or.inr ⟨rfl, hc.1, hc.2, Or.inl rfl⟩
        · exact Or.inl h
        · exact Or.inr ⟨h1, h2, h3, Or.inr h4⟩
      · rintro (h | ⟨h1, h2, h3, h4 | h4⟩)
        · exact Or.inl (Or.inr h)
        · exact Or.inl (Or.inl (Prod.ext h1 h4.symm))
        · exact Or.inr ⟨h1, h2, h3, h4⟩
    · rename_i hc
      simp only [List.mem_cons, exists_eq_or_imp]
      constructor
      · rintro (h | ⟨h1, h2, h3, h4⟩)
        · exact Or.inl h
        · exact Or.inr ⟨h1, h2, h3, Or.inr h4⟩
      · rintro (h | ⟨h1, h2, h3, h4 | h4⟩)
        · exact Or.inl h
        · rw [h4] at hc; exact absurd ⟨h2, h3⟩ hc
        · exact Or.inr ⟨h1, h2, h3, h4⟩

theorem keys_outer (ampid : ℕ) (rq mh : Ord r) (os : List (Ord r × List κ)) (pf : List (Ord r × F))
    (tab : Table r κ F) (key : ℕ × Ord r) :
    key ∈ (os.foldl (fun tab o => pf.foldl (splitStep ampid rq mh o) tab) tab).map (·.1) ↔
      key ∈ tab.map (·.1) ∨ (key.1 = ampid ∧ allLe key.2 rq ∧ allLe key.2 mh ∧
        ∃ o ∈ os, ∃ t ∈ pf, o.1 + t.1 = key.2) := by
  induction os generalizing tab with
  | nil => simp
  | cons o os ih =>
    rw [List.foldl_cons, ih, keys_inner]
    simp only [List.mem_cons, exists_eq_or_imp, and_or_left, or_assoc]

/-- one call of `split_integral_into_orders` on the level of values. -/
theorem splitIntegral_value {tab tab' : Table r κ F} {ampid : ℕ} {info : Info r κ F}
    {dC : List (Ord r × F)} {rq : Ord r} (h : splitIntegral tab ampid info dC rq = some tab')
    {pl cl kl kh : Ord r} (mP : minAxis0 (info.pref.map (·.1)) = some pl)
    (mC : minAxis0 (dC.map (·.1)) = some cl) (mK : minAxis0 (info.orders.map (·.1)) = some kl)
    (xK : maxAxis0 (info.orders.map (·.1)) = some kh)
    (val : κ → F) (a : ℕ) (p : Ord r) :
    rowVal tab' (a, p) val = rowVal tab (a, p) val +
      if ampid = a ∧ allLe p rq ∧ allLe p (pl + cl + kh) then
        (lpoly info.pref * lpoly dC * lpoly (info.orders.map (kernVal val))).coeff p else 0 := by
  simp only [splitIntegral, mP, mC, mK, xK, Option.some.injEq] at h
  rw [← h, split_outer]
  congr 1
  split
  · rename_i hc
    have mK' : minAxis0 ((info.orders.map (kernVal val)).map (·.1)) = some kl := by
      rw [List.map_map]; exact mK
    have e : lpoly info.pref * lpoly dC * lpoly (info.orders.map (kernVal val)) =
        lpoly (bracketMul (· * ·) info.pref dC (-kl + rq)) * lpoly (info.orders.map (kernVal val)) +
        lpoly (info.orders.map (kernVal val)) *
          (lpoly info.pref * lpoly dC - lpoly (bracketMul (· * ·) info.pref dC (-kl + rq))) := by ring
    rw [e, HahnSeries.coeff_add, coeff_mul_eq_zero (l := kl) (lpoly_lead_le mK'), add_zero]
    intro b hb
    rw [HahnSeries.coeff_sub, coeff_lpoly_bracketMul, if_pos, sub_self]
    intro i
    have a1 := hb i; have a2 := hc.2.1 i
    simp only [Pi.sub_apply, Pi.add_apply, Pi.neg_apply] at a1 a2 ⊢; linarith
  · rfl

theorem splitIntegral_keys {tab tab' : Table r κ F} {ampid : ℕ} {info : Info r κ F}
    {dC : List (Ord r × F)} {rq : Ord r} (h : splitIntegral tab ampid info dC rq = some tab')
    (key : ℕ × Ord r) (hk : key ∈ tab'.map (·.1)) : key ∈ tab.map (·.1) ∨
      (key.1 = ampid ∧ allLe key.2 rq) := by
  unfold splitIntegral at h
  split at h
  · simp only [Option.some.injEq] at h
    rw [← h, keys_outer] at hk
    tauto
  · exact absurd h (by simp)

end table
end Orders
end SecDec
