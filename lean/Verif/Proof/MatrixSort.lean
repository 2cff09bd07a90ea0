import Mathlib.Data.List.GetD
import Mathlib.Data.List.OfFn
import Mathlib.Data.Fintype.EquivFin
import Verif.Proof.ArgSort
import Verif.Model.MatrixSort
import Verif.Spec.MatrixSort
namespace SecDec.MatrixSort

theorem sortRows_eq (M : Mat) : sortRows M = M.mergeSort rowLe := takeIdx_argsort2D M

theorem sortRows_perm (M : Mat) : (sortRows M).Perm M := by
  rw [sortRows_eq]; exact List.mergeSort_perm _ _

theorem sorted_sort (M : Mat) : (M.mergeSort rowLe).Pairwise (fun a b => rowLe a b = true) := by
  have := sorted_mergeSort_key M id
  simpa using this

theorem sorted_unique {A B : Mat} (h : A.Perm B) (hA : A.Pairwise (fun a b => rowLe a b = true))
    (hB : B.Pairwise (fun a b => rowLe a b = true)) : A = B :=
  h.eq_of_pairwise (fun a b _ _ h1 h2 => rowLe_antisymm a b h1 h2) hA hB

theorem sortRows_congr {A B : Mat} (h : A.Perm B) : sortRows A = sortRows B := by
  rw [sortRows_eq, sortRows_eq]
  exact sorted_unique ((List.mergeSort_perm _ _).trans (h.trans (List.mergeSort_perm _ _).symm))
    (sorted_sort _) (sorted_sort _)

theorem sortRows_idem (A : Mat) : sortRows (sortRows A) = sortRows A :=
  sortRows_congr (sortRows_perm A)

theorem sortRows_length (A : Mat) : (sortRows A).length = A.length := (sortRows_perm A).length_eq

theorem HasCols.perm {n : Nat} {A B : Mat} (h : A.Perm B) (hA : HasCols n A) : HasCols n B :=
  fun row hr => hA row (h.mem_iff.2 hr)

/-! permuteCols -/

theorem permuteCols_length {n : Nat} (σ : Equiv.Perm (Fin n)) (row : List Int) :
    (permuteCols σ row).length = n := by simp [permuteCols]

theorem permuteCols_getD {n : Nat} (σ : Equiv.Perm (Fin n)) (row : List Int) (c : Fin n) :
    (permuteCols σ row).getD c 0 = row.getD (σ c) 0 := by
  simp [permuteCols, List.getD]

theorem permuteCols_mul {n : Nat} (σ τ : Equiv.Perm (Fin n)) (row : List Int) :
    permuteCols τ (permuteCols σ row) = permuteCols (σ * τ) row := by
  apply List.ext_getElem
  · simp [permuteCols]
  · intro k h1 h2
    simp only [permuteCols, List.getElem_ofFn]
    have := permuteCols_getD σ row (τ ⟨k, by simpa [permuteCols] using h1⟩)
    simp [permuteCols] at this ⊢

theorem permuteCols_one {n : Nat} (row : List Int) (h : row.length = n) :
    permuteCols (1 : Equiv.Perm (Fin n)) row = row := by
  subst h
  apply List.ext_getElem
  · simp [permuteCols]
  · intro k h1 h2
    simp [permuteCols]

theorem map_permuteCols_one {n : Nat} (M : Mat) (h : HasCols n M) :
    M.map (permuteCols (1 : Equiv.Perm (Fin n))) = M := by
  conv_rhs => rw [← List.map_id M]
  exact List.map_congr_left (fun r hr => permuteCols_one r (h r hr))

theorem map_permuteCols_mul {n : Nat} (σ τ : Equiv.Perm (Fin n)) (M : Mat) :
    (M.map (permuteCols σ)).map (permuteCols τ) = M.map (permuteCols (σ * τ)) := by
  rw [List.map_map]
  exact List.map_congr_left (fun r _ => permuteCols_mul σ τ r)

theorem hasCols_permute {n : Nat} (σ : Equiv.Perm (Fin n)) (M : Mat) :
    HasCols n (M.map (permuteCols σ)) := by
  intro r hr
  obtain ⟨r', _, rfl⟩ := List.mem_map.1 hr
  exact permuteCols_length σ r'

theorem swapRow_eq {n : Nat} (i j : Fin n) (row : List Int) (h : row.length = n) :
    swapRow i j row = permuteCols (Equiv.swap i j) row := by
  apply List.ext_getElem
  · simp [swapRow, permuteCols, h]
  · intro k h1 h2
    have hk : k < n := by simpa [permuteCols] using h2
    have hi := i.2
    have hj := j.2
    simp only [swapRow, permuteCols, List.getElem_ofFn, List.getElem_set]
    by_cases hkj : (j : Nat) = k
    · have : (⟨k, hk⟩ : Fin n) = j := Fin.ext hkj.symm
      rw [if_pos hkj, this, Equiv.swap_apply_right]
    · rw [if_neg hkj]
      by_cases hki : (i : Nat) = k
      · have : (⟨k, hk⟩ : Fin n) = i := Fin.ext hki.symm
        rw [if_pos hki, this, Equiv.swap_apply_left]
      · rw [if_neg hki, Equiv.swap_apply_of_ne_of_ne]
        · simp [h, hk]
        · intro e; apply hki; rw [← e]
        · intro e; apply hkj; rw [← e]

theorem swapCols_eq {n : Nat} (i j : Fin n) (M : Mat) (h : HasCols n M) :
    swapCols i j M = M.map (permuteCols (Equiv.swap i j)) :=
  List.map_congr_left (fun r hr => swapRow_eq i j r (h r hr))

/-! PermutedBy -/

theorem PermutedBy.refl {n : Nat} {P : Equiv.Perm (Fin n) → Prop} (h1 : P 1) {M : Mat}
    (h : HasCols n M) : PermutedBy P M M :=
  ⟨1, h1, by rw [map_permuteCols_one M h]⟩

theorem PermutedBy.trans {n : Nat} {P : Equiv.Perm (Fin n) → Prop}
    (hP : ∀ σ τ, P σ → P τ → P (σ * τ)) {A B C : Mat}
    (h1 : PermutedBy P A B) (h2 : PermutedBy P B C) : PermutedBy P A C := by
  obtain ⟨σ, hσ, h1⟩ := h1
  obtain ⟨τ, hτ, h2⟩ := h2
  refine ⟨σ * τ, hP _ _ hσ hτ, ?_⟩
  rw [← map_permuteCols_mul]
  exact (h1.map _).trans h2

theorem PermutedBy.symm {n : Nat} {P : Equiv.Perm (Fin n) → Prop}
    (hP : ∀ σ, P σ → P σ⁻¹) {A B : Mat} (hA : HasCols n A)
    (h1 : PermutedBy P A B) : PermutedBy P B A := by
  obtain ⟨σ, hσ, h1⟩ := h1
  refine ⟨σ⁻¹, hP _ hσ, ?_⟩
  have := h1.map (permuteCols σ⁻¹)
  rw [map_permuteCols_mul, mul_inv_cancel, map_permuteCols_one A hA] at this
  exact this.symm

theorem PermutedBy.hasCols {n : Nat} {P : Equiv.Perm (Fin n) → Prop} {A B : Mat}
    (h : PermutedBy P A B) : HasCols n B := by
  obtain ⟨σ, _, h⟩ := h
  exact HasCols.perm h (hasCols_permute σ A)

theorem PermutedBy.length {n : Nat} {P : Equiv.Perm (Fin n) → Prop} {A B : Mat}
    (h : PermutedBy P A B) : B.length = A.length := by
  obtain ⟨σ, _, h⟩ := h
  simpa using h.length_eq.symm

theorem permutedBy_sort_swap {n : Nat} {P : Equiv.Perm (Fin n) → Prop} (i j : Fin n)
    (h : P (Equiv.swap i j)) {M : Mat} (hM : HasCols n M) :
    PermutedBy P M (sortRows (swapCols i j M)) :=
  ⟨Equiv.swap i j, h, by rw [swapCols_eq i j M hM]; exact (sortRows_perm _).symm⟩

/-! the sorted candidate list -/

theorem sortMats_eq (n : Nat) (perms : List Mat) :
    sortMats n perms = perms.mergeSort
      (fun a b => rowLe (transpose n a).flatten (transpose n b).flatten) := by
  unfold sortMats argsortND
  rw [List.map_map]
  exact takeIdx_argsort2D_map perms _

theorem mem_sortMats {n : Nat} {perms : List Mat} {m : Mat} : m ∈ sortMats n perms ↔ m ∈ perms := by
  rw [sortMats_eq]; exact List.mem_mergeSort

theorem mem_foldl_addNew (l acc : List Mat) (m : Mat) :
    m ∈ l.foldl addNew acc ↔ m ∈ acc ∨ m ∈ l := by
  induction l generalizing acc with
  | nil => simp
  | cons x xs ih =>
    simp only [List.foldl_cons, ih, List.mem_cons]
    unfold addNew
    split
    · constructor
      · rintro (h | h) <;> simp [h]
      · rintro (h | h | h)
        · simp [h]
        · subst h; left; assumption
        · simp [h]
    · simp only [List.mem_append, List.mem_singleton]
      tauto

theorem mem_keepSmallest_of {i : Nat} {l : List Mat} {m : Mat} (h : m ∈ keepSmallest i l) : m ∈ l := by
  cases l with
  | nil => simp [keepSmallest] at h
  | cons x xs =>
    simp only [keepSmallest] at h
    rw [mem_foldl_addNew] at h
    rcases h with h | h
    · simp at h
    · exact List.takeWhile_subset _ h

theorem head_mem_keepSmallest {i : Nat} (x : Mat) (xs : List Mat) :
    x ∈ keepSmallest i (x :: xs) := by
  simp only [keepSmallest]
  rw [mem_foldl_addNew]
  right
  simp

theorem mem_candidates {i : Nat} {rem : List Nat} {opts : List Mat} {m : Mat} :
    m ∈ candidates i rem opts ↔ ∃ o ∈ opts, ∃ j ∈ rem, m = sortRows (swapCols i j o) := by
  simp only [candidates, List.mem_flatMap, List.mem_map]
  constructor
  · rintro ⟨o, ho, j, hj, rfl⟩; exact ⟨o, ho, j, hj, rfl⟩
  · rintro ⟨o, ho, j, hj, rfl⟩; exact ⟨o, ho, j, hj, rfl⟩

theorem mem_pakStep_of {n i : Nat} {rem : List Nat} {opts : List Mat} {m : Mat}
    (h : m ∈ pakStep n i rem opts) : ∃ o ∈ opts, ∃ j ∈ rem, m = sortRows (swapCols i j o) :=
  mem_candidates.1 (mem_sortMats.1 (mem_keepSmallest_of h))

theorem pakStep_ne_nil {n i : Nat} {rem : List Nat} {opts : List Mat} (h1 : rem ≠ [])
    (h2 : opts ≠ []) : pakStep n i rem opts ≠ [] := by
  obtain ⟨o, ho⟩ := List.exists_mem_of_ne_nil _ h2
  obtain ⟨j, hj⟩ := List.exists_mem_of_ne_nil _ h1
  have hm : sortRows (swapCols i j o) ∈ sortMats n (candidates i rem opts) :=
    mem_sortMats.2 (mem_candidates.2 ⟨o, ho, j, hj, rfl⟩)
  unfold pakStep
  cases hs : sortMats n (candidates i rem opts) with
  | nil => rw [hs] at hm; simp at hm
  | cons x xs => exact List.ne_nil_of_mem (head_mem_keepSmallest x xs)

/-- all options stay related to the start matrix -/
theorem pakGroup_perm {n : Nat} {P : Equiv.Perm (Fin n) → Prop}
    (hP : ∀ σ τ, P σ → P τ → P (σ * τ)) (M : Mat)
    (g : List Nat) (hg : ∀ (i j : Fin n), i.val ∈ g → j.val ∈ g → P (Equiv.swap i j))
    (hlt : ∀ i ∈ g, i < n)
    (opts : List Mat) (hne : opts ≠ []) (h : ∀ m ∈ opts, PermutedBy P M m) :
    pakGroup n g opts ≠ [] ∧ ∀ m ∈ pakGroup n g opts, PermutedBy P M m := by
  induction g generalizing opts with
  | nil => exact ⟨hne, h⟩
  | cons i rest ih =>
    simp only [pakGroup]
    refine ih (fun a b ha hb => hg a b (List.mem_cons_of_mem _ ha) (List.mem_cons_of_mem _ hb))
      (fun a ha => hlt a (List.mem_cons_of_mem _ ha)) _ (pakStep_ne_nil (by simp) hne) ?_
    intro m hm
    obtain ⟨o, ho, j, hj, rfl⟩ := mem_pakStep_of hm
    have hi : i < n := hlt i (by simp)
    have hj' : j < n := hlt j hj
    exact (h o ho).trans hP (permutedBy_sort_swap ⟨i, hi⟩ ⟨j, hj'⟩
      (hg ⟨i, hi⟩ ⟨j, hj'⟩ (by simp) hj) (h o ho).hasCols)

theorem pakGroups_perm {n : Nat} {P : Equiv.Perm (Fin n) → Prop}
    (hP : ∀ σ τ, P σ → P τ → P (σ * τ)) (M : Mat)
    (gs : List (List Nat))
    (hg : ∀ g ∈ gs, ∀ (i j : Fin n), i.val ∈ g → j.val ∈ g → P (Equiv.swap i j))
    (hlt : ∀ g ∈ gs, ∀ i ∈ g, i < n)
    (opts : List Mat) (hne : opts ≠ []) (h : ∀ m ∈ opts, PermutedBy P M m) :
    gs.foldl (fun options g => pakGroup n g options) opts ≠ [] ∧
    ∀ m ∈ gs.foldl (fun options g => pakGroup n g options) opts, PermutedBy P M m := by
  induction gs generalizing opts with
  | nil => exact ⟨hne, h⟩
  | cons g rest ih =>
    simp only [List.foldl_cons]
    obtain ⟨h1, h2⟩ := pakGroup_perm hP M g (hg g (by simp)) (hlt g (by simp)) opts hne h
    exact ih (fun g' hg' => hg g' (List.mem_cons_of_mem _ hg'))
      (fun g' hg' => hlt g' (List.mem_cons_of_mem _ hg')) _ h1 h2

theorem fixesFirst_mul {n : Nat} (σ τ : Equiv.Perm (Fin n)) (h1 : FixesFirst σ)
    (h2 : FixesFirst τ) : FixesFirst (σ * τ) := by
  intro c hc
  rw [Equiv.Perm.mul_apply, h2 c hc, h1 c hc]

theorem fixesFirst_inv {n : Nat} (σ : Equiv.Perm (Fin n)) (h1 : FixesFirst σ) :
    FixesFirst σ⁻¹ := by
  intro c hc
  rw [Equiv.Perm.inv_eq_iff_eq, h1 c hc]

theorem fixesFirst_one {n : Nat} : FixesFirst (1 : Equiv.Perm (Fin n)) := fun _ _ => rfl

theorem fixesFirst_swap {n : Nat} (i j : Fin n) (hi : i.val ≠ 0) (hj : j.val ≠ 0) :
    FixesFirst (Equiv.swap i j) := by
  intro c hc
  apply Equiv.swap_apply_of_ne_of_ne
  · rintro rfl; exact hi hc
  · rintro rfl; exact hj hc

end SecDec.MatrixSort
