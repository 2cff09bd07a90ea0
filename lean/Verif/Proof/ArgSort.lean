import Mathlib.Data.List.Basic
import Mathlib.Data.Int.Order.Basic
import Verif.Model.ArgSort
namespace SecDec

theorem rowLe_refl (a : List Int) : rowLe a a = true := by
  induction a with
  | nil => rfl
  | cons x xs ih => simp [rowLe, ih]

theorem rowLe_total (a b : List Int) : (rowLe a b || rowLe b a) = true := by
  induction a generalizing b with
  | nil => simp [rowLe]
  | cons x xs ih =>
    cases b with
    | nil => simp [rowLe]
    | cons y ys =>
      rcases lt_trichotomy x y with h | h | h
      · simp [rowLe, h]
      · subst h; simpa [rowLe] using ih ys
      · simp [rowLe, h]

theorem rowLe_trans (a b c : List Int) (h1 : rowLe a b = true) (h2 : rowLe b c = true) :
    rowLe a c = true := by
  induction a generalizing b c with
  | nil => simp [rowLe]
  | cons x xs ih =>
    cases b with
    | nil => simp [rowLe] at h1
    | cons y ys =>
      cases c with
      | nil => simp [rowLe] at h2
      | cons z zs =>
        rcases lt_trichotomy x y with hxy | hxy | hxy
        · rcases lt_trichotomy y z with hyz | hyz | hyz
          · have : x < z := by omega
            simp [rowLe, this]
          · have : x < z := by omega
            simp [rowLe, this]
          · have h' : ¬ y < z := by omega
            simp [rowLe, hyz, h'] at h2
        · subst hxy
          rcases lt_trichotomy x z with hyz | hyz | hyz
          · simp [rowLe, hyz]
          · subst hyz
            simp [rowLe] at *
            exact ih _ _ h1 h2
          · have h' : ¬ x < z := by omega
            simp [rowLe, hyz, h'] at h2
        · have h' : ¬ x < y := by omega
          simp [rowLe, hxy, h'] at h1

theorem rowLe_antisymm (a b : List Int) (h1 : rowLe a b = true) (h2 : rowLe b a = true) :
    a = b := by
  induction a generalizing b with
  | nil => cases b with
    | nil => rfl
    | cons y ys => simp [rowLe] at h2
  | cons x xs ih =>
    cases b with
    | nil => simp [rowLe] at h1
    | cons y ys =>
      rcases lt_trichotomy x y with h | h | h
      · have h' : ¬ y < x := by omega
        simp [rowLe, h, h'] at h2
      · subst h
        simp [rowLe] at h1 h2
        rw [ih _ h1 h2]
      · have h' : ¬ x < y := by omega
        simp [rowLe, h, h'] at h1

theorem takeIdx_argsort2D_map {α : Type} (l : List α) (f : α → List Int) :
    takeIdx l (argsort2D (l.map f)) = l.mergeSort (fun a b => rowLe (f a) (f b)) := by
  have h1 : ((l.zipIdx.mergeSort (fun a b => rowLe (f a.1) (f b.1))).map (fun p => (f p.1, p.2)))
      = ((l.map f).zipIdx.mergeSort (fun a b => rowLe a.1 b.1)) := by
    rw [List.map_mergeSort (s := fun a b => rowLe a.1 b.1)]
    · rw [List.zipIdx_map]; rfl
    · intros; rfl
  have h2 : ((l.zipIdx.mergeSort (fun a b => rowLe (f a.1) (f b.1))).map (fun p => p.1))
      = l.mergeSort (fun a b => rowLe (f a) (f b)) := by
    rw [List.map_mergeSort (s := fun a b => rowLe (f a) (f b))]
    · congr 1
      simp
    · intros; rfl
  unfold takeIdx argsort2D
  rw [← h1, ← h2, List.map_map]
  rw [List.filterMap_map]
  rw [← List.filterMap_eq_map]
  apply List.filterMap_congr
  intro p hp
  rw [List.mem_mergeSort] at hp
  obtain ⟨a, i⟩ := p
  have := List.mk_mem_zipIdx_iff_getElem?.1 hp
  simpa using this

theorem takeIdx_map {α β : Type} (l : List α) (g : α → β) (key : List Nat) :
    takeIdx (l.map g) key = (takeIdx l key).map g := by
  unfold takeIdx
  rw [List.map_filterMap]
  apply List.filterMap_congr
  intro i _
  simp

theorem takeIdx_argsort2D (rows : List (List Int)) :
    takeIdx rows (argsort2D rows) = rows.mergeSort rowLe := by
  have := takeIdx_argsort2D_map rows id
  simpa using this

theorem argsort2D_perm_range (rows : List (List Int)) :
    (argsort2D rows).Perm (List.range rows.length) := by
  unfold argsort2D
  have h := (List.mergeSort_perm rows.zipIdx (fun a b => rowLe a.1 b.1)).map (·.2)
  refine h.trans ?_
  rw [show rows.zipIdx.map (·.2) = List.range' 0 rows.length from by simp]
  rw [List.range_eq_range']

theorem sorted_mergeSort_key {α : Type} (l : List α) (f : α → List Int) :
    (l.mergeSort (fun a b => rowLe (f a) (f b))).Pairwise (fun a b => rowLe (f a) (f b) = true) := by
  exact List.pairwise_mergeSort (le := fun a b => rowLe (f a) (f b))
    (by intro a b c; exact rowLe_trans _ _ _)
    (by intro a b; exact rowLe_total _ _) l

end SecDec
