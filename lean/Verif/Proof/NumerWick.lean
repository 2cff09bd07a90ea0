import Verif.Spec.Numerator
import Verif.Props.Misc
/-
Wick's theorem in the form of the code's enumeration (proof of property C50).
-/
namespace SecDec
namespace Numer
open scoped BigOperators
variable {α : Type}

def splits : List α → List (List α × List α)
  | [] => [([], [])]
  | x :: l => (splits l).map (fun s => (x :: s.1, s.2)) ++ (splits l).map (fun s => (s.1, x :: s.2))

def picks : List α → List (α × List α)
  | [] => []
  | x :: l => (x, l) :: (picks l).map (fun s => (s.1, x :: s.2))

theorem sum_map_add' (l : List α) (f g : α → ℂ) : (l.map fun x => f x + g x).sum = (l.map f).sum + (l.map g).sum := by
  induction l with
  | nil => simp
  | cons a l ih => simp only [List.map_cons, List.sum_cons, ih]; ring

theorem split_pick (l : List α) : ∀ f : α → List α → List α → ℂ,
    ((splits l).map fun s => ((picks s.1).map fun y => f y.1 y.2 s.2).sum).sum =
      ((picks l).map fun y => ((splits y.2).map fun s => f y.1 s.1 s.2).sum).sum := by
  induction l with
  | nil => intro f; simp [splits, picks]
  | cons x l ih =>
    intro f
    have h1 := ih (fun y A B => f y (x :: A) B)
    have h2 := ih (fun y A B => f y A (x :: B))
    simp only [splits, picks, List.map_append, List.map_map, List.sum_append, List.map_cons, List.sum_cons,
      Function.comp_def, sum_map_add'] at *
    rw [h1, h2, ← add_assoc]

theorem picks_length (l : List α) : ∀ y ∈ picks l, y.2.length + 1 = l.length := by
  induction l with
  | nil => simp [picks]
  | cons x l ih =>
    intro y hy
    simp only [picks, List.mem_cons, List.mem_map] at hy
    rcases hy with rfl | ⟨z, hz, rfl⟩
    · simp
    · have := ih z hz; simp; omega

theorem picks_finRange (l : List α) :
    (List.finRange l.length).map (fun i : Fin l.length => (l[i], l.eraseIdx i)) = picks l := by
  induction l with
  | nil => simp [picks]
  | cons x l ih =>
    simp only [List.length_cons, List.finRange_succ, List.map_cons, List.map_map, picks, ← ih]
    simp [Function.comp_def]

theorem splits_perm (l : List α) : ∀ s ∈ splits l, (s.1 ++ s.2).Perm l := by
  induction l with
  | nil => simp [splits]
  | cons x l ih =>
    intro s hs
    simp only [splits, List.mem_append, List.mem_map] at hs
    rcases hs with ⟨z, hz, rfl⟩ | ⟨z, hz, rfl⟩
    · exact (ih z hz).cons x
    · exact (List.perm_middle).trans ((ih z hz).cons x)

theorem splits_fst (l : List α) : ((splits l).map Prod.fst).Perm l.sublists' := by
  induction l with
  | nil => simp [splits]
  | cons x l ih =>
    simp only [splits, List.map_append, List.map_map, List.sublists'_cons]
    refine List.perm_append_comm.trans (List.Perm.append ?_ ?_)
    · simpa [Function.comp_def] using ih
    · have := ih.map (x :: ·)
      simpa [Function.comp_def] using this

/-- The sum over the pairings. -/
noncomputable def pairSum (h : α → α → ℂ) (l : List α) : ℂ :=
  ((Misc.allPairsRec l).map fun m => (m.map fun p => h p.1 p.2).prod).sum

theorem sum_flatMap' {β : Type} (l : List α) (g : α → List β) (f : β → ℂ) :
    ((l.flatMap g).map f).sum = (l.map fun x => ((g x).map f).sum).sum := by
  induction l with
  | nil => simp
  | cons a l ih => simp [List.flatMap_cons, ih]

theorem sum_map_mul' (l : List α) (c : ℂ) (f : α → ℂ) : (l.map fun x => c * f x).sum = c * (l.map f).sum := by
  induction l with
  | nil => simp
  | cons a l ih => simp only [List.map_cons, List.sum_cons, ih]; ring

theorem pairSum_nil (h : α → α → ℂ) : pairSum h [] = 1 := by
  rw [pairSum, Misc.allPairsRec.eq_def]; simp

theorem pairSum_cons (h : α → α → ℂ) (x : α) (A : List α) (hA : A.length % 2 = 1) :
    pairSum h (x :: A) = ((picks A).map fun y => h x y.1 * pairSum h y.2).sum := by
  cases A with
  | nil => simp at hA
  | cons b rest =>
    rw [pairSum, Misc.allPairsRec.eq_def]
    simp only [sum_flatMap', List.map_map, Function.comp_def, List.map_cons, List.prod_cons]
    rw [← picks_finRange, List.map_map]
    congr 1
    refine List.map_congr_left fun i _ => ?_
    rw [Function.comp_apply, pairSum, ← sum_map_mul']

theorem pairSum_scale (h : α → α → ℂ) (c : ℂ) : ∀ (n : ℕ) (l : List α), l.length = 2 * n →
    pairSum (fun x y => c * h x y) l = c ^ n * pairSum h l := by
  intro n
  induction n with
  | zero =>
    intro l hl
    have : l = [] := List.length_eq_zero_iff.1 (by omega)
    subst this
    rw [pairSum_nil, pairSum_nil]; simp
  | succ n ih =>
    intro l hl
    cases l with
    | nil => simp at hl
    | cons x A =>
      have hA : A.length % 2 = 1 := by simp at hl; omega
      rw [pairSum_cons _ _ _ hA, pairSum_cons _ _ _ hA, ← sum_map_mul']
      congr 1
      refine List.map_congr_left fun y hy => ?_
      have := picks_length A y hy
      rw [ih y.2 (by simp at hl; omega)]
      ring

/-- The sum over the even subsets and their pairings. -/
noncomputable def wick (h : α → α → ℂ) (P : α → ℂ) (l : List α) : ℂ :=
  ((splits l).map fun s => if s.1.length % 2 = 0 then pairSum h s.1 * (s.2.map P).prod else 0).sum

theorem wick_nil (h : α → α → ℂ) (P : α → ℂ) : wick h P [] = 1 := by
  simp [wick, splits, pairSum_nil]

theorem wick_cons (h : α → α → ℂ) (P : α → ℂ) (x : α) (l : List α) :
    wick h P (x :: l) = P x * wick h P l + ((picks l).map fun y => h x y.1 * wick h P y.2).sum := by
  have key := split_pick l (fun y A B => if A.length % 2 = 0 then h x y * (pairSum h A * (B.map P).prod) else 0)
  have e1 : (fun y : α × List α => h x y.1 * wick h P y.2) = fun y =>
      ((splits y.2).map fun s => if s.1.length % 2 = 0 then h x y.1 * (pairSum h s.1 * (s.2.map P).prod) else 0).sum := by
    funext y
    rw [wick, ← sum_map_mul']
    congr 1
    refine List.map_congr_left fun s _ => ?_
    split_ifs <;> simp
  rw [e1, ← key, wick, wick]
  simp only [splits, List.map_append, List.map_map, List.sum_append]
  rw [add_comm]
  congr 1
  · rw [← sum_map_mul']
    congr 1
    refine List.map_congr_left fun s _ => ?_
    simp only [Function.comp_def, List.map_cons, List.prod_cons]
    split_ifs
    · ring
    · simp
  · congr 1
    refine List.map_congr_left fun s _ => ?_
    simp only [Function.comp_def, List.length_cons]
    by_cases hs : s.1.length % 2 = 1
    · rw [if_pos (by omega), pairSum_cons _ _ _ hs]
      rw [mul_comm, ← sum_map_mul']
      congr 1
      refine List.map_congr_left fun y hy => ?_
      have := picks_length _ y hy
      rw [if_pos (by omega)]; ring
    · rw [if_neg (by omega)]
      symm
      apply List.sum_eq_zero
      intro z hz
      obtain ⟨y, hy, rfl⟩ := List.mem_map.1 hz
      have := picks_length _ y hy
      rw [if_neg (by omega)]

variable {L d : ℕ}

theorem sum_picks_fin (l : List α) (g : α → List α → ℂ) :
    (∑ j : Fin l.length, g l[j] (l.eraseIdx j)) = ((picks l).map fun y => g y.1 y.2).sum := by
  rw [← picks_finRange, List.map_map, Function.comp_def, ← List.ofFn_eq_map, List.sum_ofFn]

/-- The recursion of the mean values, solved for one factor. -/
theorem moments_cons {ε : Fin d → ℂ} (hε : ∀ m, ε m ^ 2 = 1) {M aM : Fin L → Fin L → ℂ} {U : ℂ}
    (hU : U ≠ 0) (haM : ∀ a c, ∑ b, aM a b * M b c = if a = c then U else 0)
    {Q : Fin L → Fin d → ℂ} {α : ℂ} (hα : α ≠ 0) {T : List (Fin L × Fin d) → ℂ} (hT : Moments ε M Q α T)
    (x : Fin L × Fin d) (l : List (Fin L × Fin d)) :
    T (x :: l) = U⁻¹ * ((∑ b, aM x.1 b * Q b x.2) * T l +
      ((picks l).map fun y => (-1 / (2 * α) * (aM x.1 y.1.1 * metric ε x.2 y.1.2)) * T y.2).sum) := by
  obtain ⟨a, m⟩ := x
  have hε0 : ε m ≠ 0 := by intro h; have := hε m; rw [h] at this; norm_num at this
  have h1 : ∀ b, ∑ c, M b c * T ((c, m) :: l) = Q b m * T l -
      (2 * α * ε m)⁻¹ * ∑ j : Fin l.length, if l[j] = (b, m) then T (l.eraseIdx j) else 0 := by
    intro b
    have := hT.parts b m l
    have h2 : (2 * α * ε m) ≠ 0 := by simp [hα, hε0]
    field_simp
    linear_combination this
  have h2 : U * T ((a, m) :: l) = ∑ b, aM a b * ∑ c, M b c * T ((c, m) :: l) := by
    calc U * T ((a, m) :: l) = ∑ c, (∑ b, aM a b * M b c) * T ((c, m) :: l) := by
          simp_rw [haM]; simp
      _ = _ := by
        simp_rw [Finset.sum_mul, Finset.mul_sum]
        rw [Finset.sum_comm]
        simp_rw [mul_assoc]
  have h3 : (2 * α * ε m)⁻¹ = ε m * (2 * α)⁻¹ := by
    have := hε m
    field_simp
    exact this.symm
  have h4 : ∑ b, aM a b * ∑ j : Fin l.length, (if l[j] = (b, m) then T (l.eraseIdx j) else 0) =
      ((picks l).map fun y => (aM a y.1.1 * (if m = y.1.2 then 1 else 0)) * T y.2).sum := by
    rw [← sum_picks_fin l (fun y B => (aM a y.1 * (if m = y.2 then 1 else 0)) * T B)]
    simp_rw [Finset.mul_sum]
    rw [Finset.sum_comm]
    refine Finset.sum_congr rfl fun j _ => ?_
    rw [Finset.sum_eq_single (l[j]).1]
    · by_cases hm : m = (l[j]).2
      · rw [if_pos hm, if_pos (show l[j] = ((l[j]).1, m) from Prod.ext rfl hm.symm)]; ring
      · rw [if_neg (fun h => hm (by rw [h])), if_neg hm]; ring
    · intro b _ hb
      rw [if_neg (fun h => hb (by rw [h]))]; ring
    · simp
  have h5 : ((picks l).map fun y => (-1 / (2 * α) * (aM a y.1.1 * metric ε m y.1.2)) * T y.2).sum =
      -(ε m * (2 * α)⁻¹) * ((picks l).map fun y => (aM a y.1.1 * (if m = y.1.2 then 1 else 0)) * T y.2).sum := by
    rw [← sum_map_mul']
    congr 1
    refine List.map_congr_left fun y _ => ?_
    unfold metric
    split_ifs
    · field_simp
    · ring
  rw [eq_inv_mul_iff_mul_eq₀ hU, h2]
  dsimp only
  rw [h5, ← h4, ← h3]
  simp_rw [h1, mul_sub, Finset.sum_sub_distrib]
  rw [Finset.sum_mul, Finset.mul_sum, sub_eq_add_neg, ← Finset.sum_neg_distrib]
  congr 1
  · exact Finset.sum_congr rfl fun b _ => by ring
  · exact Finset.sum_congr rfl fun b _ => by ring

/-- Wick's theorem. -/
theorem moments_wick {ε : Fin d → ℂ} (hε : ∀ m, ε m ^ 2 = 1) {M aM : Fin L → Fin L → ℂ} {U : ℂ}
    (hU : U ≠ 0) (haM : ∀ a c, ∑ b, aM a b * M b c = if a = c then U else 0)
    {Q : Fin L → Fin d → ℂ} {α : ℂ} (hα : α ≠ 0) {T : List (Fin L × Fin d) → ℂ} (hT : Moments ε M Q α T) :
    ∀ (n : ℕ) (l : List (Fin L × Fin d)), l.length = n →
    T l = (U ^ n)⁻¹ * wick (fun x y => (-U / (2 * α)) * (aM x.1 y.1 * metric ε x.2 y.2))
      (fun x => ∑ b, aM x.1 b * Q b x.2) l := by
  intro n
  induction n using Nat.strong_induction_on with
  | _ n ih =>
    intro l hl
    cases l with
    | nil => subst hl; simp [wick_nil, hT.one]
    | cons x l =>
      obtain ⟨k, rfl⟩ : ∃ k, n = k + 1 := ⟨l.length, by simpa using hl.symm⟩
      have hlk : l.length = k := by simpa using hl
      rw [moments_cons hε hU haM hα hT, wick_cons, ih k (by omega) l hlk]
      have e : ((picks l).map fun y => (-1 / (2 * α) * (aM x.1 y.1.1 * metric ε x.2 y.1.2)) * T y.2).sum =
          (U ^ k)⁻¹ * ((picks l).map fun y => ((-U / (2 * α)) * (aM x.1 y.1.1 * metric ε x.2 y.1.2)) *
            wick (fun x y => (-U / (2 * α)) * (aM x.1 y.1 * metric ε x.2 y.2)) (fun x => ∑ b, aM x.1 b * Q b x.2) y.2).sum := by
        rw [← sum_map_mul']
        congr 1
        refine List.map_congr_left fun y hy => ?_
        have h1 := picks_length l y hy
        obtain ⟨j, rfl⟩ : ∃ j, k = j + 1 := ⟨y.2.length, by omega⟩
        rw [ih j (by omega) y.2 (by omega)]
        generalize wick _ _ _ = W
        generalize aM x.1 y.1.1 * metric ε x.2 y.1.2 = V
        field_simp
        ring
      rw [e]
      rw [pow_succ, mul_inv]
      ring
end Numer
end SecDec
