import Verif.Proof.ExpAnalysis
import Mathlib.Data.Int.Interval
/-
Truncated Laurent series as coefficient functions.
-/
namespace SecDec.SectorExp
open Expansion Filter Topology Asymptotics

/-- `c` gives the coefficients of the expansion of `f` up to the order `o`, starting at the order `lo`. -/
def Exp (f : ℂ → ℂ) (o lo : ℤ) (c : ℤ → ℂ) : Prop :=
  (∀ k < lo, c k = 0) ∧
    (fun s => f s - ∑ k ∈ Finset.Icc lo o, c k * s ^ k) =O[𝓝[≠] 0] (fun s : ℂ => s ^ (o + 1))

theorem Exp.congr {f g : ℂ → ℂ} {o lo : ℤ} {c : ℤ → ℂ} (h : Exp f o lo c) (hfg : f =ᶠ[𝓝[≠] 0] g) : Exp g o lo c :=
  ⟨h.1, h.2.congr' (hfg.mono fun s hs => by simp only [hs]) EventuallyEq.rfl⟩

theorem Exp.congr_coeff {f : ℂ → ℂ} {o lo : ℤ} {c d : ℤ → ℂ} (h : Exp f o lo c) (hc : ∀ k ≤ o, c k = d k) (hd : ∀ k < lo, d k = 0) :
    Exp f o lo d := by
  refine ⟨hd, h.2.congr_left fun s => ?_⟩
  congr 1
  refine Finset.sum_congr rfl fun k hk => ?_
  rw [hc k (Finset.mem_Icc.1 hk).2]

theorem Exp.mono_lo {f : ℂ → ℂ} {o lo lo' : ℤ} {c : ℤ → ℂ} (h : Exp f o lo c) (hl : lo' ≤ lo) : Exp f o lo' c := by
  refine ⟨fun k hk => h.1 k (by omega), h.2.congr_left fun s => ?_⟩
  congr 1
  refine Finset.sum_subset (Finset.Icc_subset_Icc_left hl) fun k hk hk' => ?_
  rw [h.1 k (by rw [Finset.mem_Icc] at hk hk'; omega), zero_mul]

theorem Exp.add {f g : ℂ → ℂ} {o lo : ℤ} {c d : ℤ → ℂ} (h : Exp f o lo c) (h' : Exp g o lo d) :
    Exp (fun s => f s + g s) o lo (fun k => c k + d k) := by
  refine ⟨fun k hk => by show c k + d k = 0; rw [h.1 k hk, h'.1 k hk, add_zero], (h.2.add h'.2).congr_left fun s => ?_⟩
  simp only [add_mul, Finset.sum_add_distrib]; ring

theorem Exp.zero (o lo : ℤ) : Exp (fun _ => 0) o lo (fun _ => 0) :=
  ⟨fun _ _ => rfl, by simp only [zero_mul, Finset.sum_const_zero, sub_zero]; exact isBigO_zero _ _⟩

theorem Exp.list_sum {α : Type} {o lo : ℤ} (L : List α) (f : α → ℂ → ℂ) (c : α → ℤ → ℂ) (h : ∀ a ∈ L, Exp (f a) o lo (c a)) :
    Exp (fun s => (L.map fun a => f a s).sum) o lo (fun k => (L.map fun a => c a k).sum) := by
  induction L with
  | nil => simpa using Exp.zero o lo
  | cons a L ih =>
    simp only [List.map_cons, List.sum_cons]
    exact (h a (by simp)).add (ih fun b hb => h b (by simp [hb]))

theorem Exp.unique {f : ℂ → ℂ} {o lo : ℤ} {c d : ℤ → ℂ} (h : Exp f o lo c) (h' : Exp f o lo d) : ∀ k ≤ o, c k = d k := by
  intro k hk
  by_cases hl : lo ≤ k
  · have h1 := h.2.sub h'.2
    have h2 := vanish_of_isBigO (Finset.Icc lo o) (fun k => d k - c k) o (fun k hk => (Finset.mem_Icc.1 hk).2) (by
      refine h1.congr_left fun s => ?_
      simp only [sub_mul, Finset.sum_sub_distrib]; ring)
    exact (sub_eq_zero.1 (h2 k (Finset.mem_Icc.2 ⟨hl, hk⟩))).symm
  · rw [h.1 k (by omega), h'.1 k (by omega)]

theorem sum_isBigO {ι : Type} (S : Finset ι) (F : ι → ℂ → ℂ) (g : ℂ → ℂ) {l : Filter ℂ} (h : ∀ i ∈ S, F i =O[l] g) :
    (fun s => ∑ i ∈ S, F i s) =O[l] g := IsBigO.fun_sum h

theorem term_isBigO (c : ℂ) {a k : ℤ} (h : a ≤ k) : (fun s : ℂ => c * s ^ k) =O[𝓝[≠] 0] (fun s => s ^ a) :=
  (zpow_isBigO h).const_mul_left c

/-- The product of a Laurent and a Taylor series. -/
theorem Exp.mul {f g : ℂ → ℂ} {o lo : ℤ} {c d : ℤ → ℂ} (h : Exp f o lo c) (h' : Exp g (o - lo) 0 d) (hlo : lo ≤ o) :
    Exp (fun s => f s * g s) o lo (fun k => ∑ j ∈ Finset.Icc lo o, c j * d (k - j)) := by
  refine ⟨fun k hk => Finset.sum_eq_zero fun j hj => ?_, ?_⟩
  · rw [h'.1 (k - j) (by rw [Finset.mem_Icc] at hj; omega), mul_zero]
  set A : ℂ → ℂ := fun s => ∑ k ∈ Finset.Icc lo o, c k * s ^ k with hA
  set B : ℂ → ℂ := fun s => ∑ k ∈ Finset.Icc 0 (o - lo), d k * s ^ k with hB
  have hAO : A =O[𝓝[≠] 0] (fun s : ℂ => s ^ lo) :=
    sum_isBigO _ _ _ fun k hk => term_isBigO _ (Finset.mem_Icc.1 hk).1
  have hBO : B =O[𝓝[≠] 0] (fun s : ℂ => s ^ (0 : ℤ)) :=
    sum_isBigO _ _ _ fun k hk => term_isBigO _ (Finset.mem_Icc.1 hk).1
  have hgO : g =O[𝓝[≠] 0] (fun s : ℂ => s ^ (0 : ℤ)) := by
    have := (h'.2.trans (zpow_isBigO (a := 0) (b := o - lo + 1) (by omega))).add hBO
    refine this.congr_left fun s => ?_
    simp only [hB]; ring
  have e1 : (fun s => (f s - A s) * g s) =O[𝓝[≠] 0] (fun s : ℂ => s ^ (o + 1)) := by
    have := h.2.mul hgO
    refine this.congr_right fun s => ?_
    simp
  have e2 : (fun s => A s * (g s - B s)) =O[𝓝[≠] 0] (fun s : ℂ => s ^ (o + 1)) := by
    refine (hAO.mul h'.2).congr' EventuallyEq.rfl ?_
    filter_upwards [self_mem_nhdsWithin] with s hs
    rw [← zpow_add₀ hs]; congr 1; ring
  have e3 : (fun s => A s * B s - ∑ k ∈ Finset.Icc lo o, (∑ j ∈ Finset.Icc lo o, c j * d (k - j)) * s ^ k)
      =O[𝓝[≠] 0] (fun s : ℂ => s ^ (o + 1)) := by
    have hterm : ∀ j ∈ Finset.Icc lo o, (fun s : ℂ => c j * s ^ j * B s -
        ∑ k ∈ Finset.Icc lo o, c j * d (k - j) * s ^ k) =O[𝓝[≠] 0] (fun s : ℂ => s ^ (o + 1)) := by
      intro j hj
      rw [Finset.mem_Icc] at hj
      have hsplit : ∀ s : ℂ, s ≠ 0 → c j * s ^ j * B s = ∑ k ∈ Finset.Icc j (o - lo + j), c j * d (k - j) * s ^ k := by
        intro s hs
        simp only [hB]
        rw [Finset.mul_sum]
        refine Finset.sum_bij (fun k _ => k + j) ?_ ?_ ?_ ?_
        · intro k hk; rw [Finset.mem_Icc] at hk ⊢; omega
        · intro a _ b _ hab; omega
        · intro b hb
          rw [Finset.mem_Icc] at hb
          exact ⟨b - j, Finset.mem_Icc.2 (by omega), by omega⟩
        · intro k _
          rw [zpow_add₀ hs, add_sub_cancel_right]; ring
      have hlow : ∀ s : ℂ, ∑ k ∈ Finset.Icc lo o, c j * d (k - j) * s ^ k = ∑ k ∈ Finset.Icc j o, c j * d (k - j) * s ^ k := by
        intro s
        symm
        refine Finset.sum_subset (Finset.Icc_subset_Icc_left hj.1) fun k hk hk' => ?_
        rw [h'.1 (k - j) (by rw [Finset.mem_Icc] at hk hk'; omega)]; simp
      have hhigh : ∀ s : ℂ, s ≠ 0 → c j * s ^ j * B s - ∑ k ∈ Finset.Icc lo o, c j * d (k - j) * s ^ k =
          ∑ k ∈ Finset.Icc j (o - lo + j) \ Finset.Icc j o, c j * d (k - j) * s ^ k := by
        intro s hs
        rw [hsplit s hs, hlow s, ← Finset.sum_sdiff (Finset.Icc_subset_Icc_right (show o ≤ o - lo + j by omega))]
        ring
      have hb : (fun s : ℂ => ∑ k ∈ Finset.Icc j (o - lo + j) \ Finset.Icc j o, c j * d (k - j) * s ^ k)
          =O[𝓝[≠] 0] (fun s : ℂ => s ^ (o + 1)) := by
        refine sum_isBigO _ _ _ fun k hk => term_isBigO _ ?_
        rw [Finset.mem_sdiff, Finset.mem_Icc, Finset.mem_Icc] at hk
        omega
      refine hb.congr' ?_ EventuallyEq.rfl
      filter_upwards [self_mem_nhdsWithin] with s hs
      exact (hhigh s hs).symm
    refine (sum_isBigO _ _ _ hterm).congr_left fun s => ?_
    rw [Finset.sum_sub_distrib, ← Finset.sum_mul, Finset.sum_comm]
    congr 1
    refine Finset.sum_congr rfl fun k _ => ?_
    rw [Finset.sum_mul]
  refine ((e1.add e2).add e3).congr_left fun s => ?_
  ring

/-- An expansion in form of a list. -/
theorem Exp.isExpansion {f : ℂ → ℂ} {o p : ℤ} {c : ℤ → ℂ} (h : Exp f o (-p) c) :
    IsExpansion f o (((List.range (o + p + 1).toNat).map (fun (k : ℕ) => (k : ℤ) - p)).map (fun k => (k, c k))) := by
  refine ⟨?_, ?_, ?_⟩
  · rw [List.map_map, List.map_map, List.pairwise_map]
    refine List.pairwise_lt_range.imp fun {a b} hab => ?_
    simp only [Function.comp]; omega
  · intro t ht
    simp only [List.map_map, List.mem_map, List.mem_range, Function.comp] at ht
    obtain ⟨k, hk, rfl⟩ := ht
    simp only
    omega
  · refine h.2.congr_left fun s => ?_
    congr 1
    rw [List.map_map, List.map_map]
    have : ∀ m : ℕ, ((List.range m).map ((((fun t : ℤ × ℂ => t.2 * s ^ t.1) ∘ fun k => (k, c k))) ∘ fun (k : ℕ) => (k : ℤ) - p)).sum
        = ∑ k ∈ Finset.Icc (-p) ((m : ℤ) - p - 1), c k * s ^ k := by
      intro m
      induction m with
      | zero =>
        rw [Finset.Icc_eq_empty (by push_cast; omega)]; simp
      | succ m ih =>
        rw [List.range_succ, List.map_append, List.sum_append, ih]
        simp only [List.map_cons, List.map_nil, List.sum_cons, List.sum_nil, add_zero, Function.comp]
        have : Finset.Icc (-p) (((m + 1 : ℕ) : ℤ) - p - 1) = insert ((m : ℤ) - p) (Finset.Icc (-p) ((m : ℤ) - p - 1)) := by
          ext x
          simp only [Finset.mem_Icc, Finset.mem_insert]
          push_cast
          omega
        rw [this, Finset.sum_insert (by simp), add_comm]
    rw [this]
    by_cases hp : 0 ≤ o + p + 1
    · rw [Int.toNat_of_nonneg hp]; congr 2; ring
    · rw [Int.toNat_eq_zero.2 (by omega), Finset.Icc_eq_empty (by omega), Finset.Icc_eq_empty (by push_cast; omega)]

/-- Expansions of analytic functions. -/
theorem exp_taylor {g : ℂ → ℂ} (hg : AnalyticAt ℂ g 0) (m : ℕ) (d : ℤ → ℂ)
    (hd : ∀ k : ℕ, k ≤ m → d k = iteratedDeriv k g 0 / (k.factorial : ℂ)) (hd0 : ∀ k < 0, d k = 0) : Exp g m 0 d := by
  refine ⟨hd0, ?_⟩
  have h := (taylor_isBigO hg (m + 1)).mono (nhdsWithin_le_nhds (s := {0}ᶜ))
  refine IsBigO.congr h (fun s => ?_) (fun s => by norm_cast)
  congr 1
  have : Finset.Icc (0:ℤ) m = (Finset.range (m + 1)).map ⟨fun k : ℕ => (k : ℤ), Nat.cast_injective⟩ := by
    ext x
    simp only [Finset.mem_Icc, Finset.mem_map, Finset.mem_range, Function.Embedding.coeFn_mk]
    constructor
    · rintro ⟨h1, h2⟩
      exact ⟨x.toNat, by omega, by omega⟩
    · rintro ⟨k, hk, rfl⟩
      omega
  rw [this, Finset.sum_map]
  refine Finset.sum_congr rfl fun k hk => ?_
  simp only [Function.Embedding.coeFn_mk]
  rw [hd k (by rw [Finset.mem_range] at hk; omega), zpow_natCast]

end SecDec.SectorExp
