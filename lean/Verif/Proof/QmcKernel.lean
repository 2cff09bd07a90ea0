import Mathlib.Tactic.Linarith
import Mathlib.Tactic.Ring
import Mathlib.Tactic.Positivity
import Verif.Spec.Qmc
/-
The integration kernels compute the sum over the lattice points.
-/
namespace SecDec
namespace Qmc

/-! ### Rounding -/

theorem rnd_err (x : ℝ) : |rnd x - x| ≤ |x| / 2^53 := by
  unfold rnd
  split
  · next h => simp [h]
  · next h =>
    have hx : 0 < |x| := abs_pos.2 h
    have hl := Int.zpow_log_le_self (R := ℝ) (b := 2) (by norm_num) hx
    push_cast at hl
    set e := Int.log 2 |x| with he
    have hu : (0:ℝ) < 2^(e - 52) := by positivity
    have hr := abs_sub_round (x / (2:ℝ)^(e - 52))
    have h1 : (round (x / (2:ℝ)^(e-52)) : ℝ) * 2^(e-52) - x = -(x / (2:ℝ)^(e-52) - round (x / (2:ℝ)^(e-52))) * 2^(e-52) := by
      field_simp; ring
    rw [h1, abs_mul, abs_neg, abs_of_pos hu]
    have h2 : (2:ℝ)^(e-52) = 2^e / 2^52 := by
      rw [zpow_sub₀ (by norm_num)]; norm_cast
    calc _ ≤ 1/2 * (2:ℝ)^(e-52) := by gcongr
      _ = (2:ℝ)^e / 2^53 := by rw [h2]; ring
      _ ≤ _ := by gcongr

theorem rnd_nat (a : ℕ) (h : a < 2^53) : rnd a = a := by
  unfold rnd
  split
  · next h0 => exact h0.symm
  · next h0 =>
    have ha : 0 < a := by
      rcases Nat.eq_zero_or_pos a with h | h
      · simp [h] at h0
      · exact h
    have habs : |(a:ℝ)| = a := abs_of_nonneg (by positivity)
    rw [habs]
    have he : Int.log 2 (a:ℝ) = (Nat.log 2 a : ℤ) := Int.log_natCast 2 a
    rw [he]
    have hle : Nat.log 2 a ≤ 52 := by
      have := Nat.log_lt_of_lt_pow (by omega) h
      omega
    obtain ⟨m, hm⟩ := Nat.exists_eq_add_of_le hle
    have hexp : (2:ℝ)^((Nat.log 2 a : ℤ) - 52) = 1 / 2^m := by
      have : ((Nat.log 2 a : ℤ) - 52) = -(m:ℤ) := by omega
      rw [this, zpow_neg]; simp
    rw [hexp]
    have : (a:ℝ) / (1/2^m) = ((a * 2^m : ℕ) : ℝ) := by push_cast; field_simp
    rw [this, round_natCast]
    push_cast; field_simp

theorem rnd_nonneg {x : ℝ} (h : 0 ≤ x) : 0 ≤ rnd x := by
  have := rnd_err x
  rw [abs_of_nonneg h] at this
  have h1 := (abs_le.1 this).1
  have : x / 2^53 ≤ x := by
    rw [div_le_iff₀ (by positivity)]; nlinarith
  linarith

/-! ### mulmod -/

theorem toInt64_of (u : ℕ) (D : ℤ) (hu : (u : ℤ) % 2^64 = D % 2^64) (h1 : -2^63 ≤ D) (h2 : D < 2^63) : toInt64 u = D := by
  unfold toInt64
  have e : ((u % 2^64 : ℕ) : ℤ) = D % 2^64 := by rw [← hu]; push_cast; rfl
  split
  · next h => omega
  · next h => omega

theorem mulmod_eq (a b k : ℕ) (ha : a ≤ k) (hb : b ≤ k) (hk : k < 2^53) (hk0 : 0 < k) : mulmod a b k = a * b % k := by
  unfold mulmod
  split
  · next h =>
    have : a * b ≤ 3037000499 * 3037000499 := Nat.mul_le_mul (by omega) (by omega)
    rw [Nat.mod_eq_of_lt (a := a * b) (by omega)]
  · next h =>
    have hkR : (0:ℝ) < k := by exact_mod_cast hk0
    rw [rnd_nat a (by omega), rnd_nat b (by omega), rnd_nat k hk]
    dsimp only
    set p := rnd ((a:ℝ) * b) with hp
    set q := rnd (p / k) with hq
    have hab0 : (0:ℝ) ≤ (a:ℝ) * b := by positivity
    have hp0 : 0 ≤ p := rnd_nonneg hab0
    have hq0 : 0 ≤ q := rnd_nonneg (by positivity)
    have ep := rnd_err ((a:ℝ) * b)
    rw [← hp, abs_of_nonneg hab0, abs_le] at ep
    have eq' := rnd_err (p / k)
    rw [← hq, abs_of_nonneg (div_nonneg hp0 hkR.le), abs_le] at eq'
    have habk : (a:ℝ) * b ≤ k * k := by
      have : (a:ℝ) ≤ k := by exact_mod_cast ha
      have : (b:ℝ) ≤ k := by exact_mod_cast hb
      gcongr
    have hk53 : (k:ℝ) < 2^53 := by exact_mod_cast hk
    -- in units of `1/k`
    have hq1 : q * k - p ≤ p / 2^53 := by
      have := mul_le_mul_of_nonneg_right eq'.2 hkR.le
      calc q * k - p = (q - p/k) * k := by field_simp
        _ ≤ p / k / 2^53 * k := this
        _ = p / 2^53 := by field_simp
    have hq2 : -(p / 2^53) ≤ q * k - p := by
      have := mul_le_mul_of_nonneg_right eq'.1 hkR.le
      calc -(p / 2^53) = -(p / k / 2^53) * k := by field_simp
        _ ≤ (q - p/k) * k := this
        _ = q * k - p := by field_simp
    have hkk : (k:ℝ) * k / 2^53 ≤ k := by
      rw [div_le_iff₀ (by positivity)]; nlinarith
    have hpb : p ≤ (a:ℝ) * b + k := by
      have : (a:ℝ) * b / 2^53 ≤ k * k / 2^53 := by gcongr
      linarith
    have hpk : p / 2^53 ≤ 2 * k := by
      have : p / 2^53 ≤ (k * k + k) / 2^53 := by gcongr; linarith
      have h3 : (k:ℝ) / 2^53 ≤ k := by rw [div_le_iff₀ (by positivity)]; nlinarith
      have : ((k:ℝ) * k + k) / 2^53 = k*k/2^53 + k/2^53 := by ring
      linarith
    have hpa : p ≥ (a:ℝ) * b - k := by
      have : (a:ℝ) * b / 2^53 ≤ k * k / 2^53 := by gcongr
      linarith
    have hup : q * k ≤ (a:ℝ) * b + 3 * k := by linarith
    have hlo : (a:ℝ) * b - 3 * k ≤ q * k := by linarith
    set c := ⌊q⌋₊ with hc
    have hc1 : (c:ℝ) ≤ q := Nat.floor_le hq0
    have hc2 : q < c + 1 := Nat.lt_floor_add_one q
    have hcu : c * k ≤ a * b + 3 * k := by
      have : (c:ℝ) * k ≤ a * b + 3 * k := le_trans (mul_le_mul_of_nonneg_right hc1 hkR.le) hup
      exact_mod_cast this
    have hcl : a * b ≤ c * k + 4 * k := by
      have : (a:ℝ) * b ≤ c * k + 4 * k := by nlinarith [mul_lt_mul_of_pos_right hc2 hkR]
      exact_mod_cast this
    have hck : c ≤ k + 3 := by
      have : c * k ≤ (k + 3) * k := by
        calc c * k ≤ a * b + 3 * k := hcu
          _ ≤ k * k + 3 * k := by gcongr
          _ = _ := by ring
      exact Nat.le_of_mul_le_mul_right this hk0
    rw [Nat.mod_eq_of_lt (a := c) (by omega)]
    set D : ℤ := (a:ℤ) * b - c * k with hD
    have hD1 : -(3 * (k:ℤ)) ≤ D := by
      have : (c:ℤ) * k ≤ a * b + 3 * k := by exact_mod_cast hcu
      omega
    have hD2 : D ≤ 4 * (k:ℤ) := by
      have : (a:ℤ) * b ≤ c * k + 4 * k := by exact_mod_cast hcl
      omega
    have hdiff : toInt64 (((a * b) % 2^64 + (2^64 - (c * k) % 2^64)) % 2^64) = D := by
      apply toInt64_of
      · rw [hD]
        generalize hA : a * b = A
        generalize hC : c * k = C
        have hA' : (a:ℤ) * b = A := by rw [← hA]; push_cast; rfl
        have hC' : (c:ℤ) * k = C := by rw [← hC]; push_cast; rfl
        rw [hA', hC']
        omega
      · omega
      · omega
    have hkk : toInt64 k = k := toInt64_of k k rfl (by omega) (by omega)
    rw [hdiff, hkk]
    have hmod : ((a * b % k : ℕ) : ℤ) = D % k := by
      push_cast
      rw [hD, Int.sub_mul_emod_self_right]
    have hbound := Int.emod_nonneg D (by omega : (k:ℤ) ≠ 0)
    have hbound2 := Int.emod_lt_of_pos D (by omega : (0:ℤ) < k)
    have ht := Int.tmod_eq_emod (a := D) (b := k)
    by_cases hcase : 0 ≤ D ∨ (k:ℤ) ∣ D
    · rw [if_pos hcase] at ht
      have : D.tmod k = D % k := by omega
      rw [this, if_neg (by omega), ← hmod, Int.toNat_natCast]
    · rw [if_neg hcase] at ht
      have h1 : D.tmod k = D % k - k := by
        rw [ht]; simp
      have hlt : D % k - k < 0 := by omega
      rw [h1, if_pos hlt]
      unfold toUInt64
      have hm0 : D % (k:ℤ) = ((a * b % k : ℕ) : ℤ) := hmod.symm
      rw [hm0]
      have hlt' : a * b % k < k := Nat.mod_lt _ hk0
      generalize a * b % k = m at *
      omega

/-! ### The walk along the lattice -/

variable {d : ℕ} {K : Kernel d}

theorem next_eq (hK : K.Valid) (i : ℕ) :
    K.next (fun j => i * K.genvec j % K.lattice) = fun j => (i + 1) * K.genvec j % K.lattice := by
  funext j
  unfold Kernel.next warponceI
  have h1 := Nat.mod_lt (i * K.genvec j) hK.pos
  have h2 := hK.genvec j
  have e : (i + 1) * K.genvec j % K.lattice = (i * K.genvec j % K.lattice + K.genvec j) % K.lattice := by
    rw [add_one_mul, Nat.mod_add_mod]
  rw [e]
  beta_reduce
  generalize i * K.genvec j % K.lattice = r at *
  generalize K.genvec j = z at *
  split
  · next h => rw [Nat.mod_eq_sub_mod h, Nat.mod_eq_of_lt (by omega)]
  · next h => rw [Nat.mod_eq_of_lt (by omega)]

theorem start_eq (hK : K.Valid) {i : ℕ} (hi : i ≤ K.lattice) : K.start i = fun j => i * K.genvec j % K.lattice := by
  funext j
  unfold Kernel.start
  rw [mulmod_eq _ _ _ (hK.genvec j).le hi hK.size hK.pos, mul_comm]

theorem coords_eq (hK : K.Valid) (i : ℕ) :
    K.coords (fun j => i * K.genvec j % K.lattice) = latticePoint K.lattice K.genvec K.shift i := by
  funext j
  unfold Kernel.coords warponce latticePoint
  have hn : (0:ℝ) < K.lattice := by exact_mod_cast hK.pos
  have hlt : ((i * K.genvec j % K.lattice : ℕ) : ℝ) * (1 / K.lattice) < 1 := by
    rw [mul_one_div, div_lt_one hn]; exact_mod_cast Nat.mod_lt _ hK.pos
  have h0 : 0 ≤ ((i * K.genvec j % K.lattice : ℕ) : ℝ) * (1 / K.lattice) := by positivity
  have hdm : ((i:ℝ) * K.genvec j / K.lattice)
      = ((i * K.genvec j / K.lattice : ℕ) : ℝ) + ((i * K.genvec j % K.lattice : ℕ) : ℝ) * (1 / K.lattice) := by
    have : (i * K.genvec j : ℕ) = K.lattice * (i * K.genvec j / K.lattice) + i * K.genvec j % K.lattice :=
      (Nat.div_add_mod _ _).symm
    have hR : ((i:ℝ) * K.genvec j) = K.lattice * ((i * K.genvec j / K.lattice : ℕ) : ℝ) + ((i * K.genvec j % K.lattice : ℕ) : ℝ) := by
      exact_mod_cast this
    rw [hR]; field_simp
  rw [hdm, add_assoc, Int.fract_natCast_add]
  have hs0 := hK.shift0 j
  have hs1 := hK.shift1 j
  generalize ((i * K.genvec j % K.lattice : ℕ) : ℝ) * (1 / K.lattice) = y at *
  split
  · next h =>
    symm; rw [Int.fract_eq_iff]
    exact ⟨h, by linarith, 1, by push_cast; ring⟩
  · next h =>
    symm; rw [Int.fract_eq_iff]
    exact ⟨by linarith, by linarith, 0, by push_cast; ring⟩

/-! ### Sums of values that may be missing -/

theorem osum_empty (v : ℕ → Option ℂ) : osum ∅ v = some 0 := by simp [osum]

theorem osum_congr {s : Finset ℕ} {v v' : ℕ → Option ℂ} (h : ∀ i ∈ s, v i = v' i) : osum s v = osum s v' := by
  unfold osum
  have h1 : (∀ i ∈ s, (v i).isSome) ↔ ∀ i ∈ s, (v' i).isSome :=
    forall₂_congr fun i hi => by rw [h i hi]
  have h2 : ∑ i ∈ s, (v i).getD 0 = ∑ i ∈ s, (v' i).getD 0 := Finset.sum_congr rfl fun i hi => by rw [h i hi]
  classical
  by_cases hc : ∀ i ∈ s, (v i).isSome
  · rw [if_pos hc, if_pos (h1.1 hc), h2]
  · rw [if_neg hc, if_neg (fun h => hc (h1.2 h))]

theorem osum_union {s t : Finset ℕ} (hd : Disjoint s t) (v : ℕ → Option ℂ) :
    osum (s ∪ t) v = Kernel.nanAdd (osum s v) (osum t v) := by
  classical
  unfold osum
  by_cases hs : ∀ i ∈ s, (v i).isSome
  · by_cases ht : ∀ i ∈ t, (v i).isSome
    · rw [if_pos hs, if_pos ht, if_pos (fun i hi => (Finset.mem_union.1 hi).elim (hs i) (ht i)), Finset.sum_union hd]; rfl
    · rw [if_pos hs, if_neg ht, if_neg (fun h => ht fun i hi => h i (Finset.mem_union_right _ hi))]; rfl
  · rw [if_neg hs, if_neg (fun h => hs fun i hi => h i (Finset.mem_union_left _ hi))]
    rfl

theorem osum_single (i : ℕ) (v : ℕ → Option ℂ) : osum {i} v = v i := by
  unfold osum
  cases h : v i <;> simp [h]

theorem osum_Ico {a b c : ℕ} (hab : a ≤ b) (hbc : b ≤ c) (v : ℕ → Option ℂ) :
    osum (Finset.Ico a c) v = Kernel.nanAdd (osum (Finset.Ico a b) v) (osum (Finset.Ico b c) v) := by
  rw [← osum_union (Finset.Ico_disjoint_Ico_consecutive a b c), Finset.Ico_union_Ico_eq_Ico hab hbc]

theorem osum_Ico_congr {a a' b b' : ℕ} (ha : a = a') (hb : b = b') (v : ℕ → Option ℂ) :
    osum (Finset.Ico a b) v = osum (Finset.Ico a' b') v := by rw [ha, hb]

theorem nanAdd_some (a b : ℂ) : Kernel.nanAdd (some a) (some b) = some (a + b) := rfl

theorem nanAdd_zero (a : Option ℂ) : Kernel.nanAdd a (some 0) = a := by cases a <;> simp [Kernel.nanAdd]
theorem zero_nanAdd (a : Option ℂ) : Kernel.nanAdd (some 0) a = a := by cases a <;> simp [Kernel.nanAdd]
theorem nanAdd_none (a : Option ℂ) : Kernel.nanAdd a none = none := by cases a <;> simp [Kernel.nanAdd]
theorem nanAdd_assoc (a b c : Option ℂ) : Kernel.nanAdd (Kernel.nanAdd a b) c = Kernel.nanAdd a (Kernel.nanAdd b c) := by
  cases a <;> cases b <;> cases c <;> simp [Kernel.nanAdd, add_assoc]

theorem nanSum_succ (n : ℕ) (v : ℕ → Option ℂ) :
    Kernel.nanSum (n + 1) v = Kernel.nanAdd (Kernel.nanSum n v) (v n) := by
  unfold Kernel.nanSum
  rw [List.range_succ, List.foldl_append]; rfl

theorem nanSum_chunks (n m a b : ℕ) (hab : a ≤ b) (v : ℕ → Option ℂ) (u : ℕ → Option ℂ)
    (hu : ∀ t < n, u t = osum (Finset.Ico (min (a + t * m) b) (min (a + (t + 1) * m) b)) v) :
    Kernel.nanSum n u = osum (Finset.Ico a (min (a + n * m) b)) v := by
  induction n with
  | zero =>
    have : min (a + 0 * m) b = a := by simp [hab]
    rw [this, Finset.Ico_self, osum_empty]; rfl
  | succ n ih =>
    rw [nanSum_succ, ih fun t ht => hu t (by omega), hu n (by omega)]
    have h1 : a + n * m ≤ a + (n + 1) * m := by rw [add_one_mul]; omega
    rw [← osum_Ico (by omega) (by omega)]

/-! ### The CPU kernel -/

theorem value_eq (hK : K.Valid) (i : ℕ) :
    (K.value (K.coords (fun j => i * K.genvec j % K.lattice))).map
      (fun v => ((K.weight (K.coords (fun j => i * K.genvec j % K.lattice)) : ℝ) : ℂ) * v) = K.term i := by
  rw [coords_eq hK]; rfl

theorem cpuLoop_eq (hK : K.Valid) (i2 : ℕ) : ∀ (m index : ℕ) (_ : i2 - index ≤ m) (acc : Fin 4 → ℂ),
    ((K.cpuLoop i2 index (fun j => index * K.genvec j % K.lattice) acc).map fun a => a 0 + a 1 + a 2 + a 3)
    = open Classical in if (∀ i, index ≤ i → (i < i2 ∨ (i - index) / 4 * 4 + index < i2) → (K.term i).isSome) then
        Kernel.nanAdd (some (acc 0 + acc 1 + acc 2 + acc 3)) (osum (Finset.Ico index i2) K.term)
      else none := by
  classical
  intro m
  induction m using Nat.strong_induction_on with
  | _ m ih =>
  intro index hm acc
  rw [Kernel.cpuLoop]
  by_cases h : index < i2
  · rw [dif_pos h]
    dsimp only
    rw [next_eq hK, next_eq hK, next_eq hK, next_eq hK]
    have hv := fun i => value_eq hK i
    have hv0 := hv index
    have hv1 := hv (index + 1)
    have hv2 := hv (index + 1 + 1)
    have hv3 := hv (index + 1 + 1 + 1)
    have ih' := ih (i2 - (index + 4)) (by omega) (index + 4) le_rfl
    have hcond : (∀ i, index ≤ i → (i < i2 ∨ (i - index) / 4 * 4 + index < i2) → (K.term i).isSome)
        ↔ ((K.term index).isSome ∧ (K.term (index+1)).isSome ∧ (K.term (index+1+1)).isSome ∧ (K.term (index+1+1+1)).isSome)
          ∧ ∀ i, index + 4 ≤ i → (i < i2 ∨ (i - (index + 4)) / 4 * 4 + (index + 4) < i2) → (K.term i).isSome := by
      constructor
      · intro hA
        refine ⟨⟨hA _ (by omega) (by omega), hA _ (by omega) (by omega), hA _ (by omega) (by omega), hA _ (by omega) (by omega)⟩, ?_⟩
        intro i hi hi2
        exact hA i (by omega) (by omega)
      · rintro ⟨⟨h0, h1, h2, h3⟩, hB⟩ i hi hi2
        rcases (by omega : i = index ∨ i = index + 1 ∨ i = index + 1 + 1 ∨ i = index + 1 + 1 + 1 ∨ index + 4 ≤ i) with
          rfl | rfl | rfl | rfl | h4
        · exact h0
        · exact h1
        · exact h2
        · exact h3
        · exact hB i h4 (by omega)
    generalize K.value (K.coords fun j => index * K.genvec j % K.lattice) = v0 at *
    generalize K.value (K.coords fun j => (index+1) * K.genvec j % K.lattice) = v1 at *
    generalize K.value (K.coords fun j => (index+1+1) * K.genvec j % K.lattice) = v2 at *
    generalize K.value (K.coords fun j => (index+1+1+1) * K.genvec j % K.lattice) = v3 at *
    generalize hw0 : K.weight (K.coords fun j => index * K.genvec j % K.lattice) = w0 at *
    generalize hw1 : K.weight (K.coords fun j => (index+1) * K.genvec j % K.lattice) = w1 at *
    generalize hw2 : K.weight (K.coords fun j => (index+1+1) * K.genvec j % K.lattice) = w2 at *
    generalize hw3 : K.weight (K.coords fun j => (index+1+1+1) * K.genvec j % K.lattice) = w3 at *
    cases v0 with
    | none => 
      have hn := mt (fun hA => (hcond.1 hA).1.1) (by rw [← hv0]; simp)
      rw [if_neg hn]; rfl
    | some v0 =>
    cases v1 with
    | none => 
      have hn := mt (fun hA => (hcond.1 hA).1.2.1) (by rw [← hv1]; simp)
      rw [if_neg hn]; rfl
    | some v1 =>
    cases v2 with
    | none => 
      have hn := mt (fun hA => (hcond.1 hA).1.2.2.1) (by rw [← hv2]; simp)
      rw [if_neg hn]; rfl
    | some v2 =>
    cases v3 with
    | none => 
      have hn := mt (fun hA => (hcond.1 hA).1.2.2.2) (by rw [← hv3]; simp)
      rw [if_neg hn]; rfl
    | some v3 =>
    simp only [Option.map_some] at hv0 hv1 hv2 hv3
    dsimp only
    rw [show index + 1 + 1 + 1 + 1 = index + 4 from rfl, ih']
    have hcond' : (∀ i, index ≤ i → (i < i2 ∨ (i - index) / 4 * 4 + index < i2) → (K.term i).isSome)
        ↔ ∀ i, index + 4 ≤ i → (i < i2 ∨ (i - (index + 4)) / 4 * 4 + (index + 4) < i2) → (K.term i).isSome := by
      rw [hcond]
      refine and_iff_right ⟨?_, ?_, ?_, ?_⟩
      · rw [← hv0]; rfl
      · rw [← hv1]; rfl
      · rw [← hv2]; rfl
      · rw [← hv3]; rfl
    by_cases hB : ∀ i, index + 4 ≤ i → (i < i2 ∨ (i - (index + 4)) / 4 * 4 + (index + 4) < i2) → (K.term i).isSome
    · rw [if_pos hB, if_pos (hcond'.2 hB)]
      have s0 : osum (Finset.Ico index (index+1)) K.term = some (w0 * v0) := by
        rw [Nat.Ico_succ_singleton, osum_single, ← hv0]
      have s1 : osum (Finset.Ico (index+1) (min (index+2) (max i2 (index+1)))) K.term
          = some (((if index + 1 ≥ i2 then 0 else w1 : ℝ) : ℂ) * v1) := by
        split
        · next hc => rw [show min (index+2) (max i2 (index+1)) = index + 1 by omega, Finset.Ico_self, osum_empty]; simp
        · next hc =>
          rw [show min (index+2) (max i2 (index+1)) = index + 1 + 1 by omega, Nat.Ico_succ_singleton, osum_single, ← hv1]
      have s2 : osum (Finset.Ico (min (index+2) (max i2 (index+1))) (min (index+3) (max i2 (index+1)))) K.term
          = some (((if index + 2 ≥ i2 then 0 else w2 : ℝ) : ℂ) * v2) := by
        split
        · next hc =>
          rw [show min (index+3) (max i2 (index+1)) = min (index+2) (max i2 (index+1)) by omega, Finset.Ico_self, osum_empty]; simp
        · next hc =>
          rw [show min (index+2) (max i2 (index+1)) = index + 1 + 1 by omega,
            show min (index+3) (max i2 (index+1)) = index + 1 + 1 + 1 by omega, Nat.Ico_succ_singleton, osum_single, ← hv2]
      have s3 : osum (Finset.Ico (min (index+3) (max i2 (index+1))) (min (index+4) (max i2 (index+1)))) K.term
          = some (((if index + 3 ≥ i2 then 0 else w3 : ℝ) : ℂ) * v3) := by
        split
        · next hc =>
          rw [show min (index+4) (max i2 (index+1)) = min (index+3) (max i2 (index+1)) by omega, Finset.Ico_self, osum_empty]; simp
        · next hc =>
          rw [show min (index+3) (max i2 (index+1)) = index + 1 + 1 + 1 by omega,
            show min (index+4) (max i2 (index+1)) = index + 1 + 1 + 1 + 1 by omega, Nat.Ico_succ_singleton, osum_single, ← hv3]
      have s4 : osum (Finset.Ico index i2) K.term
          = Kernel.nanAdd (osum (Finset.Ico index (min (index+4) (max i2 (index+1)))) K.term)
              (osum (Finset.Ico (index+4) i2) K.term) := by
        by_cases hc : index + 4 ≤ i2
        · rw [show min (index+4) (max i2 (index+1)) = index + 4 by omega]
          exact osum_Ico (by omega) (by omega) _
        · rw [show min (index+4) (max i2 (index+1)) = i2 by omega, Finset.Ico_eq_empty_of_le (a := index + 4) (by omega), osum_empty,
            nanAdd_zero]
      rw [s4, osum_Ico (a := index) (b := index + 1) (c := min (index+4) (max i2 (index+1))) (by omega) (by omega),
        osum_Ico (a := index + 1) (b := min (index+2) (max i2 (index+1))) (by omega) (by omega),
        osum_Ico (a := min (index+2) (max i2 (index+1))) (b := min (index+3) (max i2 (index+1))) (by omega) (by omega),
        s0, s1, s2, s3]
      simp only [nanAdd_some]
      rw [← nanAdd_assoc]
      simp only [nanAdd_some]
      congr 2
      simp [Matrix.cons_val_zero, Matrix.cons_val_one]
      ring
    · rw [if_neg hB, if_neg (fun h => hB (hcond'.1 h))]
  · rw [dif_neg h, Finset.Ico_eq_empty_of_le (by omega), osum_empty, nanAdd_zero, if_pos]
    · rfl
    · intro i hi hi2; omega

theorem cpu_eq (hK : K.Valid) {i1 i2 : ℕ} (h1 : i1 ≤ K.lattice) :
    K.cpu i1 i2 = open Classical in
      if (∀ i, i1 ≤ i → (i < i2 ∨ (i - i1) / 4 * 4 + i1 < i2) → (K.term i).isSome) then K.latticeSum i1 i2 else none := by
  unfold Kernel.cpu
  rw [start_eq hK h1, cpuLoop_eq hK i2 (i2 - i1) i1 le_rfl]
  simp only [add_zero, zero_nanAdd]
  rfl

/-- The lattice points repeat. -/
theorem term_mod (hK : K.Valid) (i : ℕ) : K.term (i % K.lattice) = K.term i := by
  unfold Kernel.term
  have : latticePoint K.lattice K.genvec K.shift (i % K.lattice) = latticePoint K.lattice K.genvec K.shift i := by
    rw [← coords_eq hK, ← coords_eq hK]
    congr 1; funext j
    rw [Nat.mod_mul_mod]
  rw [this]

theorem cpu_whole (hK : K.Valid) : K.cpu 0 K.lattice = K.latticeSum 0 K.lattice := by
  classical
  rw [cpu_eq hK (Nat.zero_le _)]
  by_cases h : ∀ i ∈ Finset.Ico 0 K.lattice, (K.term i).isSome
  · rw [if_pos]
    intro i _ _
    rw [← term_mod hK]
    exact h _ (by simp [Nat.mod_lt _ hK.pos])
  · rw [if_neg]
    · unfold Kernel.latticeSum osum
      rw [if_neg h]
    · intro hA
      exact h fun i hi => hA i (Nat.zero_le _) (Or.inl (Finset.mem_Ico.1 hi).2)

/-! ### The CUDA kernel -/

theorem threadLoop_eq (hK : K.Valid) (i2 : ℕ) : ∀ (left index : ℕ) (val : ℂ),
    K.threadLoop i2 left index (fun j => index * K.genvec j % K.lattice) val
    = Kernel.nanAdd (some val) (osum (Finset.Ico (min index i2) (min (index + left) i2)) K.term) := by
  intro left
  induction left with
  | zero => intro index val; rw [add_zero, Finset.Ico_self, osum_empty, nanAdd_zero]; rfl
  | succ left ih =>
    intro index val
    rw [Kernel.threadLoop]
    by_cases h : index < i2
    · rw [if_pos h, next_eq hK]
      dsimp only
      have hv := value_eq hK index
      rw [osum_Ico (b := index + 1) (by omega) (by omega), show min index i2 = index by omega, Nat.Ico_succ_singleton, osum_single,
        ← hv]
      cases K.value (K.coords fun j => index * K.genvec j % K.lattice) with
      | none => rfl
      | some v =>
        dsimp only
        rw [ih, Option.map_some, ← nanAdd_assoc]
        simp only [Kernel.nanAdd]
        rw [show min (index + 1) i2 = index + 1 by omega, show index + 1 + left = index + (left + 1) by omega]
    · rw [if_neg h, show min index i2 = min (index + (left + 1)) i2 by omega, Finset.Ico_self, osum_empty, nanAdd_zero]

theorem threadLoop_done (i2 left index : ℕ) (h : i2 ≤ index) (li : Fin d → ℕ) (val : ℂ) :
    K.threadLoop i2 left index li val = some val := by
  cases left with
  | zero => rfl
  | succ left => rw [Kernel.threadLoop, if_neg (by omega)]

theorem thread_eq (hK : K.Valid) {i2 : ℕ} (h2 : i2 ≤ K.lattice) (i1 bid tid : ℕ) :
    K.thread i1 i2 bid tid
    = osum (Finset.Ico (min (i1 + bid * 1024 + tid * 8) i2) (min (i1 + bid * 1024 + (tid + 1) * 8) i2)) K.term := by
  unfold Kernel.thread
  dsimp only
  have e : i1 + (bid * 128 + tid) * 8 = i1 + bid * 1024 + tid * 8 := by ring
  rw [e]
  by_cases h : i1 + bid * 1024 + tid * 8 < i2
  · have hs : (fun j => mulmod (i1 + bid * 1024 + tid * 8) (K.genvec j) K.lattice)
        = fun j => (i1 + bid * 1024 + tid * 8) * K.genvec j % K.lattice := by
      funext j
      exact mulmod_eq _ _ _ (by omega) (hK.genvec j).le hK.size hK.pos
    rw [hs, threadLoop_eq hK, zero_nanAdd]
    exact osum_Ico_congr rfl (by omega) _
  · rw [threadLoop_done _ _ _ (by omega), show min (i1 + bid * 1024 + tid * 8) i2 = min (i1 + bid * 1024 + (tid + 1) * 8) i2 by omega,
      Finset.Ico_self, osum_empty]

theorem block_eq (hK : K.Valid) {i1 i2 : ℕ} (h2 : i2 ≤ K.lattice) (bid : ℕ) :
    K.block i1 i2 bid = osum (Finset.Ico (min (i1 + bid * 1024) i2) (min (i1 + (bid + 1) * 1024) i2)) K.term := by
  unfold Kernel.block
  by_cases h : i1 + bid * 1024 ≤ i2
  · rw [nanSum_chunks 128 8 (i1 + bid * 1024) i2 h K.term _ fun t _ => thread_eq hK h2 i1 bid t]
    exact osum_Ico_congr (by omega) (by omega) _
  · have : ∀ t < 128, K.thread i1 i2 bid t = osum (Finset.Ico (min (i2 + t * 8) i2) (min (i2 + (t + 1) * 8) i2)) K.term := by
      intro t _
      rw [thread_eq hK h2]
      exact osum_Ico_congr (by omega) (by omega) _
    rw [nanSum_chunks 128 8 i2 i2 le_rfl K.term _ this]
    exact osum_Ico_congr (by omega) (by omega) _

theorem sumBlock_eq (src : ℕ → Option ℂ) (n bid : ℕ) :
    sumBlock src n bid = osum (Finset.Ico (min (bid * 1024) n) (min ((bid + 1) * 1024) n)) src := by
  unfold sumBlock
  have hstep : ∀ idx k, (if idx + k < n then src (idx + k) else some 0)
      = osum (Finset.Ico (min (idx + k) n) (min (idx + (k + 1)) n)) src := by
    intro idx k
    split
    · next h => rw [show min (idx + k) n = idx + k by omega, show min (idx + (k+1)) n = idx + k + 1 by omega,
        Nat.Ico_succ_singleton, osum_single]
    · next h => rw [show min (idx + k) n = min (idx + (k+1)) n by omega, Finset.Ico_self, osum_empty]
  have hthread : ∀ t, (let idx := (bid*128 + t)*8
      let v := fun k => if idx + k < n then src (idx + k) else some 0
      Kernel.nanAdd (Kernel.nanAdd (Kernel.nanAdd (v 0) (v 1)) (Kernel.nanAdd (v 2) (v 3)))
        (Kernel.nanAdd (Kernel.nanAdd (v 4) (v 5)) (Kernel.nanAdd (v 6) (v 7))))
      = osum (Finset.Ico (min (bid * 1024 + t * 8) n) (min (bid * 1024 + (t + 1) * 8) n)) src := by
    intro t
    obtain ⟨I, hI⟩ : ∃ I, (bid * 128 + t) * 8 = I := ⟨_, rfl⟩
    dsimp only
    rw [hI]
    have hR : osum (Finset.Ico (min (bid * 1024 + t * 8) n) (min (bid * 1024 + (t + 1) * 8) n)) src
        = osum (Finset.Ico (min (I + 0) n) (min (I + 8) n)) src := osum_Ico_congr (by omega) (by omega) _
    refine Eq.trans ?_ hR.symm
    have A : ∀ a b c, a ≤ b → b ≤ c → Kernel.nanAdd (osum (Finset.Ico (min (I+a) n) (min (I+b) n)) src)
        (osum (Finset.Ico (min (I+b) n) (min (I+c) n)) src) = osum (Finset.Ico (min (I+a) n) (min (I+c) n)) src :=
      fun a b c h1 h2 => (osum_Ico (by omega) (by omega) _).symm
    simp only [hstep, Nat.reduceAdd]
    rw [A 0 1 2 (by omega) (by omega), A 2 3 4 (by omega) (by omega), A 4 5 6 (by omega) (by omega), A 6 7 8 (by omega) (by omega),
      A 0 2 4 (by omega) (by omega), A 4 6 8 (by omega) (by omega), A 0 4 8 (by omega) (by omega)]
  by_cases h : bid * 1024 ≤ n
  · rw [nanSum_chunks 128 8 (bid * 1024) n h src _ fun t _ => hthread t]
    exact osum_Ico_congr (by omega) (by omega) _
  · have : ∀ t < 128, _ = osum (Finset.Ico (min (n + t * 8) n) (min (n + (t + 1) * 8) n)) src := fun t _ =>
      (hthread t).trans (osum_Ico_congr (by omega) (by omega) _)
    rw [nanSum_chunks 128 8 n n le_rfl src _ this]
    exact osum_Ico_congr (by omega) (by omega) _

theorem osum_range_sumBlock (src : ℕ → Option ℂ) (n : ℕ) :
    osum (Finset.Ico 0 ((n + 1024 - 1) / 1024)) (sumBlock src n) = osum (Finset.Ico 0 n) src := by
  have hgen : ∀ m, osum (Finset.Ico 0 m) (sumBlock src n) = osum (Finset.Ico 0 (min (m * 1024) n)) src := by
    intro m
    induction m with
    | zero => simp [osum_empty]
    | succ m ih =>
      rw [osum_Ico (b := m) (by omega) (by omega), ih, Nat.Ico_succ_singleton, osum_single, sumBlock_eq, ← osum_Ico (by omega) (by omega)]
  rw [hgen]
  exact osum_Ico_congr rfl (by omega) _

/-- The source buffer of the next pass. -/
def Buffers.src (b : Buffers) : ℕ → Option ℂ := if b.swapped then b.sumBuffer else b.buffer

theorem reduceLoop_eq (cap : ℕ) (hcap : 1024 ∣ cap) : ∀ (blocks : ℕ) (_ : 0 < blocks) (_ : blocks ≤ cap) (b : Buffers),
    (reduceLoop cap blocks b).src 0 = osum (Finset.Ico 0 blocks) b.src := by
  intro blocks
  induction blocks using Nat.strong_induction_on with
  | _ blocks ih =>
  intro h0 hc b
  rw [reduceLoop]
  by_cases h : 1 < blocks
  · rw [if_pos h]
    dsimp only
    rw [ih _ (by omega) (by omega) (by omega), ← osum_range_sumBlock b.src blocks]
    apply osum_congr
    intro i hi
    have hi' := (Finset.mem_Ico.1 hi).2
    have hcap' : (blocks + 1024 - 1)/1024 ≤ cap/1024 := by
      obtain ⟨c, rfl⟩ := hcap
      omega
    unfold Buffers.src
    cases hsw : b.swapped
    · simp only [Bool.false_eq_true, if_false, if_true]
      unfold sumLaunch
      rw [if_pos ⟨hi', by omega⟩]
    · simp only [Bool.false_eq_true, if_false, if_true]
      unfold sumLaunch
      rw [if_pos ⟨hi', by omega⟩]
  · rw [if_neg h]
    have : blocks = 1 := by omega
    rw [this, show Finset.Ico 0 1 = {0} from rfl, osum_single]

theorem cudaLoop_eq (hK : K.Valid) (bpb : ℕ) (hb : 0 < bpb) (hd : 1024 ∣ bpb) {i2 : ℕ} (h2 : i2 ≤ K.lattice) :
    ∀ (m i1 : ℕ) (_ : i2 - i1 ≤ m) (buffer sumBuffer : ℕ → Option ℂ) (result : Option ℂ),
    K.cudaLoop bpb i2 hb i1 buffer sumBuffer result = Kernel.nanAdd result (osum (Finset.Ico i1 i2) K.term) := by
  intro m
  induction m using Nat.strong_induction_on with
  | _ m ih =>
  intro i1 hm buffer sumBuffer result
  rw [Kernel.cudaLoop]
  by_cases h : i1 < i2
  · rw [dif_pos h]
    dsimp only
    rw [ih (i2 - (i1 + bpb*(128*8))) (by omega) _ le_rfl]
    rw [show (if i1 + bpb * (128*8) < i2 then i1 + bpb * (128*8) else i2) = min (i1 + bpb * (128*8)) i2 by
      split <;> omega]
    generalize he : min (i1 + bpb * (128*8)) i2 = e
    generalize hbl : (e - i1 + 128 * 8 - 1) / (128 * 8) = blocks
    have hsrc := reduceLoop_eq bpb hd blocks (by omega) (by omega) ⟨K.launch i1 e blocks bpb buffer, sumBuffer, false⟩
    unfold Buffers.src at hsrc
    rw [hsrc]
    have hblocks : osum (Finset.Ico 0 blocks) (K.launch i1 e blocks bpb buffer) = osum (Finset.Ico i1 e) K.term := by
      have hgen : ∀ m ≤ blocks, osum (Finset.Ico 0 m) (K.launch i1 e blocks bpb buffer)
          = osum (Finset.Ico i1 (min (i1 + m * 1024) e)) K.term := by
        intro m
        induction m with
        | zero =>
          intro _
          have hst : min (i1 + 0 * 1024) e = i1 := by rw [Nat.zero_mul, add_zero]; clear hsrc ih; omega
          rw [hst]; simp [osum_empty]
        | succ m ihm =>
          intro hm
          rw [osum_Ico (b := m) (by omega) (by omega), ihm (by omega), Nat.Ico_succ_singleton, osum_single]
          unfold Kernel.launch
          rw [if_pos ⟨by omega, by omega⟩, block_eq hK (by omega), ← osum_Ico (by omega) (by omega)]
      have hend : min (i1 + blocks * 1024) e = e := by
        clear hsrc ih hgen he
        exact min_eq_right (by omega)
      rw [hgen blocks le_rfl, hend]
    simp only [Bool.false_eq_true, if_false]
    rw [hblocks, nanAdd_assoc]
    congr 1
    by_cases hc : i1 + bpb * (128 * 8) ≤ i2
    · rw [show e = i1 + bpb * (128 * 8) by omega, ← osum_Ico (by omega) (by omega)]
    · rw [show e = i2 by omega, Finset.Ico_eq_empty_of_le (a := i1 + bpb * (128 * 8)) (by omega), osum_empty, nanAdd_zero]
  · rw [dif_neg h, Finset.Ico_eq_empty_of_le (by omega), osum_empty, nanAdd_zero]

theorem cuda_eq (hK : K.Valid) (bpb : ℕ) (hb : 0 < bpb) (hd : 1024 ∣ bpb) {i1 i2 : ℕ} (h2 : i2 ≤ K.lattice) :
    K.cuda bpb hb i1 i2 = K.latticeSum i1 i2 := by
  unfold Kernel.cuda
  rw [cudaLoop_eq hK bpb hb hd h2 _ _ le_rfl, zero_nanAdd]
  rfl

/-! ### Integer powers -/

theorem npow_eq {R : Type*} [CommMonoid R] (x : R) : ∀ n : ℕ, 0 < n → npow n x = some (x^n) := by
  intro n
  induction n using Nat.strong_induction_on with
  | _ n ih =>
  intro h
  rw [npow]
  rw [dif_neg (by omega)]
  split
  · next h1 => simp [h1]
  · next h1 =>
    split
    · next h2 =>
      rw [ih (n/2) (by omega) (by omega), Option.map_some, sqr, ← pow_add]
      congr 2; omega
    · next h2 =>
      rw [ih (n/2) (by omega) (by omega), Option.map_some, sqr, ← pow_add, ← pow_succ]
      congr 2; omega

end Qmc
end SecDec
