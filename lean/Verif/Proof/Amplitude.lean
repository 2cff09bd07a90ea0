import Verif.Spec.Amplitude
import Verif.Proof.Orders
import Verif.Proof.PackageMain
set_option linter.unusedSectionVars false
/-
Lemmas for C59.
-/
namespace SecDec
namespace Amplitude
open Orders Sector Package Filter Topology Asymptotics
variable {κ : Type} [DecidableEq κ] [Fintype κ]

/-- The sum over the rows of amplitude `a`, with weights. -/
noncomputable def tabSum (val : κ → ℂ) (g : ℤ → ℂ) (a : ℕ) (tab : Table 1 κ ℂ) : ℂ :=
  (tab.map fun e => if e.1.1 = a then (∑ k, e.2 k * val k) * g (e.1.2 0) else 0).sum

theorem tabSum_dset (val : κ → ℂ) (g : ℤ → ℂ) (a : ℕ) (key : ℕ × Ord 1) (row : κ → ℂ) : ∀ tab : Table 1 κ ℂ,
    tabSum val g a (dset tab key row) = tabSum val g a tab +
      if key.1 = a then (∑ k, row k * val k - ∑ k, ((dget tab key).getD 0) k * val k) * g (key.2 0) else 0
  | [] => by simp [tabSum, dset, dget]
  | (k', v') :: tab => by
    have ih := tabSum_dset val g a key row tab
    unfold tabSum at ih ⊢
    by_cases h : k' = key
    · subst h
      simp only [dset, dget, if_pos, List.map_cons, List.sum_cons, Option.getD_some]
      split_ifs <;> ring
    · simp only [dset, dget, if_neg h, List.map_cons, List.sum_cons]
      rw [ih]
      ring

theorem tabSum_addKernels (val : κ → ℂ) (g : ℤ → ℂ) (a : ℕ) (tab : Table 1 κ ℂ) (key : ℕ × Ord 1) (c : ℂ) (ks : List κ) :
    tabSum val g a (addKernels tab key c ks) = tabSum val g a tab +
      if key.1 = a then c * (ks.map val).sum * g (key.2 0) else 0 := by
  rw [addKernels, tabSum_dset, row_update]
  split_ifs <;> ring

theorem tabSum_inner (val : κ → ℂ) (g : ℤ → ℂ) (a b : ℕ) (rq mh : Ord 1) (o : Ord 1 × List κ) : ∀ (br : List (Ord 1 × ℂ)) (tab : Table 1 κ ℂ),
    tabSum val g a (br.foldl (splitStep b rq mh o) tab) = tabSum val g a tab +
      if b = a then (br.map fun t => if allLe (o.1 + t.1) rq ∧ allLe (o.1 + t.1) mh then t.2 * (o.2.map val).sum * g ((o.1 + t.1) 0) else 0).sum else 0
  | [], tab => by simp
  | t :: br, tab => by
    rw [List.foldl_cons, tabSum_inner val g a b rq mh o br, List.map_cons, List.sum_cons, splitStep]
    by_cases h : allLe (o.1 + t.1) rq ∧ allLe (o.1 + t.1) mh
    · rw [if_pos h, if_pos h, tabSum_addKernels]
      split_ifs <;> ring
    · rw [if_neg h, if_neg h, zero_add]

theorem tabSum_outer (val : κ → ℂ) (g : ℤ → ℂ) (a b : ℕ) (rq mh : Ord 1) (br : List (Ord 1 × ℂ)) : ∀ (os : List (Ord 1 × List κ)) (tab : Table 1 κ ℂ),
    tabSum val g a (os.foldl (fun tab o => br.foldl (splitStep b rq mh o) tab) tab) = tabSum val g a tab +
      if b = a then (os.map fun o => (br.map fun t => if allLe (o.1 + t.1) rq ∧ allLe (o.1 + t.1) mh then
        t.2 * (o.2.map val).sum * g ((o.1 + t.1) 0) else 0).sum).sum else 0
  | [], tab => by simp
  | o :: os, tab => by
    rw [List.foldl_cons, tabSum_outer val g a b rq mh br os, List.map_cons, List.sum_cons, tabSum_inner]
    split_ifs <;> ring

/-- The sum over a dictionary, with weights. -/
noncomputable def dictSum (h : Ord 1 → ℂ) (d : List (Ord 1 × ℂ)) : ℂ := (d.map fun t => h t.1 * t.2).sum

theorem dictSum_dset (h : Ord 1 → ℂ) (k : Ord 1) (v : ℂ) : ∀ d : List (Ord 1 × ℂ),
    dictSum h (dset d k ((dget d k).getD 0 + v)) = dictSum h d + h k * v
  | [] => by simp [dictSum, dset, dget]
  | (k', v') :: d => by
    have ih := dictSum_dset h k v d
    unfold dictSum at ih ⊢
    by_cases e : k' = k
    · subst e
      simp only [dset, dget, if_pos, List.map_cons, List.sum_cons, Option.getD_some]
      ring
    · simp only [dset, dget, if_neg e, List.map_cons, List.sum_cons]
      rw [ih]
      ring

theorem dictSum_bracketInner (h : Ord 1 → ℂ) (mx k1 : Ord 1) (v1 : ℂ) : ∀ (l : List (Ord 1 × ℂ)) (d : List (Ord 1 × ℂ)),
    dictSum h (l.foldl (bracketStep (· * ·) mx k1 v1) d) = dictSum h d +
      (l.map fun u => if allLe (k1 + u.1) mx then h (k1 + u.1) * (v1 * u.2) else 0).sum
  | [], d => by simp
  | u :: l, d => by
    rw [List.foldl_cons, dictSum_bracketInner h mx k1 v1 l, List.map_cons, List.sum_cons, bracketStep]
    by_cases e : allLe (k1 + u.1) mx
    · rw [if_pos e, if_pos e, dictSum_dset]; ring
    · rw [if_neg e, if_neg e, zero_add]

theorem dictSum_bracketMul (h : Ord 1 → ℂ) (mx : Ord 1) (l1 l2 : List (Ord 1 × ℂ)) :
    dictSum h (bracketMul (· * ·) l1 l2 mx) =
      (l1.map fun s => (l2.map fun u => if allLe (s.1 + u.1) mx then h (s.1 + u.1) * (s.2 * u.2) else 0).sum).sum := by
  have gen : ∀ d, dictSum h (l1.foldl (fun br t1 => l2.foldl (bracketStep (· * ·) mx t1.1 t1.2) br) d) = dictSum h d +
      (l1.map fun s => (l2.map fun u => if allLe (s.1 + u.1) mx then h (s.1 + u.1) * (s.2 * u.2) else 0).sum).sum := by
    induction l1 with
    | nil => intro d; simp
    | cons s l1 ih =>
      intro d
      rw [List.foldl_cons, ih, dictSum_bracketInner, List.map_cons, List.sum_cons, add_assoc]
  have := gen []
  rw [bracketMul, this]
  simp [dictSum]

/-! ### the keys -/

theorem nodup_inner (b : ℕ) (rq mh : Ord 1) (o : Ord 1 × List κ) (br : List (Ord 1 × ℂ)) : ∀ (tab : Table 1 κ ℂ), (tab.map (·.1)).Nodup →
    ((br.foldl (splitStep b rq mh o) tab).map (·.1)).Nodup := by
  induction br with
  | nil => intro tab h; exact h
  | cons t br ih =>
    intro tab h
    rw [List.foldl_cons]
    refine ih _ ?_
    unfold splitStep
    split_ifs
    · exact nodup_dset _ _ _ h
    · exact h

theorem nodup_split {tab tab' : Table 1 κ ℂ} {b : ℕ} {info : Info 1 κ ℂ} {c : List (Ord 1 × ℂ)} {rq : Ord 1} (h : splitIntegral tab b info c rq = some tab')
    (hn : (tab.map (·.1)).Nodup) : (tab'.map (·.1)).Nodup := by
  unfold splitIntegral at h
  split at h
  · simp only [Option.some.injEq] at h
    rw [← h]
    generalize info.orders = os
    clear h
    induction os generalizing tab with
    | nil => exact hn
    | cons o os ih => rw [List.foldl_cons]; exact ih (nodup_inner _ _ _ _ _ _ hn)
  · exact absurd h (by simp)

theorem nodup_splitAll {rq : Ord 1} : ∀ (l : List (ℕ × Info 1 κ ℂ × List (Ord 1 × ℂ))) {tab tab' : Table 1 κ ℂ},
    l.foldlM (fun tab t => splitIntegral tab t.1 t.2.1 t.2.2 rq) tab = some tab' → (tab.map (·.1)).Nodup → (tab'.map (·.1)).Nodup
  | [], tab, tab', h, hn => by
    simp at h; rw [← h]; exact hn
  | t :: l, tab, tab', h, hn => by
    rw [List.foldlM_cons, Option.bind_eq_bind, Option.bind_eq_some_iff] at h
    obtain ⟨tab1, h1, h2⟩ := h
    exact nodup_splitAll l h2 (nodup_split h1 hn)

/-- The report is the sum over the rows. -/
theorem report_sum (val : κ → ℂ) (tab : Table 1 κ ℂ) (a : ℕ) (z : ℂ) :
    ((report tab val a).map fun t => t.2 * z ^ t.1).sum = tabSum val (fun k => z ^ k) a tab := by
  unfold report
  rw [((List.mergeSort_perm _ _).map _).sum_eq, List.map_map]
  unfold tabSum
  induction tab with
  | nil => rfl
  | cons e tab ih =>
    by_cases h : e.1.1 = a
    · rw [List.filter_cons_of_pos (by simpa using h), List.map_cons, List.sum_cons, List.map_cons, List.sum_cons, ih, if_pos h]
      rfl
    · rw [List.filter_cons_of_neg (by simpa using h), List.map_cons, List.sum_cons, ih, if_neg h, zero_add]

theorem report_pairwise (val : κ → ℂ) {tab : Table 1 κ ℂ} (hn : (tab.map (·.1)).Nodup) (a : ℕ) :
    ((report tab val a).map Prod.fst).Pairwise (· < ·) := by
  have h1 : ((report tab val a).map Prod.fst).Pairwise (· ≤ ·) := by
    rw [List.pairwise_map]
    refine (List.pairwise_mergeSort (le := fun s t : ℤ × ℂ => decide (s.1 ≤ t.1)) ?_ ?_ _).imp ?_
    · intro x y w h h'
      simp only [decide_eq_true_eq] at *
      omega
    · intro x y
      simp only [Bool.or_eq_true, decide_eq_true_eq]
      omega
    · intro x y h
      simpa using h
  have h2 : ((report tab val a).map Prod.fst).Nodup := by
    unfold report
    refine (((List.mergeSort_perm _ _).map _).nodup_iff).2 ?_
    rw [List.map_map]
    have hn' : ((tab.filter fun e => e.1.1 = a).map (·.1)).Nodup := List.Nodup.sublist (List.Sublist.map _ List.filter_sublist) hn
    rw [List.nodup_map_iff_inj_on (List.Nodup.of_map _ hn')]
    intro x hx y hy hxy
    refine List.inj_on_of_nodup_map hn' hx hy ?_
    simp only [List.mem_filter, decide_eq_true_eq] at hx hy
    refine Prod.ext (hx.2.trans hy.2.symm) (funext fun i => ?_)
    obtain rfl : i = 0 := Subsingleton.elim _ _
    exact hxy
  exact (h1.and h2).imp fun h => lt_of_le_of_ne h.1 h.2

/-! ### the kernels of a package -/

theorem fold_addOrder_sum (kernel : ℤ → κ) (val : κ → ℂ) (h : Ord 1 → ℂ) : ∀ (ks : List ℤ) (d : List (Ord 1 × List κ)),
    ((ks.foldl (addOrder kernel) d).map fun o => h o.1 * (o.2.map val).sum).sum =
      (d.map fun o => h o.1 * (o.2.map val).sum).sum + (ks.map fun k => h (fun _ => k) * val (kernel k)).sum
  | [], d => by simp
  | k :: ks, d => by
    rw [List.foldl_cons, fold_addOrder_sum kernel val h ks, List.map_cons, List.sum_cons, ← add_assoc]
    congr 1
    unfold addOrder
    generalize (fun _ : Fin 1 => k) = key
    induction d with
    | nil => simp [dset, dget]
    | cons e d ih =>
      obtain ⟨k', v'⟩ := e
      by_cases e : k' = key
      · subst e
        simp only [dset, dget, if_pos, List.map_cons, List.sum_cons, Option.getD_some, List.map_append, List.sum_append, List.map_nil, List.sum_nil]
        ring
      · simp only [dset, dget, if_neg e, List.map_cons, List.sum_cons]
        rw [ih]; ring

theorem fold_addOrder_keys (kernel : ℤ → κ) (key : Ord 1) : ∀ (ks : List ℤ) (d : List (Ord 1 × List κ)),
    key ∈ (ks.foldl (addOrder kernel) d).map (·.1) ↔ key ∈ d.map (·.1) ∨ ∃ k ∈ ks, key = fun _ => k
  | [], d => by simp
  | k :: ks, d => by
    rw [List.foldl_cons, fold_addOrder_keys kernel key ks, addOrder, mem_keys_dset]
    simp only [List.mem_cons, exists_eq_or_imp]
    tauto

theorem kernelsFrom_sum (kernel : ℕ → ℤ → κ) (val : κ → ℂ) (h : Ord 1 → ℂ) {S : Type} (required : ℤ) (v : S → ℤ → ℂ) : ∀ (s : ℕ) (l : List (S × ℤ)) (d : List (Ord 1 × List κ)),
    (∀ j r, l[j]? = some r → ∀ k ∈ sectorOrders required r.2, val (kernel (s + j) k) = v r.1 k) →
    ((kernelsFrom kernel required s l d).map fun o => h o.1 * (o.2.map val).sum).sum =
      (d.map fun o => h o.1 * (o.2.map val).sum).sum + (l.map fun r => ((sectorOrders required r.2).map fun k => h (fun _ => k) * v r.1 k).sum).sum
  | s, [], d, _ => by simp [kernelsFrom]
  | s, r :: l, d, hv => by
    rw [kernelsFrom, kernelsFrom_sum kernel val h required v (s + 1) l, fold_addOrder_sum, List.map_cons, List.sum_cons, ← add_assoc]
    · congr 2
      refine congrArg _ (List.map_congr_left fun k hk => ?_)
      rw [← hv 0 r rfl k hk, Nat.add_zero]
    · intro j r' hj k hk
      rw [← hv (j + 1) r' hj k hk]
      congr 2
      omega

theorem kernelsFrom_keys (kernel : ℕ → ℤ → κ) {S : Type} (required : ℤ) (key : Ord 1) : ∀ (s : ℕ) (l : List (S × ℤ)) (d : List (Ord 1 × List κ)),
    key ∈ (kernelsFrom kernel required s l d).map (·.1) ↔ key ∈ d.map (·.1) ∨ ∃ r ∈ l, ∃ k ∈ sectorOrders required r.2, key = fun _ => k
  | s, [], d => by simp [kernelsFrom]
  | s, r :: l, d => by
    rw [kernelsFrom, kernelsFrom_keys kernel required key (s + 1) l, fold_addOrder_keys]
    simp only [List.mem_cons, exists_eq_or_imp, or_assoc]

/-- The lowest order of all sectors, and a bound for the poles. -/
theorem lowest_le {S : Type} (l : List (S × ℤ)) (m : ℤ) : (l.foldl (fun m r => min m (-r.2)) m) ≤ m ∧ ∀ r ∈ l, (l.foldl (fun m r => min m (-r.2)) m) ≤ -r.2 := by
  induction l generalizing m with
  | nil => simp
  | cons r l ih =>
    obtain ⟨h1, h2⟩ := ih (min m (-r.2))
    rw [List.foldl_cons]
    refine ⟨h1.trans (min_le_left _ _), fun r' hr => ?_⟩
    rcases List.mem_cons.1 hr with rfl | hr
    · exact h1.trans (min_le_right _ _)
    · exact h2 r' hr

/-! ### products of expansions -/

theorem list_isBigO {α : Type} (l : List α) (F : α → ℂ → ℂ) (g : ℂ → ℂ) {f : Filter ℂ} (h : ∀ x ∈ l, F x =O[f] g) :
    (fun z => (l.map fun x => F x z).sum) =O[f] g := by
  induction l with
  | nil => simpa using isBigO_zero _ _
  | cons x l ih =>
    simp only [List.map_cons, List.sum_cons]
    exact (h x (by simp)).add (ih fun y hy => h y (by simp [hy]))

/-- The value of a list of terms. -/
noncomputable def evalL (l : List (ℤ × ℂ)) (z : ℂ) : ℂ := (l.map fun t => t.2 * z ^ t.1).sum

theorem evalL_isBigO {l : List (ℤ × ℂ)} {m : ℤ} (h : ∀ t ∈ l, t.2 = 0 ∨ m ≤ t.1) : evalL l =O[𝓝[≠] 0] fun z : ℂ => z ^ m := by
  unfold evalL
  refine list_isBigO l (fun t z => t.2 * z ^ t.1) _ fun t ht => ?_
  rcases h t ht with h0 | h0
  · simp only [h0, zero_mul]; exact isBigO_zero _ _
  · exact Expansion.zpow_isBigO h0 |>.const_mul_left _

theorem mul_zpow_isBigO {f g : ℂ → ℂ} {a b c : ℤ} (hf : f =O[𝓝[≠] 0] fun z : ℂ => z ^ a) (hg : g =O[𝓝[≠] 0] fun z : ℂ => z ^ b) (h : c ≤ a + b) :
    (fun z => f z * g z) =O[𝓝[≠] 0] fun z : ℂ => z ^ c := by
  refine ((hf.mul hg).congr' EventuallyEq.rfl ?_).trans (Expansion.zpow_isBigO h)
  filter_upwards [self_mem_nhdsWithin] with z hz
  rw [zpow_add₀ hz]

theorem near_isBigO {f p : ℂ → ℂ} {a b c : ℤ} (hp : p =O[𝓝[≠] 0] fun z : ℂ => z ^ a) (hf : (fun z => f z - p z) =O[𝓝[≠] 0] fun z : ℂ => z ^ b)
    (ha : c ≤ a) (hb : c ≤ b) : f =O[𝓝[≠] 0] fun z : ℂ => z ^ c := by
  have := (hf.trans (Expansion.zpow_isBigO hb)).add (hp.trans (Expansion.zpow_isBigO ha))
  simpa using this

/-- The error of a product of three expansions. -/
theorem triple_isBigO {P C J p c k : ℂ → ℂ} {pl cl kl hP hC hK rq : ℤ} (p1 : p =O[𝓝[≠] 0] fun z : ℂ => z ^ pl) (c1 : c =O[𝓝[≠] 0] fun z : ℂ => z ^ cl)
    (k1 : k =O[𝓝[≠] 0] fun z : ℂ => z ^ kl) (p2 : (fun z => P z - p z) =O[𝓝[≠] 0] fun z : ℂ => z ^ (hP + 1))
    (c2 : (fun z => C z - c z) =O[𝓝[≠] 0] fun z : ℂ => z ^ (hC + 1)) (k2 : (fun z => J z - k z) =O[𝓝[≠] 0] fun z : ℂ => z ^ (hK + 1))
    (e1 : pl ≤ hP + 1) (e2 : kl ≤ hK + 1) (e3 : rq ≤ pl + hC + kl) (e4 : rq ≤ pl + cl + hK) (e5 : rq ≤ hP + cl + kl) :
    (fun z => C z * P z * J z - p z * c z * k z) =O[𝓝[≠] 0] fun z : ℂ => z ^ (rq + 1) := by
  have hPP := near_isBigO p1 p2 le_rfl e1
  have hJJ := near_isBigO k1 k2 le_rfl e2
  have a1 := mul_zpow_isBigO (c := rq + 1) (mul_zpow_isBigO hPP c2 le_rfl) hJJ (by omega)
  have a2 := mul_zpow_isBigO (c := rq + 1) (mul_zpow_isBigO hPP c1 le_rfl) k2 (by omega)
  have a3 := mul_zpow_isBigO (c := rq + 1) (mul_zpow_isBigO p2 c1 le_rfl) k1 (by omega)
  refine ((a1.add a2).add a3).congr_left fun z => ?_
  ring

/-- The sum of the kernels of all orders. -/
noncomputable def kval (val : κ → ℂ) (orders : List (Ord 1 × List κ)) (z : ℂ) : ℂ := (orders.map fun o => z ^ (o.1 0) * (o.2.map val).sum).sum

theorem mul_list_sum {α : Type} (c : ℂ) (l : List α) (f : α → ℂ) : c * (l.map f).sum = (l.map fun x => c * f x).sum := by
  rw [List.sum_map_mul_left]

/-- What one term of an amplitude adds to the table. -/
theorem split_near {tab tab' : Table 1 κ ℂ} {b : ℕ} {pref coef : List (ℤ × ℂ)} {orders : List (Ord 1 × List κ)} {rq : ℤ} (val : κ → ℂ) {pl cl kl kh : Ord 1}
    (h1 : minAxis0 ((pref.map tuple).map (·.1)) = some pl) (h2 : minAxis0 ((coef.map tuple).map (·.1)) = some cl)
    (h3 : minAxis0 (orders.map (·.1)) = some kl) (h4 : maxAxis0 (orders.map (·.1)) = some kh)
    (hmh : (∀ u ∈ coef, u.2 = 0) ∨ rq ≤ pl 0 + cl 0 + kh 0)
    (h : splitIntegral tab b ⟨pref.map tuple, orders⟩ (coef.map tuple) (fun _ => rq) = some tab') :
    ∃ R : ℂ → ℂ, (∀ z a, tabSum val (fun k => z ^ k) a tab' = tabSum val (fun k => z ^ k) a tab + if b = a then R z else 0) ∧
      (fun z => evalL pref z * evalL coef z * kval val orders z - R z) =O[𝓝[≠] 0] fun z : ℂ => z ^ (rq + 1) := by
  have ordLe : ∀ x y : Ord 1, allLe x y ↔ x 0 ≤ y 0 := by
    intro x y
    refine ⟨fun h => h 0, fun h i => ?_⟩
    obtain rfl : i = 0 := Subsingleton.elim _ _
    exact h
  simp only [splitIntegral, h1, h2, h3, h4, Option.some.injEq] at h
  refine ⟨_, fun z a => by rw [← h]; exact tabSum_outer val (fun k => z ^ k) a b _ _ _ orders tab, ?_⟩
  -- the products of the prefactor and the coefficient
  have e1 : ∀ z (o : Ord 1 × List κ), ((bracketMul (· * ·) (pref.map tuple) (coef.map tuple) (-kl + fun _ => rq)).map fun t =>
      if allLe (o.1 + t.1) (fun _ => rq) ∧ allLe (o.1 + t.1) (pl + cl + kh) then t.2 * (o.2.map val).sum * z ^ ((o.1 + t.1) 0) else 0).sum =
      (pref.map fun s => (coef.map fun u => if s.1 + u.1 ≤ -kl 0 + rq ∧ o.1 0 + (s.1 + u.1) ≤ rq ∧ o.1 0 + (s.1 + u.1) ≤ pl 0 + cl 0 + kh 0 then
        (o.2.map val).sum * z ^ (o.1 0 + (s.1 + u.1)) * (s.2 * u.2) else 0).sum).sum := by
    intro z o
    have := dictSum_bracketMul (fun k => if allLe (o.1 + k) (fun _ => rq) ∧ allLe (o.1 + k) (pl + cl + kh) then (o.2.map val).sum * z ^ ((o.1 + k) 0) else 0)
      (-kl + fun _ => rq) (pref.map tuple) (coef.map tuple)
    unfold dictSum at this
    simp only [List.map_map] at this ⊢
    refine Eq.trans (congrArg _ (List.map_congr_left fun t _ => ?_)) (this.trans (congrArg _ (List.map_congr_left fun s _ => congrArg _ (List.map_congr_left fun u _ => ?_))))
    · split_ifs <;> ring
    · simp only [Function.comp_apply, tuple, ordLe, Pi.add_apply, Pi.neg_apply]
      by_cases a1 : s.1 + u.1 ≤ -kl 0 + rq
      · by_cases a2 : o.1 0 + (s.1 + u.1) ≤ rq ∧ o.1 0 + (s.1 + u.1) ≤ pl 0 + cl 0 + kh 0
        · simp only [a1, a2, and_self, if_true]
        · simp only [a1, a2, and_false, if_true, if_false, zero_mul]
      · simp only [a1, false_and, if_false]
  simp only [e1]
  have e2 : ∀ᶠ z : ℂ in 𝓝[≠] 0, evalL pref z * evalL coef z * kval val orders z = (orders.map fun o => (pref.map fun s => (coef.map fun u =>
      (o.2.map val).sum * z ^ (o.1 0 + (s.1 + u.1)) * (s.2 * u.2)).sum).sum).sum := by
    filter_upwards [self_mem_nhdsWithin] with z hz
    unfold evalL kval
    rw [mul_list_sum]
    refine congrArg _ (List.map_congr_left fun o _ => ?_)
    rw [← List.sum_map_mul_right, ← List.sum_map_mul_right]
    refine congrArg _ (List.map_congr_left fun s _ => ?_)
    rw [mul_list_sum, ← List.sum_map_mul_right]
    refine congrArg _ (List.map_congr_left fun u _ => ?_)
    rw [zpow_add₀ hz, zpow_add₀ hz]
    ring
  have e3 : (fun z : ℂ => (orders.map fun o => (pref.map fun s => (coef.map fun u => if s.1 + u.1 ≤ -kl 0 + rq ∧ o.1 0 + (s.1 + u.1) ≤ rq ∧
      o.1 0 + (s.1 + u.1) ≤ pl 0 + cl 0 + kh 0 then (0 : ℂ) else (o.2.map val).sum * z ^ (o.1 0 + (s.1 + u.1)) * (s.2 * u.2)).sum).sum).sum)
      =O[𝓝[≠] 0] fun z : ℂ => z ^ (rq + 1) := by
    refine list_isBigO orders (fun o z => _) _ fun o ho => list_isBigO pref (fun s z => _) _ fun s _ => list_isBigO coef (fun u z => _) _ fun u hu => ?_
    by_cases hu0 : u.2 = 0
    · simp only [hu0, mul_zero, ite_self]; exact isBigO_zero _ _
    have hkl : kl 0 ≤ o.1 0 := (minAxis0_spec _ _ h3).1 _ (List.mem_map_of_mem ho) 0
    have hm : rq ≤ pl 0 + cl 0 + kh 0 := hmh.resolve_left fun h => hu0 (h u hu)
    by_cases hc : s.1 + u.1 ≤ -kl 0 + rq ∧ o.1 0 + (s.1 + u.1) ≤ rq ∧ o.1 0 + (s.1 + u.1) ≤ pl 0 + cl 0 + kh 0
    · simp only [if_pos hc]; exact isBigO_zero _ _
    · simp only [if_neg hc]
      refine (((Expansion.zpow_isBigO (a := rq + 1) (b := o.1 0 + (s.1 + u.1)) (by omega)).const_mul_left _).mul (isBigO_refl (fun _ => s.2 * u.2) _)).trans ?_
      exact ((isBigO_refl (fun z : ℂ => z ^ (rq + 1)) _).const_mul_left (s.2 * u.2)).congr_left fun z => mul_comm _ _
  refine e3.congr' ?_ EventuallyEq.rfl
  filter_upwards [e2] with z hz
  rw [hz]
  have sub : ∀ {α : Type} (l : List α) (f g : α → ℂ), (l.map f).sum - (l.map g).sum = (l.map fun x => f x - g x).sum := by
    intro α l f g
    induction l with
    | nil => simp
    | cons x l ih => simp only [List.map_cons, List.sum_cons, ← ih]; ring
  simp only [sub]
  refine congrArg _ (List.map_congr_left fun o _ => congrArg _ (List.map_congr_left fun s _ => congrArg _ (List.map_congr_left fun u _ => ?_)))
  split_ifs <;> simp

/-! ### there is always a sector -/

theorem mapM_option_ne_nil {α β : Type} {f : α → Option β} {l : List α} {l' : List β} (h : l.mapM f = some l') (hl : l ≠ []) : l' ≠ [] := by
  intro e
  have := (Decomp.mapM_option_forall₂ h).length_eq
  rw [e, List.length_nil, List.length_eq_zero_iff] at this
  exact hl this

theorem iterative_ne_nil {n : ℕ} (indices : List (Fin n)) : ∀ (fuel : ℕ) (s : Squash.Sector n ℝ (Poly 1 ℚ)) {ts : List (Squash.Sector n ℝ (Poly 1 ℚ))},
    Decomp.iterativeDecomposition indices fuel s = some (.ok ts) → ts ≠ []
  | 0, s, ts, h => by simp [Decomp.iterativeDecomposition] at h
  | fuel + 1, s, ts, h => by
    unfold Decomp.iterativeDecomposition at h
    split at h
    · simp only [Option.some.injEq, Except.ok.injEq] at h
      rw [← h]; simp
    · simp at h
    · rename_i subs hs
      rw [Option.map_eq_some_iff] at h
      obtain ⟨rs, h1, h2⟩ := h
      unfold Decomp.iterationStep at hs
      obtain ⟨S, hS, hs⟩ := Expansion.ok_bind hs
      have hS2 := (Decomp.findSingularSet_ok hS).2.1
      have hl := (Decomp.mapM_except_forall₂ hs).length_eq
      have hsub : subs ≠ [] := by
        intro e
        rw [e] at hl
        simp only [Decomp.swappedSets, List.length_map, List.length_range, List.length_nil] at hl
        omega
      obtain ⟨u, us, rfl⟩ := List.exists_cons_of_ne_nil hsub
      have hF := Decomp.mapM_option_forall₂ h1
      cases hF with
      | @cons _ r _ rs' hr hrest =>
        cases r with
        | error e => simp [List.mapM_cons, Except.map, Bind.bind, Except.bind] at h2
        | ok x =>
          have hx := iterative_ne_nil indices fuel u hr
          cases hm : (rs'.mapM id : Except Decomp.Err (List (List (Squash.Sector n ℝ (Poly 1 ℚ))))) with
          | error e => simp [List.mapM_cons, hm, Except.map, Bind.bind, Except.bind] at h2
          | ok y =>
            simp [List.mapM_cons, hm, Except.map, Bind.bind, Except.bind, pure, Except.pure] at h2
            rw [← h2]
            simp [hx]

theorem squash_ne_nil {n : ℕ} {hash : Squash.TCoeff ℝ (Poly 1 ℚ) → Int} {fuel : ℕ} {f : MatrixSort.Mat → Option MatrixSort.Mat} {l l' : List (Squash.Sector n ℝ (Poly 1 ℚ))}
    (h : Squash.squash hash fuel f l = some l') : l' ≠ [] := by
  unfold Squash.squash Squash.squashWith at h
  rw [Option.bind_eq_some_iff] at h
  obtain ⟨arrays, -, h⟩ := h
  split at h
  · simp at h
  · simp only [Option.some.injEq] at h
    rw [← h]; simp

theorem reduce_ne_nil {n : ℕ} {o : Options} {l l' : List (Squash.Sector n ℝ (Poly 1 ℚ))} (h : reduceSectors o l = some l') (hl : l ≠ []) : l' ≠ [] := by
  unfold reduceSectors at h
  generalize passes n o = fs at h
  induction fs generalizing l with
  | nil =>
    simp only [List.foldlM_nil, Option.pure_def, Option.some.injEq] at h
    rw [← h]; exact hl
  | cons f fs ih =>
    rw [List.foldlM_cons, Option.bind_eq_bind, Option.bind_eq_some_iff] at h
    obtain ⟨l1, h1, h2⟩ := h
    exact ih (squash_ne_nil h1) h2

theorem secondary_ne_nil {n : ℕ} {o : Options} {s : Squash.Sector n ℝ (Poly 1 ℚ)} {ts : List (Squash.Sector n ℝ (Poly 1 ℚ))} (hr : Decomp.Refactorized s)
    (hp : Prepared o s) (hz : NormalizCorrect o s) (h : secondary o s = some ts) : ts ≠ [] := by
  unfold secondary at h
  unfold NormalizCorrect at hz
  dsimp only at hz
  have hne : ∀ p ∈ s.cast, p.poly.terms ≠ [] := fun p hp => (hr p hp).1
  cases hm : o.method with
  | iterative =>
    simp only [hm] at h
    split at h
    · rename_i ts hts
      simp only [Option.some.injEq] at h
      rw [← h]
      exact iterative_ne_nil _ _ _ hts
    · cases h
  | geometric =>
    simp only [hm] at h hz
    obtain ⟨hn, hc, hd⟩ := hp.resolve_left (by rw [hm]; simp)
    have heq : ((o.normaliz n).polytope (Geometric.hullPoints (s.cast.map fun p => p.poly.terms.map (·.1)))).equations = [] := by
      unfold Geometric.geometricDecomposition at h
      dsimp only at h
      by_contra he
      rw [if_pos he] at h
      cases h
    obtain ⟨sec, h1, -, h2, -⟩ := Geometric.hull_core s hc hne hd _ _ _ rfl hz.1 heq hz.2
    rw [h1, Option.some.injEq] at h
    rw [← h]; exact h2
  | geometricKu =>
    simp only [hm] at h hz
    obtain ⟨hn, hc, hd⟩ := hp.resolve_left (by rw [hm]; simp)
    obtain ⟨sec, h1, -, h2, -⟩ := Geometric.ku_core hn s hc hne hd _ hz
    rw [h1, Option.some.injEq] at h
    rw [← h]; exact h2

theorem package_ne_nil {n : ℕ} {o : Options} {polys : List (Squash.SPoly (n + 1) ℝ (Poly 1 ℚ))} (hE : Euclidean polys) (hD : Decomposable o polys)
    {results : List (List (Summand (n + 1) ℝ) × ℤ)} (h : package o polys = some results) : results ≠ [] := by
  unfold package at h
  rw [Option.bind_eq_bind, Option.bind_eq_some_iff] at h
  obtain ⟨ss, hss, h⟩ := h
  refine mapM_option_ne_nil h ?_
  unfold sectors at hss
  rw [Option.bind_eq_some_iff] at hss
  obtain ⟨l, hl, hss⟩ := hss
  have hz := hD.2 l hl
  unfold primarySectors at hl
  by_cases hn : n = 0
  · rw [if_pos hn] at hl; cases hl
  rw [if_neg hn, Option.bind_eq_some_iff] at hl
  obtain ⟨s, hs, hl⟩ := hl
  obtain ⟨c1, c2, -, -⟩ := mkSector_core (Q := fun _ => True) hE (fun _ _ => trivial) hs
  obtain ⟨d1, -⟩ := primary_delta c1 c2 (primary_prepared hn hs hD.1) hl
  unfold secondarySectors at hss
  rw [Option.bind_eq_some_iff] at hss
  obtain ⟨subs, hsub, hr⟩ := hss
  refine reduce_ne_nil hr ?_
  have hpr : l ≠ [] := by
    unfold reducePrimary at hl
    have h0 : Package.primary o s ≠ [] := by
      unfold Package.primary
      split <;> simp [Decomp.primaryDecomposition]
    split_ifs at hl
    · exact reduce_ne_nil hl h0
    · simp only [Option.some.injEq] at hl
      rw [← hl]; exact h0
  obtain ⟨p, ps, rfl⟩ := List.exists_cons_of_ne_nil hpr
  have hF := Decomp.mapM_option_forall₂ hsub
  cases hF with
  | @cons _ r _ rs' hr' hrest =>
    have hd := d1 p (by simp)
    have : r ≠ [] := secondary_ne_nil hd.2.1 hd.2.2 (hz p (by simp)) hr'
    simp [this]

end Amplitude
end SecDec
