import Mathlib.Algebra.BigOperators.Group.List.Basic
import Mathlib.Algebra.BigOperators.Fin
import Mathlib.Tactic.Ring
import Mathlib.Tactic.Abel
import Verif.Proof.SafeHash
import Verif.Proof.MatrixSortPak
import Verif.Spec.Squash
set_option linter.unusedSectionVars false
namespace SecDec.Squash
open SecDec MatrixSort

/-! ### pruning loop -/
section prune
variable {n : Nat} {R E V : Type} [CommRing R] [AddCommMonoid V] [Module R V]

def wsum (w : Sector n R E → V) (l : List (Sector n R E)) : V :=
  (l.map (fun s => s.jac.2 • w s)).sum

theorem prune_wsum (w : Sector n R E → V) (hw : ∀ s t, w (addJac s t) = w s)
    (rest : List (Mat × Sector n R E)) (st : Prune n R E)
    (h : ∀ p ∈ rest, p.1 = st.arr → w p.2 = w st.cur)
    (h2 : ∀ p ∈ rest, ∀ q ∈ rest, p.1 = q.1 → w p.2 = w q.2) :
    wsum w ((rest.foldl pruneStep st).done ++ [(rest.foldl pruneStep st).cur]) =
      wsum w (st.done ++ [st.cur]) + wsum w (rest.map (·.2)) := by
  induction rest generalizing st with
  | nil => simp [wsum]
  | cons x rest ih =>
    rw [List.foldl_cons]
    by_cases hx : x.1 = st.arr
    · have e : pruneStep st x = { st with cur := addJac st.cur x.2 } := by simp [pruneStep, hx]
      rw [e, ih]
      · simp only [wsum, List.map_append, List.map_cons, List.map_nil, List.sum_append,
          List.sum_cons, List.sum_nil, add_zero]
        rw [hw, h x (by simp) hx]
        simp only [addJac, add_smul]
        abel
      · intro p hp hpe
        rw [hw]; exact h p (List.mem_cons_of_mem _ hp) hpe
      · intro p hp q hq
        exact h2 p (List.mem_cons_of_mem _ hp) q (List.mem_cons_of_mem _ hq)
    · have e : pruneStep st x = { done := st.done ++ [st.cur], arr := x.1, cur := x.2 } := by
        simp [pruneStep, hx]
      rw [e, ih]
      · simp only [wsum, List.map_append, List.map_cons, List.map_nil, List.sum_append,
          List.sum_cons, List.sum_nil, add_zero]
        abel
      · intro p hp hpe
        exact h2 p (List.mem_cons_of_mem _ hp) x (by simp) hpe
      · intro p hp q hq
        exact h2 p (List.mem_cons_of_mem _ hp) q (List.mem_cons_of_mem _ hq)

/-- If the list is sorted, the output corresponds to pairwise different arrays: there is a list of
representatives (array, sector) with the same sectors up to the Jacobian coefficient. -/
theorem prune_distinct (rest : List (Mat × Sector n R E)) (st : Prune n R E)
    (reps : List (Mat × Sector n R E)) (key : Mat → List Int)
    (hinj : ∀ p ∈ rest, ∀ q ∈ rest, key p.1 = key q.1 → p.1 = q.1)
    (hinj' : ∀ p ∈ rest, key p.1 = key st.arr → p.1 = st.arr)
    (hs : rest.Pairwise (fun a b => rowLe (key a.1) (key b.1) = true))
    (hst : ∀ p ∈ rest, rowLe (key st.arr) (key p.1) = true)
    (hreps : reps.map (fun p => { p.2 with jac := (p.2.jac.1, (0 : R)) }) =
      (st.done ++ [st.cur]).map (fun s => { s with jac := (s.jac.1, (0 : R)) }))
    (hlast : ∃ r0 s0, reps = r0 ++ [(st.arr, s0)])
    (hpw : reps.Pairwise (fun a b => rowLe (key a.1) (key b.1) = true ∧ key a.1 ≠ key b.1)) :
    ∃ reps' : List (Mat × Sector n R E),
      reps'.map (fun p => { p.2 with jac := (p.2.jac.1, (0 : R)) }) =
        ((rest.foldl pruneStep st).done ++ [(rest.foldl pruneStep st).cur]).map
          (fun s => { s with jac := (s.jac.1, (0 : R)) }) ∧
      reps'.Pairwise (fun a b => key a.1 ≠ key b.1) ∧
      (∀ p ∈ reps', p ∈ reps ∨ p ∈ rest) := by
  induction rest generalizing st reps with
  | nil => exact ⟨reps, hreps, hpw.imp (fun h => h.2), fun p hp => Or.inl hp⟩
  | cons x rest ih =>
    rw [List.foldl_cons]
    rw [List.pairwise_cons] at hs
    by_cases hx : x.1 = st.arr
    · have e : pruneStep st x = { st with cur := addJac st.cur x.2 } := by simp [pruneStep, hx]
      rw [e]
      obtain ⟨reps', h1, h2, h3⟩ := ih { st with cur := addJac st.cur x.2 } reps
        (fun p hp q hq => hinj p (List.mem_cons_of_mem _ hp) q (List.mem_cons_of_mem _ hq))
        (fun p hp => hinj' p (List.mem_cons_of_mem _ hp)) hs.2
        (fun p hp => hst p (List.mem_cons_of_mem _ hp))
        (by rw [hreps]; simp [addJac]) hlast hpw
      refine ⟨reps', h1, h2, fun p hp => ?_⟩
      rcases h3 p hp with h | h
      · exact Or.inl h
      · exact Or.inr (List.mem_cons_of_mem _ h)
    · have e : pruneStep st x = { done := st.done ++ [st.cur], arr := x.1, cur := x.2 } := by
        simp [pruneStep, hx]
      rw [e]
      obtain ⟨r0, s0, hr0⟩ := hlast
      obtain ⟨reps', h1, h2, h3⟩ := ih { done := st.done ++ [st.cur], arr := x.1, cur := x.2 }
        (reps ++ [x])
        (fun p hp q hq => hinj p (List.mem_cons_of_mem _ hp) q (List.mem_cons_of_mem _ hq))
        (fun p hp => hinj p (List.mem_cons_of_mem _ hp) x (by simp))
        hs.2 (fun p hp => hs.1 p hp)
        (by rw [List.map_append, hreps]; simp) ⟨reps, x.2, rfl⟩
        (by
          rw [List.pairwise_append]
          refine ⟨hpw, by simp, ?_⟩
          intro a ha b hb
          rw [List.mem_singleton] at hb
          subst hb
          have hxl := hst b (by simp)
          have hxne : key st.arr ≠ key b.1 := fun h => hx (hinj' b (by simp) h.symm)
          rw [hr0] at ha hpw
          rcases List.mem_append.1 ha with ha | ha
          · have := (List.pairwise_append.1 hpw).2.2 a ha (st.arr, s0) (by simp)
            refine ⟨rowLe_trans _ _ _ this.1 hxl, ?_⟩
            intro h
            apply hxne
            apply rowLe_antisymm _ _ hxl
            rw [← h]; exact this.1
          · rw [List.mem_singleton] at ha
            subst ha
            exact ⟨hxl, hxne⟩)
      refine ⟨reps', h1, h2, fun p hp => ?_⟩
      rcases h3 p hp with h | h
      · rcases List.mem_append.1 h with h | h
        · exact Or.inl h
        · rw [List.mem_singleton] at h; subst h; exact Or.inr (by simp)
      · exact Or.inr (List.mem_cons_of_mem _ h)

end prune

/-! ### arrays -/
section arrays
variable {m : Nat} {R E : Type} [CommRing R] [DecidableEq R] [DecidableEq E]

/-- rows of the hashed array for a hash function `g` -/
def hashed (g : TCoeff R E → Int) (arr : List (Expo m × TCoeff R E)) : Mat :=
  arr.map (fun r => g r.2 :: List.ofFn r.1)

theorem hashed_hasCols (g : TCoeff R E → Int) (arr : List (Expo m × TCoeff R E)) :
    HasCols (m+1) (hashed g arr) := by
  intro r hr
  obtain ⟨p, _, rfl⟩ := List.mem_map.1 hr
  simp

theorem splitLike_map {α β : Type} (ls : List (List α)) (g : α → β) :
    splitLike ls (ls.flatMap (fun l => l.map g)) = ls.map (fun l => l.map g) := by
  induction ls with
  | nil => rfl
  | cons l ls ih =>
    simp only [splitLike, List.flatMap_cons, List.map_cons]
    congr 1
    · rw [List.take_append_of_le_length (by simp)]
      simp
    · rw [List.drop_append_of_le_length (by simp)]
      rw [show (List.map g l).drop l.length = [] by simp]
      simpa using ih

theorem canonicalArrays_spec {hash : TCoeff R E → Int} {fuel : Nat} {sortf : Mat → Option Mat}
    {replaced : List (Sector m R E)} {arrays : List Mat}
    (h : canonicalArrays hash fuel sortf replaced = some arrays) :
    (∀ s ∈ replaced, ∀ t ∈ replaced, (sector2array s).length = (sector2array t).length) ∧
    ∃ g : TCoeff R E → Int,
      (∀ s ∈ replaced, ∀ t ∈ replaced, ∀ p ∈ sector2array s, ∀ q ∈ sector2array t,
        g p.2 = g q.2 → p.2 = q.2) ∧
      List.Forall₂ (fun s M => sortf (hashed g (sector2array s)) = some M) replaced arrays := by
  unfold canonicalArrays at h
  simp only [] at h
  split at h
  · rename_i hlen
    rw [Option.bind_eq_some_iff] at h
    obtain ⟨hs, h1, h2⟩ := h
    obtain ⟨g, hg, hinj⟩ := safeHashLoop_spec _ _ _ _ h1
    constructor
    · intro s hs t ht
      exact hlen _ (List.mem_map_of_mem hs) _ (List.mem_map_of_mem ht)
    refine ⟨g, ?_, ?_⟩
    · intro s hs t ht p hp q hq
      apply hinj
      · exact List.mem_flatMap.2 ⟨_, List.mem_map_of_mem hs, List.mem_map_of_mem hp⟩
      · exact List.mem_flatMap.2 ⟨_, List.mem_map_of_mem ht, List.mem_map_of_mem hq⟩
    · subst hg
      rw [List.map_flatMap] at h2
      have e1 : (replaced.map sector2array).flatMap (fun a => List.map g (a.map (·.2))) =
          (replaced.map sector2array).flatMap (fun a => a.map (fun r => g r.2)) := by
        congr 1; funext a; rw [List.map_map]; rfl
      rw [e1, splitLike_map, List.zipWith_map_right, List.zipWith_self] at h2
      rw [List.map_map] at h2
      have e2 : ((fun a => hashedArray a (a.map (fun r => g r.2))) ∘ sector2array :
          Sector m R E → Mat) = fun s => hashed g (sector2array s) := by
        funext s
        simp only [Function.comp, hashedArray, hashed]
        rw [List.zipWith_map_left, List.zipWith_self]
      rw [e2] at h2
      clear * - h2
      induction replaced generalizing arrays with
      | nil => simp at h2; subst h2; exact .nil
      | cons s ss ih =>
        rw [List.map_cons, List.mapM_cons] at h2
        simp only [Option.bind_eq_bind, Option.bind_eq_some_iff, Option.pure_def,
          Option.some.injEq] at h2
        obtain ⟨a, ha, as, has, rfl⟩ := h2
        exact .cons ha (ih has)
  · simp at h

/-- An equivalence of hashed arrays comes from a permutation of the variables. -/
theorem exists_variable_perm {g : TCoeff R E → Int} {a b : List (Expo m × TCoeff R E)}
    (hinj : ∀ p ∈ a, ∀ q ∈ b, g p.2 = g q.2 → p.2 = q.2)
    (h : SameUpToPermutation (m+1) (hashed g a) (hashed g b)) :
    ∃ π : Equiv.Perm (Fin m), (a.map (fun r => (r.1 ∘ π, r.2))).Perm b := by
  obtain ⟨σ, h0, hp⟩ := h
  have hσ0 : σ 0 = 0 := h0 0 rfl
  -- σ restricted to the variables
  have hne : ∀ c : Fin m, σ c.succ ≠ 0 := by
    intro c hc
    have : σ c.succ = σ 0 := by rw [hc, hσ0]
    exact Fin.succ_ne_zero c (σ.injective this)
  let f : Fin m → Fin m := fun c => (σ c.succ).pred (hne c)
  have hf : ∀ c, (f c).succ = σ c.succ := fun c => Fin.succ_pred _ _
  have hfinj : Function.Injective f := by
    intro c d hcd
    have : (f c).succ = (f d).succ := by rw [hcd]
    rw [hf, hf] at this
    exact Fin.succ_injective _ (σ.injective this)
  let π : Equiv.Perm (Fin m) := Equiv.ofBijective f (Finite.injective_iff_bijective.1 hfinj)
  refine ⟨π, ?_⟩
  have hrow : ∀ r : Expo m × TCoeff R E,
      permuteCols σ (g r.2 :: List.ofFn r.1) = g r.2 :: List.ofFn (r.1 ∘ π) := by
    intro r
    unfold permuteCols
    rw [List.ofFn_succ, hσ0]
    congr 1
    apply congrArg List.ofFn
    funext c
    rw [← hf c]
    simp only [Fin.val_succ, List.getD_cons_succ, Function.comp, π, Equiv.ofBijective_apply]
    simp [List.getD]
  -- the map from rows to hashed rows is injective between the two lists
  have hmap : (hashed g a).map (permuteCols σ) = (a.map (fun r => (r.1 ∘ π, r.2))).map
      (fun r => g r.2 :: List.ofFn r.1) := by
    unfold hashed
    rw [List.map_map, List.map_map]
    apply List.map_congr_left
    intro r _
    exact hrow r
  rw [hmap] at hp
  unfold hashed at hp
  -- cancel an injective map
  have hinj2 : ∀ p ∈ a.map (fun r => (r.1 ∘ π, r.2)), ∀ q ∈ b,
      (g p.2 :: List.ofFn p.1) = (g q.2 :: List.ofFn q.1) → p = q := by
    intro p hp q hq he
    obtain ⟨p', hp', rfl⟩ := List.mem_map.1 hp
    simp only [List.cons.injEq] at he
    have h1 := hinj p' hp' q hq he.1
    have h2 := List.ofFn_injective he.2
    exact Prod.ext h2 h1
  clear * - hp hinj2
  generalize a.map (fun r => (r.1 ∘ π, r.2)) = a' at hp hinj2
  induction a' generalizing b with
  | nil =>
    have := hp.length_eq
    simp at this
    rw [List.length_eq_zero_iff.1 this.symm]
  | cons p a' ih =>
    have hm : (fun r : Expo m × TCoeff R E => g r.2 :: List.ofFn r.1) p ∈
        b.map (fun r => g r.2 :: List.ofFn r.1) := hp.mem_iff.1 (by simp)
    obtain ⟨q, hq, he⟩ := List.mem_map.1 hm
    have hpq := hinj2 p (by simp) q hq he.symm
    subst hpq
    obtain ⟨l1, l2, rfl⟩ := List.append_of_mem hq
    have h3 : (p :: (l1 ++ l2)).Perm (l1 ++ p :: l2) := List.perm_middle.symm
    refine (List.Perm.cons p ?_).trans h3
    apply ih
    · have h4 := hp.trans (h3.map (fun r => g r.2 :: List.ofFn r.1)).symm
      rw [List.map_cons, List.map_cons, List.perm_cons] at h4
      exact h4
    · intro p' hp' q' hq'
      refine hinj2 p' (List.mem_cons_of_mem _ hp') q' ?_
      simp only [List.mem_append, List.mem_cons] at hq' ⊢
      tauto

end arrays

/-! ### values -/
section values
variable {n : Nat} {K E : Type} [Field K] [DecidableEq K] [DecidableEq E]

/-- contribution of one row to the polynomial with tag in `P` -/
noncomputable def rowVal (P : Tag E → Bool) (x : Fin n → K) (r : Expo n × TCoeff K E) : K :=
  match r.2 with
  | none => 0
  | some (c, t) => if P t then c * Poly.mono x r.1 else 0

noncomputable def arrVal (P : Tag E → Bool) (x : Fin n → K) (a : List (Expo n × TCoeff K E)) : K :=
  (a.map (rowVal P x)).sum

theorem mono_comp (x : Fin n → K) (e : Expo n) (π : Equiv.Perm (Fin n)) :
    Poly.mono x (e ∘ π) = Poly.mono (x ∘ π.symm) e := by
  unfold Poly.mono
  rw [← Equiv.prod_comp π.symm (fun i => x i ^ (e ∘ π) i)]
  apply Finset.prod_congr rfl
  intro i _
  simp

theorem arrVal_perm {P : Tag E → Bool} {a b : List (Expo n × TCoeff K E)} {π : Equiv.Perm (Fin n)}
    (h : (a.map (fun r => (r.1 ∘ π, r.2))).Perm b) (x : Fin n → K) :
    arrVal P x b = arrVal P (x ∘ π.symm) a := by
  unfold arrVal
  rw [← (h.map (rowVal P x)).sum_eq, List.map_map]
  congr 1
  apply List.map_congr_left
  intro r _
  simp only [Function.comp, rowVal]
  split
  · rfl
  · have := mono_comp x r.1 π
    simp only [Function.comp_def] at this ⊢
    rw [this]

theorem arrVal_append (P : Tag E → Bool) (x : Fin n → K) (a b : List (Expo n × TCoeff K E)) :
    arrVal P x (a ++ b) = arrVal P x a + arrVal P x b := by simp [arrVal]

theorem rowVal_tag (P : Tag E → Bool) (x : Fin n → K) (e : Expo n) (c : K) (t : Tag E) :
    rowVal P x (e, tagCoeff c t) = if P t then c * Poly.mono x e else 0 := by
  unfold rowVal tagCoeff
  by_cases hc : c = 0
  · simp [hc]
  · simp [hc]

theorem mono_add (x : Fin n → K) (hx : ∀ i, x i ≠ 0) (a b : Expo n) :
    Poly.mono x (a + b) = Poly.mono x a * Poly.mono x b := by
  unfold Poly.mono
  rw [← Finset.prod_mul_distrib]
  apply Finset.prod_congr rfl
  intro i _
  exact zpow_add₀ (hx i) _ _

theorem arrVal_castRows (P : Tag E → Bool) (x : Fin n → K) (hx : ∀ i, x i ≠ 0) (i : Nat)
    (p : SProd n K E) :
    arrVal P x (castRows i p) = if P (Tag.cast i p.poly.exponent) then
      p.mono.2 * Poly.mono x p.mono.1 * p.poly.eval x else 0 := by
  unfold arrVal castRows SPoly.eval Poly.eval
  rw [List.map_map]
  split
  · rename_i hP
    rw [← List.sum_map_mul_left]
    congr 1
    apply List.map_congr_left
    intro t _
    simp only [Function.comp]
    rw [rowVal_tag, if_pos hP, mono_add x hx]
    ring
  · rename_i hP
    apply List.sum_eq_zero
    intro y hy
    obtain ⟨t, _, rfl⟩ := List.mem_map.1 hy
    simp only [Function.comp]
    rw [rowVal_tag, if_neg hP]

theorem arrVal_otherRows (P : Tag E → Bool) (x : Fin n → K) (i : Nat) (p : SPoly n K E) :
    arrVal P x (otherRows i p) = if P (Tag.other i p.exponent) then p.eval x else 0 := by
  unfold arrVal otherRows SPoly.eval Poly.eval
  rw [List.map_map]
  split
  · rename_i hP
    congr 1
    apply List.map_congr_left
    intro t _
    simp only [Function.comp]
    rw [rowVal_tag, if_pos hP]
  · rename_i hP
    apply List.sum_eq_zero
    intro y hy
    obtain ⟨t, _, rfl⟩ := List.mem_map.1 hy
    simp only [Function.comp]
    rw [rowVal_tag, if_neg hP]

theorem arrVal_flatMap (P : Tag E → Bool) (x : Fin n → K) {β : Type} (l : List β)
    (f : β → List (Expo n × TCoeff K E)) :
    arrVal P x (l.flatMap f) = (l.map (fun b => arrVal P x (f b))).sum := by
  induction l with
  | nil => simp [arrVal]
  | cons b l ih => rw [List.flatMap_cons, arrVal_append, ih]; simp

def isJac : Tag E → Bool | .jac => true | _ => false
def isCast (i : Nat) : Tag E → Bool | .cast j _ => decide (j = i) | _ => false
def isOther (i : Nat) : Tag E → Bool | .other j _ => decide (j = i) | _ => false

theorem sum_zipIdx_pick {β : Type} (l : List β) (k i : Nat) (F : β → Nat → K)
    (hF : ∀ b j, j ≠ i → F b j = 0) :
    ((l.zipIdx k).map (fun p => F p.1 p.2)).sum =
      if h : k ≤ i ∧ i - k < l.length then F (l[i-k]'h.2) i else 0 := by
  induction l generalizing k with
  | nil => simp
  | cons b l ih =>
    rw [List.zipIdx_cons, List.map_cons, List.sum_cons, ih]
    by_cases hk : k = i
    · subst hk
      simp
    · rw [hF b k hk, zero_add]
      by_cases hlt : k ≤ i
      · by_cases h2 : i - (k+1) < l.length
        · rw [dif_pos ⟨by omega, h2⟩, dif_pos ⟨hlt, by simp; omega⟩]
          congr 1
          have : i - k = (i - (k+1)) + 1 := by omega
          simp [this]
        · rw [dif_neg (by omega), dif_neg (by simp; omega)]
      · rw [dif_neg (by omega), dif_neg (by omega)]

theorem arrVal_jac (s : Sector n K E) (x : Fin n → K) (hx : ∀ i, x i ≠ 0) :
    arrVal isJac x (sector2array s) = Poly.mono x s.jac.1 := by
  unfold sector2array
  rw [show ∀ (r : Expo n × TCoeff K E) l, r :: l = [r] ++ l from fun _ _ => rfl]
  rw [arrVal_append, arrVal_append, arrVal_flatMap, arrVal_flatMap]
  rw [List.sum_eq_zero, List.sum_eq_zero]
  · simp [arrVal, rowVal_tag, isJac]
  · intro y hy
    obtain ⟨p, _, rfl⟩ := List.mem_map.1 hy
    rw [arrVal_otherRows]; simp [isJac]
  · intro y hy
    obtain ⟨p, _, rfl⟩ := List.mem_map.1 hy
    rw [arrVal_castRows _ _ hx]; simp [isJac]

theorem arrVal_cast (s : Sector n K E) (x : Fin n → K) (hx : ∀ i, x i ≠ 0) (i : Nat)
    (hi : i < s.cast.length) :
    arrVal (isCast i) x (sector2array s) =
      s.cast[i].mono.2 * Poly.mono x s.cast[i].mono.1 * s.cast[i].poly.eval x := by
  unfold sector2array
  rw [show ∀ (r : Expo n × TCoeff K E) l, r :: l = [r] ++ l from fun _ _ => rfl]
  rw [arrVal_append, arrVal_append, arrVal_flatMap, arrVal_flatMap]
  have h0 : arrVal (isCast i) x [(s.jac.1, tagCoeff (1:K) (Tag.jac : Tag E))] = 0 := by
    simp [arrVal, rowVal_tag, isCast]
  have h2 : (List.map (fun p : SPoly n K E × Nat => arrVal (isCast i) x (otherRows p.2 p.1))
      s.other.zipIdx).sum = 0 := by
    apply List.sum_eq_zero
    intro y hy
    obtain ⟨p, _, rfl⟩ := List.mem_map.1 hy
    rw [arrVal_otherRows]; simp [isCast]
  rw [h0, h2, zero_add, add_zero]
  rw [List.map_congr_left (fun p _ => arrVal_castRows (isCast i) x hx p.2 p.1)]
  have := sum_zipIdx_pick (K := K) s.cast 0 i (fun p j => if isCast (E := E) i (Tag.cast j p.poly.exponent) then
      p.mono.2 * Poly.mono x p.mono.1 * p.poly.eval x else 0) (by
      intro b j hj; simp [isCast, hj])
  rw [this, dif_pos ⟨Nat.zero_le _, by simpa using hi⟩]
  simp [isCast]

theorem arrVal_other (s : Sector n K E) (x : Fin n → K) (hx : ∀ i, x i ≠ 0) (i : Nat)
    (hi : i < s.other.length) :
    arrVal (isOther i) x (sector2array s) = s.other[i].eval x := by
  unfold sector2array
  rw [show ∀ (r : Expo n × TCoeff K E) l, r :: l = [r] ++ l from fun _ _ => rfl]
  rw [arrVal_append, arrVal_append, arrVal_flatMap, arrVal_flatMap]
  have h0 : arrVal (isOther i) x [(s.jac.1, tagCoeff (1:K) (Tag.jac : Tag E))] = 0 := by
    simp [arrVal, rowVal_tag, isOther]
  have h2 : (List.map (fun p : SProd n K E × Nat => arrVal (isOther i) x (castRows p.2 p.1))
      s.cast.zipIdx).sum = 0 := by
    apply List.sum_eq_zero
    intro y hy
    obtain ⟨p, _, rfl⟩ := List.mem_map.1 hy
    rw [arrVal_castRows _ _ hx]; simp [isOther]
  rw [h0, h2, zero_add, zero_add]
  rw [List.map_congr_left (fun p _ => arrVal_otherRows (isOther i) x p.2 p.1)]
  have := sum_zipIdx_pick (K := K) s.other 0 i (fun p j => if isOther (E := E) i (Tag.other j p.exponent) then
      p.eval x else 0) (by
      intro b j hj; simp [isOther, hj])
  rw [this, dif_pos ⟨Nat.zero_le _, by simpa using hi⟩]
  simp [isOther]

theorem mem_sector2array {s : Sector n K E} {r : Expo n × TCoeff K E} :
    r ∈ sector2array s ↔ r = (s.jac.1, tagCoeff 1 Tag.jac) ∨
      (∃ i, ∃ h : i < s.cast.length, r ∈ castRows i s.cast[i]) ∨
      (∃ i, ∃ h : i < s.other.length, r ∈ otherRows i s.other[i]) := by
  unfold sector2array
  simp only [List.mem_cons, List.mem_append, List.mem_flatMap]
  constructor
  · rintro (h | ⟨⟨p, i⟩, hp, h⟩ | ⟨⟨p, i⟩, hp, h⟩)
    · exact Or.inl h
    · have := List.mk_mem_zipIdx_iff_getElem?.1 hp
      rw [List.getElem?_eq_some_iff] at this
      obtain ⟨hi, rfl⟩ := this
      exact Or.inr (Or.inl ⟨i, hi, h⟩)
    · have := List.mk_mem_zipIdx_iff_getElem?.1 hp
      rw [List.getElem?_eq_some_iff] at this
      obtain ⟨hi, rfl⟩ := this
      exact Or.inr (Or.inr ⟨i, hi, h⟩)
  · rintro (h | ⟨i, hi, h⟩ | ⟨i, hi, h⟩)
    · exact Or.inl h
    · exact Or.inr (Or.inl ⟨(s.cast[i], i), List.mk_mem_zipIdx_iff_getElem?.2 (by simp [hi]), h⟩)
    · exact Or.inr (Or.inr ⟨(s.other[i], i), List.mk_mem_zipIdx_iff_getElem?.2 (by simp [hi]), h⟩)

theorem cast_exponent_eq {s t : Sector n K E} {π : Equiv.Perm (Fin n)}
    (h : ((sector2array s).map (fun r => (r.1 ∘ π, r.2))).Perm (sector2array t))
    (hs : NonZero s) (i : Nat) (hi : i < s.cast.length) (ht : i < t.cast.length) :
    t.cast[i].poly.exponent = s.cast[i].poly.exponent := by
  obtain ⟨hm, r, hr, hr0⟩ := hs.1 s.cast[i] (List.getElem_mem hi)
  have hne : r.2 * s.cast[i].mono.2 ≠ 0 := mul_ne_zero hr0 hm
  have hmem : (r.1 + s.cast[i].mono.1, tagCoeff (r.2 * s.cast[i].mono.2)
      (Tag.cast i s.cast[i].poly.exponent)) ∈ sector2array s :=
    mem_sector2array.2 (Or.inr (Or.inl ⟨i, hi, List.mem_map_of_mem (f := fun t : Expo n × K =>
      (t.1 + s.cast[i].mono.1, tagCoeff (t.2 * s.cast[i].mono.2)
        (Tag.cast i s.cast[i].poly.exponent))) hr⟩))
  have h2 := h.mem_iff.1 (List.mem_map_of_mem (f := fun r : Expo n × TCoeff K E => (r.1 ∘ π, r.2)) hmem)
  rcases mem_sector2array.1 h2 with h3 | ⟨j, hj, h3⟩ | ⟨j, hj, h3⟩
  · simp [tagCoeff, hne] at h3
  · obtain ⟨u, _, hu⟩ := List.mem_map.1 h3
    have hu2 := congrArg Prod.snd hu
    simp only [tagCoeff, hne, if_false] at hu2
    split at hu2
    · simp at hu2
    · simp only [Option.some.injEq, Prod.mk.injEq, Tag.cast.injEq] at hu2
      obtain ⟨_, rfl, h4⟩ := hu2
      exact h4
  · obtain ⟨u, _, hu⟩ := List.mem_map.1 h3
    have hu2 := congrArg Prod.snd hu
    simp only [tagCoeff, hne, if_false] at hu2
    split at hu2 <;> simp at hu2

theorem other_exponent_eq {s t : Sector n K E} {π : Equiv.Perm (Fin n)}
    (h : ((sector2array s).map (fun r => (r.1 ∘ π, r.2))).Perm (sector2array t))
    (hs : NonZero s) (i : Nat) (hi : i < s.other.length) (ht : i < t.other.length) :
    t.other[i].exponent = s.other[i].exponent := by
  obtain ⟨r, hr, hne⟩ := hs.2 s.other[i] (List.getElem_mem hi)
  have hmem : (r.1, tagCoeff r.2 (Tag.other i s.other[i].exponent)) ∈ sector2array s :=
    mem_sector2array.2 (Or.inr (Or.inr ⟨i, hi, List.mem_map_of_mem (f := fun t : Expo n × K =>
      (t.1, tagCoeff t.2 (Tag.other i s.other[i].exponent))) hr⟩))
  have h2 := h.mem_iff.1 (List.mem_map_of_mem (f := fun r : Expo n × TCoeff K E => (r.1 ∘ π, r.2)) hmem)
  rcases mem_sector2array.1 h2 with h3 | ⟨j, hj, h3⟩ | ⟨j, hj, h3⟩
  · simp [tagCoeff, hne] at h3
  · obtain ⟨u, _, hu⟩ := List.mem_map.1 h3
    have hu2 := congrArg Prod.snd hu
    simp only [tagCoeff, hne, if_false] at hu2
    split at hu2 <;> simp at hu2
  · obtain ⟨u, _, hu⟩ := List.mem_map.1 h3
    have hu2 := congrArg Prod.snd hu
    simp only [tagCoeff, hne, if_false] at hu2
    split at hu2
    · simp at hu2
    · simp only [Option.some.injEq, Prod.mk.injEq, Tag.other.injEq] at hu2
      obtain ⟨_, rfl, h4⟩ := hu2
      exact h4

/-- Sectors whose arrays agree up to a permutation have the same value up to that permutation of
the variables. -/
theorem value_perm {s t : Sector n K E} {π : Equiv.Perm (Fin n)}
    (h : ((sector2array s).map (fun r => (r.1 ∘ π, r.2))).Perm (sector2array t))
    (hs : NonZero s) (hsh : SameShape s t) (x : Fin n → K) (hx : ∀ i, x i ≠ 0) :
    t.value x = s.value (x ∘ π.symm) := by
  have hx' : ∀ i, (x ∘ π.symm) i ≠ 0 := fun i => hx _
  have hjac : Poly.mono x t.jac.1 = Poly.mono (x ∘ π.symm) s.jac.1 := by
    rw [← arrVal_jac t x hx, arrVal_perm h, arrVal_jac s _ hx']
  unfold Sector.value
  rw [hjac]
  congr 1
  · apply List.ext_getElem
    · simp [hsh.1]
    · intro i h1 h2
      have hi : i < s.cast.length := by simpa using h2
      have hi' : i < t.cast.length := by simpa using h1
      simp only [List.getElem_map]
      rw [← arrVal_cast t x hx i hi', arrVal_perm h, arrVal_cast s _ hx' i hi,
        cast_exponent_eq h hs i hi hi']
  · apply List.ext_getElem
    · simp [hsh.2]
    · intro i h1 h2
      have hi : i < s.other.length := by simpa using h2
      have hi' : i < t.other.length := by simpa using h1
      simp only [List.getElem_map]
      rw [← arrVal_other t x hx i hi', arrVal_perm h, arrVal_other s _ hx' i hi,
        other_exponent_eq h hs i hi hi']

/-- Syntactically permuted sectors have permuted arrays. -/
theorem array_of_permuted {s t : Sector n K E} {π : Equiv.Perm (Fin n)} (h : PermutedSector π s t) :
    ((sector2array s).map (fun r => (r.1 ∘ π, r.2))).Perm (sector2array t) := by
  obtain ⟨h1, h2, h3⟩ := h
  unfold sector2array
  rw [List.map_cons, h1]
  refine List.Perm.cons _ ?_
  rw [List.map_append]
  refine List.Perm.append ?_ ?_
  · generalize 0 = k
    generalize s.cast = sc at h2
    generalize t.cast = tc at h2
    clear * - h2
    induction h2 generalizing k with
    | nil => simp
    | @cons p q ps qs hpq _ ih =>
      rw [List.zipIdx_cons, List.zipIdx_cons, List.flatMap_cons, List.flatMap_cons, List.map_append]
      refine List.Perm.append ?_ (ih (k+1))
      have := hpq.2.map (fun r : Expo n × K => (r.1, tagCoeff r.2 (Tag.cast k p.poly.exponent)))
      unfold castRows
      rw [← hpq.1]
      unfold SProd.expanded at this
      simpa [List.map_map, Function.comp_def] using this
  · generalize 0 = k
    generalize s.other = sc at h3
    generalize t.other = tc at h3
    clear * - h3
    induction h3 generalizing k with
    | nil => simp
    | @cons p q ps qs hpq _ ih =>
      rw [List.zipIdx_cons, List.zipIdx_cons, List.flatMap_cons, List.flatMap_cons, List.map_append]
      refine List.Perm.append ?_ (ih (k+1))
      have := hpq.2.map (fun r : Expo n × K => (r.1, tagCoeff r.2 (Tag.other k p.exponent)))
      unfold otherRows
      rw [← hpq.1]
      simpa [List.map_map, Function.comp_def] using this

end values
end SecDec.Squash
