import Mathlib.RingTheory.Derivation.Basic
import Mathlib.Algebra.BigOperators.Fin
import Mathlib.Algebra.BigOperators.Ring.Finset
import Mathlib.Data.List.GetD
import Verif.Proof.ArgSort
import Verif.Spec.ProductRule
set_option linter.unusedSectionVars false
namespace SecDec
namespace PRule
variable {m n : Nat} {E : Type} {A : Type} [CommRing A]
variable {D : Fin n → Derivation ℤ A A} {ops : Ops n E} {val : E → A} {fs : Fin m → E}

/-- Derivative by a multiindex. -/
def Dm (D : Fin n → Derivation ℤ A A) (α : Fin n → Nat) (a : A) : A :=
  (List.finRange n).foldr (fun k b => (D k)^[α k] b) a

theorem iter_comm (hc : ∀ k l a, D k (D l a) = D l (D k a)) (k l : Fin n) (r : Nat) (a : A) :
    D k ((D l)^[r] a) = (D l)^[r] (D k a) := by
  induction r generalizing a with
  | zero => rfl
  | succ r ih => rw [Function.iterate_succ_apply, Function.iterate_succ_apply, ih, hc]

theorem foldr_update_of_not_mem (α : Fin n → Nat) (k : Fin n) (v : Nat) (l : List (Fin n)) (h : k ∉ l) (a : A) :
    l.foldr (fun i b => (D i)^[Function.update α k v i] b) a = l.foldr (fun i b => (D i)^[α i] b) a := by
  induction l with
  | nil => rfl
  | cons i l ih =>
    have h1 : i ≠ k := fun hh => h (by simp [hh])
    have h2 : k ∉ l := fun hh => h (by simp [hh])
    simp only [List.foldr_cons]
    rw [ih h2, Function.update_of_ne h1]

theorem foldr_update_succ (hc : ∀ k l a, D k (D l a) = D l (D k a)) (α : Fin n → Nat) (k : Fin n)
    (l : List (Fin n)) (hn : l.Nodup) (h : k ∈ l) (a : A) :
    l.foldr (fun i b => (D i)^[Function.update α k (α k + 1) i] b) a
      = D k (l.foldr (fun i b => (D i)^[α i] b) a) := by
  induction l with
  | nil => simp at h
  | cons i l ih =>
    rw [List.nodup_cons] at hn
    simp only [List.foldr_cons]
    by_cases hik : i = k
    · subst hik
      rw [foldr_update_of_not_mem _ _ _ _ hn.1, Function.update_self, Function.iterate_succ_apply']
    · have hk : k ∈ l := by
        rcases List.mem_cons.1 h with h | h
        · exact absurd h.symm hik
        · exact h
      rw [ih hn.2 hk, Function.update_of_ne hik, iter_comm hc]

theorem Dm_succ (hc : ∀ k l a, D k (D l a) = D l (D k a)) (α : Fin n → Nat) (k : Fin n) (a : A) :
    Dm D (Function.update α k (α k + 1)) a = D k (Dm D α a) :=
  foldr_update_succ hc α k _ (List.nodup_finRange n) (List.mem_finRange k) a

theorem Dm_zero (a : A) : Dm D (fun _ => 0) a = a := by
  unfold Dm
  induction List.finRange n with
  | nil => rfl
  | cons i l ih => simp only [List.foldr_cons, ih]; rfl

/-- Value of a term. -/
def termVal (D : Fin n → Derivation ℤ A A) (val : E → A) (fs : Fin m → E) (t : Term m n) : A :=
  ∏ j, Dm D (t j) (val (fs j))

/-- Value of an object. -/
def objVal (D : Fin n → Derivation ℤ A A) (val : E → A) (fs : Fin m → E) (o : Obj m n) : A :=
  (o.map (fun t => (t.1 : A) * termVal D val fs t.2)).sum

theorem deriv_prod (d : Derivation ℤ A A) {ι : Type} [DecidableEq ι] (s : Finset ι) (g : ι → A) :
    d (∏ j ∈ s, g j) = ∑ i ∈ s, d (g i) * ∏ j ∈ s.erase i, g j := by
  induction s using Finset.induction_on with
  | empty => simp
  | insert a s ha ih =>
    rw [Finset.prod_insert ha, Derivation.leibniz, ih, Finset.sum_insert ha, Finset.erase_insert ha]
    simp only [smul_eq_mul]
    rw [Finset.mul_sum, add_comm]
    congr 1
    · ring
    apply Finset.sum_congr rfl
    intro i hi
    have hia : i ≠ a := fun h => ha (h ▸ hi)
    rw [Finset.erase_insert_of_ne (Ne.symm hia), Finset.prod_insert (by simp [ha])]
    ring

theorem termVal_deriv (hc : ∀ k l a, D k (D l a) = D l (D k a)) (t : Term m n) (k : Fin n) :
    D k (termVal D val fs t) = ∑ j, termVal D val fs (incr t j k) := by
  unfold termVal
  rw [deriv_prod]
  apply Finset.sum_congr rfl
  intro j _
  rw [← Finset.mul_prod_erase Finset.univ _ (Finset.mem_univ j)]
  congr 1
  · rw [incr, Function.update_self, Dm_succ hc]
  · apply Finset.prod_congr rfl
    intro i hi
    rw [incr, Function.update_of_ne (Finset.ne_of_mem_erase hi)]

theorem objVal_append (o o' : Obj m n) :
    objVal D val fs (o ++ o') = objVal D val fs o + objVal D val fs o' := by simp [objVal]

theorem objVal_newTerms (hc : ∀ k l a, D k (D l a) = D l (D k a)) (o : Obj m n) (k : Fin n) :
    objVal D val fs (newTerms o k) = D k (objVal D val fs o) := by
  have h1 : ∀ l : List (Fin m), objVal D val fs (l.flatMap (fun j => o.map (fun t => (t.1, incr t.2 j k))))
      = (o.map (fun t => (t.1 : A) * (l.map (fun j => termVal D val fs (incr t.2 j k))).sum)).sum := by
    intro l
    induction l with
    | nil => simp [objVal]
    | cons j l ih =>
      rw [List.flatMap_cons, objVal_append, ih]
      simp only [List.map_cons, List.sum_cons, mul_add]
      rw [List.sum_map_add]
      congr 1
      unfold objVal
      rw [List.map_map]; rfl
  unfold newTerms
  rw [h1]
  unfold objVal
  rw [map_list_sum (D k), List.map_map]
  congr 1
  apply List.map_congr_left
  intro t _
  simp only [Function.comp]
  have : (D k) ((t.1 : A) * termVal D val fs t.2) = (t.1 : A) * D k (termVal D val fs t.2) := by
    rw [Derivation.leibniz]; simp [smul_eq_mul]
  rw [this, termVal_deriv hc, ← List.sum_ofFn, List.ofFn_eq_map]

/-- Cache invariant. -/
def CacheOk (D : Fin n → Derivation ℤ A A) (val : E → A) (fs : Fin m → E) (c : Cache m n E) : Prop :=
  (∀ j α e, c j α = some e → val e = Dm D α (val (fs j))) ∧ ∀ j, (c j (fun _ => 0)).isSome

/-- One cache contains another. -/
def CacheLe (c c' : Cache m n E) : Prop := ∀ j α, (c j α).isSome → (c' j α).isSome

theorem CacheLe.refl (c : Cache m n E) : CacheLe c c := fun _ _ h => h
theorem CacheLe.trans {a b c : Cache m n E} (h1 : CacheLe a b) (h2 : CacheLe b c) : CacheLe a c :=
  fun j α h => h2 j α (h1 j α h)

theorem ensure_ok (hs : Sound D val ops) (hc : ∀ k l a, D k (D l a) = D l (D k a)) (k : Fin n)
    (c : Cache m n E) (hok : CacheOk D val fs c) (j : Fin m) (α : Fin n → Nat)
    (h : (c j α).isSome ∨ (0 < α k ∧ (c j (Function.update α k (α k - 1))).isSome)) :
    ∃ c', ensure ops k c j α = some c' ∧ CacheOk D val fs c' ∧ CacheLe c c' ∧ (c' j α).isSome := by
  unfold ensure
  cases hca : c j α with
  | some e => exact ⟨c, rfl, hok, CacheLe.refl c, by simp [hca]⟩
  | none =>
    rw [hca] at h
    obtain ⟨hpos, hl⟩ : 0 < α k ∧ (c j (Function.update α k (α k - 1))).isSome := by simpa using h
    obtain ⟨lower, hlo⟩ := Option.isSome_iff_exists.1 hl
    simp only [hlo]
    refine ⟨_, rfl, ⟨?_, ?_⟩, ?_, ?_⟩
    · intro j' α' e he
      by_cases hj : j' = j
      · subst hj
        rw [Function.update_self] at he
        by_cases ha : α' = α
        · subst ha
          rw [Function.update_self] at he
          simp only [Option.some.injEq] at he
          subst he
          rw [hs.simplify, hs.derive, hok.1 _ _ _ hlo, ← Dm_succ hc]
          congr 1
          funext i
          by_cases hi : i = k
          · subst hi; simp; omega
          · simp [Function.update_of_ne hi]
        · rw [Function.update_of_ne ha] at he
          exact hok.1 _ _ _ he
      · rw [Function.update_of_ne hj] at he
        exact hok.1 _ _ _ he
    · intro j'
      by_cases hj : j' = j
      · subst hj
        rw [Function.update_self]
        by_cases ha : (fun _ => 0) = α
        · subst ha; simp at hpos
        · rw [Function.update_of_ne ha]; exact hok.2 _
      · rw [Function.update_of_ne hj]; exact hok.2 _
    · intro j' α' h'
      by_cases hj : j' = j
      · subst hj
        rw [Function.update_self]
        by_cases ha : α' = α
        · subst ha; simp
        · rw [Function.update_of_ne ha]; exact h'
      · rw [Function.update_of_ne hj]; exact h'
    · simp

theorem fillTerm_ok (hs : Sound D val ops) (hc : ∀ k l a, D k (D l a) = D l (D k a)) (k : Fin n)
    (t : Term m n) (js : List (Fin m)) (c : Cache m n E) (hok : CacheOk D val fs c) (coeff : Int)
    (h : ∀ j ∈ js, (c j (t j)).isSome ∨ (0 < t j k ∧ (c j (Function.update (t j) k (t j k - 1))).isSome)) :
    ∃ r, fillTerm ops k t js c coeff = some r ∧ CacheOk D val fs r.1 ∧ CacheLe c r.1 ∧
      (∀ j ∈ js, (r.1 j (t j)).isSome) ∧ (r.2 : A) * termVal D val fs t = (coeff : A) * termVal D val fs t := by
  induction js generalizing c coeff with
  | nil => exact ⟨_, rfl, hok, CacheLe.refl c, by simp, rfl⟩
  | cons j js ih =>
    obtain ⟨c', h1, h2, h3, h4⟩ := ensure_ok hs hc k c hok j (t j) (h j (by simp))
    obtain ⟨e, he⟩ := Option.isSome_iff_exists.1 h4
    have hz : ((if coeff ≠ 0 ∧ ops.zeroD e = true then 0 else coeff : Int) : A) * termVal D val fs t
        = (coeff : A) * termVal D val fs t := by
      split
      · rename_i hh
        have h0 : val e = 0 := hs.zeroD e hh.2
        rw [h2.1 _ _ _ he] at h0
        have : termVal D val fs t = 0 := Finset.prod_eq_zero (Finset.mem_univ j) h0
        rw [this]; simp
      · rfl
    obtain ⟨r, r1, r2, r3, r4, r5⟩ := ih c' h2 (if coeff ≠ 0 ∧ ops.zeroD e = true then 0 else coeff) (by
      intro j' hj'
      rcases h j' (by simp [hj']) with hh | ⟨ha, hh⟩
      · exact Or.inl (h3 _ _ hh)
      · exact Or.inr ⟨ha, h3 _ _ hh⟩)
    refine ⟨r, ?_, r2, h3.trans r3, ?_, by rw [r5, hz]⟩
    · simp only [fillTerm, h1, Option.bind_eq_bind, Option.bind_some, he]; exact r1
    · intro j' hj'
      rcases List.mem_cons.1 hj' with hh | hh
      · subst hh; exact r3 _ _ h4
      · exact r4 j' hh

theorem fillAll_ok (hs : Sound D val ops) (hc : ∀ k l a, D k (D l a) = D l (D k a)) (k : Fin n)
    (o : Obj m n) (c : Cache m n E) (hok : CacheOk D val fs c)
    (h : ∀ t ∈ o, ∀ j, (c j (t.2 j)).isSome ∨ (0 < t.2 j k ∧ (c j (Function.update (t.2 j) k (t.2 j k - 1))).isSome)) :
    ∃ r, fillAll ops k o c = some r ∧ CacheOk D val fs r.1 ∧ CacheLe c r.1 ∧
      (∀ t ∈ r.2, ∀ j, (r.1 j (t.2 j)).isSome) ∧ objVal D val fs r.2 = objVal D val fs o := by
  induction o generalizing c with
  | nil => exact ⟨_, rfl, hok, CacheLe.refl c, by simp, rfl⟩
  | cons t o ih =>
    obtain ⟨r, r1, r2, r3, r4, r5⟩ := fillTerm_ok hs hc k t.2 (List.finRange m) c hok t.1
      (fun j _ => h t (by simp) j)
    obtain ⟨s, s1, s2, s3, s4, s5⟩ := ih r.1 r2 (by
      intro t' ht' j
      rcases h t' (by simp [ht']) j with hh | ⟨ha, hh⟩
      · exact Or.inl (r3 _ _ hh)
      · exact Or.inr ⟨ha, r3 _ _ hh⟩)
    refine ⟨(s.1, (r.2, t.2) :: s.2), ?_, s2, r3.trans s3, ?_, ?_⟩
    · simp only [fillAll, r1]
      show (do let s ← fillAll ops k o r.1; _) = _
      rw [s1]; rfl
    · intro t' ht' j
      rcases List.mem_cons.1 ht' with hh | hh
      · subst hh; exact s3 _ _ (r4 j (List.mem_finRange j))
      · exact s4 t' hh j
    · simp only [objVal, List.map_cons, List.sum_cons] at *
      rw [r5, s5]

theorem newTerms_mem {o : Obj m n} {k : Fin n} {t : Int × Term m n} (h : t ∈ newTerms o k) :
    ∃ j, ∃ u ∈ o, t = (u.1, incr u.2 j k) := by
  obtain ⟨j, _, h⟩ := List.mem_flatMap.1 h
  obtain ⟨u, hu, rfl⟩ := List.mem_map.1 h
  exact ⟨j, u, hu, rfl⟩

theorem derive_ok (hs : Sound D val ops) (hc : ∀ k l a, D k (D l a) = D l (D k a)) (k : Fin n)
    (o : Obj m n) (c : Cache m n E) (hok : CacheOk D val fs c) (hcl : ∀ t ∈ o, ∀ j, (c j (t.2 j)).isSome) :
    ∃ r, derive ops c o k = some r ∧ CacheOk D val fs r.1 ∧ CacheLe c r.1 ∧
      (∀ t ∈ r.2, ∀ j, (r.1 j (t.2 j)).isSome) ∧ objVal D val fs r.2 = D k (objVal D val fs o) := by
  obtain ⟨r, r1, r2, r3, r4, r5⟩ := fillAll_ok hs hc k (newTerms o k) c hok (by
    intro t ht j
    obtain ⟨j0, u, hu, rfl⟩ := newTerms_mem ht
    by_cases hj : j = j0
    · subst hj
      right
      simp only [incr, Function.update_self]
      refine ⟨by omega, ?_⟩
      have : Function.update (Function.update (u.2 j) k (u.2 j k + 1)) k (u.2 j k + 1 - 1) = u.2 j := by
        funext i
        by_cases hi : i = k
        · subst hi; simp
        · simp [Function.update_of_ne hi]
      rw [this]; exact hcl u hu j
    · left
      simp only [incr, Function.update_of_ne hj]
      exact hcl u hu j)
  exact ⟨r, r1, r2, r3, r4, by rw [r5, objVal_newTerms hc]⟩

/-! ### simplify -/

theorem termZero_val (hs : Sound D val ops) {c : Cache m n E} (hok : CacheOk D val fs c) {t : Term m n}
    (h : termZero ops c t = true) : termVal D val fs t = 0 := by
  obtain ⟨j, _, hj⟩ := List.any_eq_true.1 h
  cases hcj : c j (t j) with
  | none => simp [hcj] at hj
  | some e =>
    simp only [hcj] at hj
    have := hs.zeroS e hj
    rw [hok.1 _ _ _ hcj] at this
    exact Finset.prod_eq_zero (Finset.mem_univ j) this

/-- Value of coefficients against terms. -/
def zipVal (D : Fin n → Derivation ℤ A A) (val : E → A) (fs : Fin m → E) (cs : List Int) (fl : List (Term m n)) : A :=
  ∑ k ∈ Finset.range fl.length, (cs.getD k 0 : A) * termVal D val fs (fl.getD k (fun _ _ => 0))

theorem getD_set (l : List Int) (i k : Nat) (v : Int) (h : i < l.length) :
    (l.set i v).getD k 0 = if k = i then v else l.getD k 0 := by
  simp only [List.getD_eq_getElem?_getD, List.getElem?_set]
  by_cases hk : i = k
  · subst hk; simp [h]
  · simp [hk, Ne.symm hk]

theorem zipVal_set_zero (cs : List Int) (fl : List (Term m n)) (i : Nat) (hi : i < cs.length)
    (hz : termVal D val fs (fl.getD i (fun _ _ => 0)) = 0) :
    zipVal D val fs (cs.set i 0) fl = zipVal D val fs cs fl := by
  unfold zipVal
  apply Finset.sum_congr rfl
  intro k _
  rw [getD_set _ _ _ _ hi]
  by_cases hk : k = i
  · subst hk; rw [hz]; simp
  · rw [if_neg hk]

theorem simpStep_ok (hs : Sound D val ops) {c : Cache m n E} (hok : CacheOk D val fs c)
    (fl : List (Term m n)) (cs : List Int) (hl : cs.length = fl.length) (i : Nat) (hi : 1 ≤ i) (hi2 : i < fl.length) :
    (simpStep ops c fl cs i).length = cs.length ∧
    zipVal D val fs (simpStep ops c fl cs i) fl = zipVal D val fs cs fl := by
  unfold simpStep
  split
  · exact ⟨rfl, rfl⟩
  · have key : ∀ cs1 : List Int, cs1 = (if fl.getD (i - 1) (fun _ _ => 0) = fl.getD i (fun _ _ => 0) then
        (cs.set i (cs.getD i 0 + cs.getD (i - 1) 0)).set (i - 1) 0 else cs) →
        cs1.length = cs.length ∧ zipVal D val fs cs1 fl = zipVal D val fs cs fl := by
      intro cs1 h1
      split at h1
      · rename_i he
        subst h1
        refine ⟨by simp, ?_⟩
        unfold zipVal
        have : ∀ k, ((((cs.set i (cs.getD i 0 + cs.getD (i - 1) 0)).set (i - 1) 0).getD k 0 : Int) : A)
            * termVal D val fs (fl.getD k (fun _ _ => 0))
          = (cs.getD k 0 : A) * termVal D val fs (fl.getD k (fun _ _ => 0))
            + ((if k = i then (cs.getD (i-1) 0 : A) * termVal D val fs (fl.getD i (fun _ _ => 0)) else 0)
            - (if k = i - 1 then (cs.getD (i-1) 0 : A) * termVal D val fs (fl.getD i (fun _ _ => 0)) else 0)) := by
          intro k
          rw [getD_set _ _ _ _ (by simp; omega), getD_set _ _ _ _ (by omega)]
          by_cases h1 : k = i - 1
          · have : k ≠ i := by omega
            subst h1
            rw [if_pos rfl, if_neg this, if_pos rfl, he]; simp
          · by_cases h2 : k = i
            · subst h2; simp [h1, add_mul]
            · simp [h1, h2]
        rw [Finset.sum_congr rfl (fun k _ => this k), Finset.sum_add_distrib, Finset.sum_sub_distrib,
          Finset.sum_ite_eq', Finset.sum_ite_eq']
        have : i - 1 < fl.length := by omega
        simp [hi2, this]
      · subst h1; exact ⟨rfl, rfl⟩
    obtain ⟨k1, k2⟩ := key _ rfl
    simp only
    generalize (if fl.getD (i - 1) (fun _ _ => 0) = fl.getD i (fun _ _ => 0) then
        (cs.set i (cs.getD i 0 + cs.getD (i - 1) 0)).set (i - 1) 0 else cs) = cs1 at k1 k2 ⊢
    split
    · rename_i hz
      refine ⟨by simp [k1], ?_⟩
      rw [zipVal_set_zero _ _ _ (by omega) (termZero_val hs hok hz), k2]
    · exact ⟨k1, k2⟩

theorem simpLoop_ok (hs : Sound D val ops) {c : Cache m n E} (hok : CacheOk D val fs c)
    (fl : List (Term m n)) (is : List Nat) (his : ∀ i ∈ is, 1 ≤ i ∧ i < fl.length) (cs : List Int) (hl : cs.length = fl.length) :
    (is.foldl (simpStep ops c fl) cs).length = cs.length ∧
    zipVal D val fs (is.foldl (simpStep ops c fl) cs) fl = zipVal D val fs cs fl := by
  induction is generalizing cs with
  | nil => exact ⟨rfl, rfl⟩
  | cons i is ih =>
    obtain ⟨h1, h2⟩ := simpStep_ok hs hok fl cs hl i (his i (by simp)).1 (his i (by simp)).2
    obtain ⟨h3, h4⟩ := ih (fun i hi => his i (by simp [hi])) _ (h1.trans hl)
    exact ⟨h3.trans h1, h4.trans h2⟩

theorem zipVal_eq (cs : List Int) (fl : List (Term m n)) (h : cs.length = fl.length) :
    zipVal D val fs cs fl = objVal D val fs (cs.zip fl) := by
  unfold zipVal objVal
  induction fl generalizing cs with
  | nil => simp
  | cons t fl ih =>
    cases cs with
    | nil => simp at h
    | cons a cs =>
      have := ih cs (by simpa using h)
      simp only [List.length_cons, List.zip_cons_cons, List.map_cons, List.sum_cons]
      rw [Finset.sum_range_succ', ← this]
      simp [add_comm]

theorem objVal_filter (o : Obj m n) :
    objVal D val fs (o.filter (fun t => !decide (t.1 = 0))) = objVal D val fs o := by
  unfold objVal
  induction o with
  | nil => rfl
  | cons t o ih =>
    rw [List.filter_cons]
    split
    · simp [ih]
    · rename_i h
      have : t.1 = 0 := by simpa using h
      rw [ih]; simp [this]

theorem sorted_perm (o : Obj m n) : (takeIdx o (argsortND (o.map (fun t => termKey t.2)))).Perm o := by
  have : argsortND (o.map (fun t => termKey t.2)) = argsort2D (o.map (fun t => (termKey t.2).flatten)) := by
    unfold argsortND; rw [List.map_map]; rfl
  rw [this, takeIdx_argsort2D_map o (fun t => (termKey t.2).flatten)]
  exact List.mergeSort_perm _ _

theorem zip_maps' {α β : Type} (l : List (α × β)) : (l.map (·.1)).zip (l.map (·.2)) = l := by
  induction l with
  | nil => rfl
  | cons a l ih => simp [ih]

theorem simplify_ok (hs : Sound D val ops) {c : Cache m n E} (hok : CacheOk D val fs c) (o : Obj m n)
    (hcl : ∀ t ∈ o, ∀ j, (c j (t.2 j)).isSome) :
    objVal D val fs (simplify ops c o).1 = objVal D val fs o ∧
    (∀ t ∈ (simplify ops c o).1, ∀ j, (c j (t.2 j)).isSome) ∧
    ((simplify ops c o).2 = true → objVal D val fs o = 0) := by
  set sorted := takeIdx o (argsortND (o.map (fun t => termKey t.2))) with hsd
  have hp : sorted.Perm o := sorted_perm o
  set fl := sorted.map (·.2) with hfl
  set cs0 := sorted.map (·.1) with hcs0
  set cs1 := (if termZero ops c (fl.getD 0 (fun _ _ => 0)) then cs0.set 0 0 else cs0) with hcs1
  have e0 : zipVal D val fs cs0 fl = objVal D val fs o := by
    rw [zipVal_eq _ _ (by simp [hfl, hcs0]), hcs0, hfl, zip_maps']
    unfold objVal; exact (hp.map _).sum_eq
  have l1 : cs1.length = fl.length := by
    rw [hcs1]; split <;> simp [hfl, hcs0]
  have e1 : zipVal D val fs cs1 fl = objVal D val fs o := by
    rw [← e0, hcs1]
    split
    · rename_i hz
      rcases Nat.eq_zero_or_pos cs0.length with h0 | h0
      · rw [List.eq_nil_of_length_eq_zero h0]; rfl
      · exact zipVal_set_zero _ _ _ h0 (termZero_val hs hok hz)
    · rfl
  obtain ⟨l2, e2⟩ := simpLoop_ok (fs := fs) hs hok fl (List.range' 1 (cs1.length - 1)) (by
    intro i hi; rw [List.mem_range'_1] at hi; omega) cs1 l1
  set cs := (List.range' 1 (cs1.length - 1)).foldl (simpStep ops c fl) cs1 with hcs
  set nz := (cs.zip fl).filter (fun t => !decide (t.1 = 0)) with hnz
  have e3 : objVal D val fs nz = objVal D val fs o := by
    rw [hnz, objVal_filter, ← zipVal_eq _ _ (by omega), e2, e1]
  have hms : simplify ops c o = if nz.length = 0 then ([(0, fun _ _ => 0)], true) else (nz, false) := rfl
  rw [hms]
  split
  · rename_i h0
    have hz : objVal D val fs o = 0 := by
      rw [← e3, List.eq_nil_of_length_eq_zero h0]; rfl
    refine ⟨?_, ?_, fun _ => hz⟩
    · rw [hz]; simp [objVal]
    · intro t ht j; simp at ht; subst ht; exact hok.2 j
  · refine ⟨e3, ?_, by simp⟩
    intro t ht j
    have ht' := (List.mem_filter.1 ht).1
    have := (List.of_mem_zip (a := t.1) (b := t.2) ht').2
    obtain ⟨u, hu, he⟩ := List.mem_map.1 this
    rw [← he]; exact hcl u (hp.mem_iff.1 hu) j

/-! ### histories -/

/-- Heap invariant with the ghost words. -/
structure HInv (D : Fin n → Derivation ℤ A A) (val : E → A) (fs : Fin m → E) (h : Heap m n E)
    (ws : List (List (Fin n))) : Prop where
  cache : CacheOk D val fs h.cache
  closed : ∀ o ∈ h.objs, ∀ t ∈ o, ∀ j, (h.cache j (t.2 j)).isSome
  len : h.objs.length = ws.length
  vals : ∀ (i : Nat) (o : Obj m n) (w : List (Fin n)), h.objs[i]? = some o → ws[i]? = some w →
    objVal D val fs o = iterDeriv D w (∏ j, val (fs j))

theorem start_inv (hs : Sound D val ops) : HInv D val fs (start ops fs) [[]] := by
  refine ⟨⟨?_, ?_⟩, ?_, rfl, ?_⟩
  · intro j α e he
    simp only [start, initCache] at he
    split at he
    · rename_i h0
      simp only [Option.some.injEq] at he
      subst he
      rw [hs.simplify, h0, Dm_zero]
    · simp at he
  · intro j; simp [start, initCache]
  · intro o ho t ht j
    simp [start, initObj] at ho
    subst ho; simp at ht; subst ht; simp [start, initCache]
  · intro i o w ho hw
    cases i with
    | succ i => simp [start] at ho
    | zero =>
      simp [start] at ho hw
      subst ho; subst hw
      simp [objVal, initObj, termVal, iterDeriv, Dm_zero]

theorem step_inv (hs : Sound D val ops) (hc : ∀ k l a, D k (D l a) = D l (D k a)) {h : Heap m n E}
    {ws : List (List (Fin n))} (hi : HInv D val fs h ws) (op : Op n) :
    (step ops h op = none ∧ wordStep ws op = none) ∨
    ∃ h' ws', step ops h op = some h' ∧ wordStep ws op = some ws' ∧ HInv D val fs h' ws' := by
  cases op with
  | derive i k =>
    cases ho : h.objs[i]? with
    | none =>
      left
      have : ws[i]? = none := by
        rw [List.getElem?_eq_none_iff] at ho ⊢; rw [← hi.len]; exact ho
      simp [step, wordStep, ho, this]
    | some o =>
      right
      obtain ⟨w, hw⟩ : ∃ w, ws[i]? = some w := by
        have hlt : i < h.objs.length := (List.getElem?_eq_some_iff.1 ho).1
        exact ⟨ws[i]'(by rw [← hi.len]; exact hlt), List.getElem?_eq_getElem _⟩
      have hmem : o ∈ h.objs := List.mem_of_getElem? ho
      obtain ⟨r, r1, r2, r3, r4, r5⟩ := derive_ok hs hc k o h.cache hi.cache (hi.closed o hmem)
      refine ⟨⟨r.1, h.objs ++ [r.2]⟩, ws ++ [k :: w], ?_, ?_, ?_⟩
      · simp [step, ho, r1]
      · simp [wordStep, hw]
      · refine ⟨r2, ?_, by simp [hi.len], ?_⟩
        · intro o' ho' t ht j
          rcases List.mem_append.1 ho' with hh | hh
          · exact r3 _ _ (hi.closed o' hh t ht j)
          · simp at hh; subst hh; exact r4 t ht j
        · intro i' o' w' ho' hw'
          rcases Nat.lt_or_ge i' h.objs.length with hl | hl
          · rw [List.getElem?_append_left hl] at ho'
            rw [List.getElem?_append_left (by rw [← hi.len]; exact hl)] at hw'
            exact hi.vals i' o' w' ho' hw'
          · rw [List.getElem?_append_right hl] at ho'
            rw [List.getElem?_append_right (by rw [← hi.len]; exact hl), ← hi.len] at hw'
            cases hd : i' - h.objs.length with
            | succ d => rw [hd] at ho'; simp at ho'
            | zero =>
              rw [hd] at ho' hw'
              simp at ho' hw'
              subst ho'; subst hw'
              rw [r5, hi.vals i o w ho hw]; rfl
  | simplify i =>
    cases ho : h.objs[i]? with
    | none =>
      left
      have : ws[i]? = none := by
        rw [List.getElem?_eq_none_iff] at ho ⊢; rw [← hi.len]; exact ho
      simp [step, wordStep, ho, this]
    | some o =>
      right
      obtain ⟨w, hw⟩ : ∃ w, ws[i]? = some w := by
        have hlt : i < h.objs.length := (List.getElem?_eq_some_iff.1 ho).1
        exact ⟨ws[i]'(by rw [← hi.len]; exact hlt), List.getElem?_eq_getElem _⟩
      have hmem : o ∈ h.objs := List.mem_of_getElem? ho
      obtain ⟨s1, s2, _⟩ := simplify_ok (fs := fs) hs hi.cache o (hi.closed o hmem)
      refine ⟨{ h with objs := h.objs.set i (simplify ops h.cache o).1 }, ws, by simp [step, ho], by simp [wordStep, hw], ⟨hi.cache, ?_, by simp [hi.len], ?_⟩⟩
      · intro o' ho' t ht j
        rcases List.mem_or_eq_of_mem_set ho' with hh | hh
        · exact hi.closed o' hh t ht j
        · subst hh; exact s2 t ht j
      · intro i' o' w' ho' hw'
        simp only at ho'
        rw [List.getElem?_set] at ho'
        by_cases hii : i = i'
        · subst hii
          have hlt : i < h.objs.length := (List.getElem?_eq_some_iff.1 ho).1
          simp [hlt] at ho'
          subst ho'
          rw [s1]; exact hi.vals i o w' ho hw'
        · simp [hii] at ho'
          exact hi.vals i' o' w' ho' hw'

theorem run_inv (hs : Sound D val ops) (hc : ∀ k l a, D k (D l a) = D l (D k a)) (hist : List (Op n))
    {h : Heap m n E} {ws : List (List (Fin n))} (hi : HInv D val fs h ws) :
    (run ops h hist = none ∧ wordRun ws hist = none) ∨
    ∃ h' ws', run ops h hist = some h' ∧ wordRun ws hist = some ws' ∧ HInv D val fs h' ws' := by
  induction hist generalizing h ws with
  | nil => exact Or.inr ⟨h, ws, rfl, rfl, hi⟩
  | cons op rest ih =>
    rcases step_inv hs hc hi op with ⟨h1, h2⟩ | ⟨h', ws', h1, h2, h3⟩
    · left; simp [run, wordRun, h1, h2]
    · rcases ih h3 with ⟨i1, i2⟩ | ⟨h'', ws'', i1, i2, i3⟩
      · left; simp [run, wordRun, h1, h2, i1, i2]
      · right; exact ⟨h'', ws'', by simp [run, h1, i1], by simp [wordRun, h2, i2], i3⟩

theorem mapM_cache {c : Cache m n E} (t : Term m n) (hcl : ∀ j, (c j (t j)).isSome)
    (hok : CacheOk D val fs c) {E' B : Type} [CommRing B] (rep : E → E') (val' : E' → B) (ρ : A →+* B)
    (hρ : ∀ e, val' (rep e) = ρ (val e)) (l : List (Fin m)) :
    ∃ es, l.mapM (fun j => (c j (t j)).map rep) = some es ∧
      (es.map val').prod = ρ ((l.map (fun j => Dm D (t j) (val (fs j)))).prod) := by
  induction l with
  | nil => exact ⟨[], rfl, by simp⟩
  | cons j l ih =>
    obtain ⟨es, h1, h2⟩ := ih
    obtain ⟨e, he⟩ := Option.isSome_iff_exists.1 (hcl j)
    refine ⟨rep e :: es, ?_, ?_⟩
    · rw [List.mapM_cons, he, h1]; rfl
    · simp [h2, hρ, hok.1 _ _ _ he]

theorem mapM_obj {c : Cache m n E} (o : Obj m n) (hcl : ∀ t ∈ o, ∀ j, (c j (t.2 j)).isSome)
    (hok : CacheOk D val fs c) {E' B : Type} [CommRing B] (rep : E → E') (val' : E' → B) (ρ : A →+* B)
    (hρ : ∀ e, val' (rep e) = ρ (val e)) :
    ∃ L, replace rep c o = some L ∧
      (L.map (fun t => (t.1 : B) * (t.2.map val').prod)).sum = ρ (objVal D val fs o) := by
  induction o with
  | nil => exact ⟨[], rfl, by simp [objVal]⟩
  | cons t o ih =>
    obtain ⟨L, h1, h2⟩ := ih (fun t ht => hcl t (by simp [ht]))
    obtain ⟨es, e1, e2⟩ := mapM_cache t.2 (hcl t (by simp)) hok rep val' ρ hρ (List.finRange m)
    refine ⟨(t.1, es) :: L, ?_, ?_⟩
    · unfold replace at h1 ⊢
      rw [List.mapM_cons, e1]
      simp only [Option.bind_eq_bind, Option.bind_some] at h1 ⊢
      rw [h1]; rfl
    · simp only [List.map_cons, List.sum_cons, h2, e2, objVal, map_add, map_mul, map_intCast]
      unfold termVal
      rw [← List.prod_ofFn, List.ofFn_eq_map]

theorem toSum_eq_replace (c : Cache m n E) (o : Obj m n) : toSum c o = replace id c o := by
  unfold toSum replace; simp

end PRule
end SecDec
