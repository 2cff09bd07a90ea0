import Verif.Proof.PolyCanon
import Verif.Spec.Expr
set_option linter.unusedSectionVars false
namespace SecDec
namespace Expr
variable {n : Nat} {F : Type} [CommRing F] [DecidableEq F]
variable {M : Mode n F} {φ : F →+* ℂ} {U : Set (Fin n → ℂ)}

/-- No two terms share a row. -/
def Distinct (ts : Terms n F) : Prop := ts.Pairwise (fun a b => a.1 ≠ b.1)

/-- The conditions of a `Mode` are compatible with the operations. -/
class Mode.Laws (M : Mode n F) : Prop where
  ones : ∀ ts, M.clean ts → NotOnes ts
  distinct : ∀ ts, Distinct ts → ts ≠ [] → M.clean ts
  cleanBase : ∀ ts e, M.clean ts → M.base ts e
  subBase : ∀ fuel ts e, M.expo e → M.base ts e → M.base ts (subOne fuel e)
  logBase : ∀ ts e, M.expo e → M.base ts e → M.base ts (.num (-1))
  one : ∀ fuel e ts, M.expo e → M.base ts e →
    (if e.isNum then some e else (simplify fuel e).map unwrapExponent) = some (.num 1) → M.clean ts
  num : M.expo (.num (-1))
  const : M.expo (const (-1))
  sub : ∀ fuel e, M.expo e → M.expo (subOne fuel e)
  simp : ∀ fuel e s, M.expo e → simplify fuel e = some s → M.expo s
  unwrap : ∀ fuel e s, M.expo e → simplify fuel e = some s → M.expo (unwrapExponent s)
  good : ∀ (_ : F →+* ℂ) fuel e s, M.expo e → simplify fuel e = some s → (∀ ts, s = .poly ts → M.clean ts) →
    ∀ ts, s = .poly ts → Good ts
  numc : ∀ c, M.coef (.num c)
  caddc : ∀ add a b, M.coef a → M.coef b → M.coef (caddWith add a b)
  caddb : ∀ a b, M.coef a → M.coef b → M.coef (caddBase a b)
  cmulc : ∀ fuel a k, M.coef a → M.coef (cmul fuel a k)
  mulc : ∀ fuel a b, M.coef a → M.coef b → M.coef (mulExpr fuel a b)
  simpc : ∀ fuel a s, M.coef a → a.isNum = false → simplify fuel a = some s → M.coef (unwrapCoeff s)
  derivec : ∀ fuel a d i, M.coef a → a.isNum = false → derive fuel a i = some d → M.coef d

variable [M.Laws]

theorem eval_num (φ : F →+* ℂ) (x : Fin n → ℂ) (c : F) : eval φ x (.num c) = φ c := by rw [eval]
theorem eval_poly (φ : F →+* ℂ) (x : Fin n → ℂ) (ts : Terms n F) :
    eval φ x (.poly ts) = (ts.map (fun t => eval φ x t.2 * Poly.mono x t.1)).sum := by rw [eval]
theorem eval_epoly (φ : F →+* ℂ) (x : Fin n → ℂ) (ts : Terms n F) (e : Expr n F) :
    eval φ x (.epoly ts e) = eval φ x (.poly ts) ^ eval φ x e := by rw [eval_poly, eval]
theorem eval_lpoly (φ : F →+* ℂ) (x : Fin n → ℂ) (ts : Terms n F) :
    eval φ x (.lpoly ts) = Complex.log (eval φ x (.poly ts)) := by rw [eval_poly, eval]
theorem eval_sum (φ : F →+* ℂ) (x : Fin n → ℂ) (l : List (Expr n F)) :
    eval φ x (.sum l) = (l.map (eval φ x)).sum := by rw [eval]
theorem eval_prod (φ : F →+* ℂ) (x : Fin n → ℂ) (l : List (Expr n F)) :
    eval φ x (.prod l) = (l.map (eval φ x)).prod := by rw [eval]
theorem eval_prule (φ : F →+* ℂ) (x : Fin n → ℂ) (l : List (Int × List (Expr n F))) :
    eval φ x (.prule l) = (l.map (fun t => (t.1 : ℂ) * (t.2.map (eval φ x)).prod)).sum := by rw [eval]
theorem eval_pow (φ : F →+* ℂ) (x : Fin n → ℂ) (b e : Expr n F) :
    eval φ x (.pow b e) = eval φ x b ^ eval φ x e := by rw [eval]
theorem eval_log (φ : F →+* ℂ) (x : Fin n → ℂ) (a : Expr n F) :
    eval φ x (.log a) = Complex.log (eval φ x a) := by rw [eval]
theorem eval_exp (φ : F →+* ℂ) (x : Fin n → ℂ) (a : Expr n F) :
    eval φ x (.exp a) = Complex.exp (eval φ x a) := by rw [eval]

theorem isNumZero_iff (e : Expr n F) : e.isNumZero = true ↔ e = .num 0 := by
  cases e <;> simp [isNumZero]

theorem isNumOne_iff (e : Expr n F) : e.isNumOne = true ↔ e = .num 1 := by
  cases e <;> simp [isNumOne]

/-- `add` is a correct addition of coefficients. -/
def AddOk (M : Mode n F) (φ : F →+* ℂ) (U : Set (Fin n → ℂ)) (add : Expr n F → Expr n F → Expr n F) : Prop :=
  ∀ a b, Adm M φ U a → Adm M φ U b → (Adm M φ U (add a b) ∧
    ∀ x ∈ U, eval φ x (add a b) = eval φ x a + eval φ x b) ∧
    (M.coef a → M.coef b → M.coef (add a b))

/-- Loop invariant. -/
structure EInv (M : Mode n F) (φ : F →+* ℂ) (U : Set (Fin n → ℂ)) (ex : List (Expo n)) (cs0 : List (Expr n F))
    (i : Nat) (s : MState n F) : Prop where
  len : s.coeffs.length = cs0.length
  d1 : 1 ≤ s.dist
  di : s.dist ≤ i
  adm : ∀ k, Adm M φ U (s.coeffs.getD k (.num 0)) ∧ M.coef (s.coeffs.getD k (.num 0))
  sum : ∀ x ∈ U, ∑ k ∈ Finset.range cs0.length, eval φ x (s.coeffs.getD k (.num 0)) * Poly.mono x (ex.getD k 0)
      = ∑ k ∈ Finset.range cs0.length, eval φ x (cs0.getD k (.num 0)) * Poly.mono x (ex.getD k 0)
  prev : ∀ a, a < i - s.dist → ex.getD a 0 = ex.getD (i - s.dist) 0 → s.coeffs.getD a (.num 0) = .num 0
  gap : ∀ a, i - s.dist < a → a < i → s.coeffs.getD a (.num 0) = .num 0
  uniq : ∀ a b, a < b → b ≤ i - s.dist → ex.getD a 0 = ex.getD b 0 →
    s.coeffs.getD a (.num 0) = .num 0 ∨ s.coeffs.getD b (.num 0) = .num 0

theorem getD_set_eq' (l : List (Expr n F)) (i k : Nat) (v : Expr n F) (h : i < l.length) :
    (l.set i v).getD k (.num 0) = if k = i then v else l.getD k (.num 0) := by
  simp only [List.getD_eq_getElem?_getD, List.getElem?_set]
  by_cases hk : i = k
  · subst hk; simp [h]
  · simp [hk, Ne.symm hk]

theorem mstep_inv {add : Expr n F → Expr n F → Expr n F} (hadd : AddOk M φ U add) (ex : List (Expo n))
    (cs0 : List (Expr n F)) (hsorted : ∀ a b, a ≤ b → b < cs0.length →
      rowLe (List.ofFn (ex.getD a 0)) (List.ofFn (ex.getD b 0)) = true)
    (i : Nat) (hi : i < cs0.length) (s : MState n F) (h : EInv M φ U ex cs0 i s) :
    EInv M φ U ex cs0 (i+1) (mstep add ex s i) := by
  obtain ⟨len, d1, di, adm, sum, prev, gap, uniq⟩ := h
  set j := i - s.dist with hj
  have hji : j < i := by omega
  have sandwich : ∀ a, a ≤ j → ex.getD a 0 = ex.getD i 0 → ex.getD j 0 = ex.getD i 0 := by
    intro a haj hae
    apply Poly.key_inj
    apply rowLe_antisymm
    · exact hsorted j i (by omega) hi
    · rw [← hae]; exact hsorted a j haj (by omega)
  unfold mstep
  split
  · rename_i hz
    rw [isNumZero_iff] at hz
    have e : i + 1 - (s.dist + 1) = j := by omega
    refine ⟨len, by simp, by simp; omega, adm, sum, ?_, ?_, ?_⟩
    · simpa [e] using prev
    · intro a h1 h2
      simp only [e] at h1
      rcases Nat.lt_or_ge a i with h3 | h3
      · exact gap a h1 h3
      · have : a = i := by omega
        subst this; exact hz
    · simpa [e] using uniq
  · rename_i hnz
    have ex0 : (fun _ => 0 : Expo n) = 0 := rfl
    simp only [ex0, ← hj]
    split
    · rename_i hmatch
      obtain ⟨⟨hA, hV⟩, hC⟩ := hadd _ _ (adm i).1 (adm j).1
      replace hC := hC (adm i).2 (adm j).2
      set w := add (s.coeffs.getD i (.num 0)) (s.coeffs.getD j (.num 0)) with hw
      have g : ∀ k, ((s.coeffs.set i w).set j (.num 0)).getD k (.num 0)
          = if k = j then .num 0 else if k = i then w
            else s.coeffs.getD k (.num 0) := by
        intro k
        rw [getD_set_eq' _ _ _ _ (by simp; omega), getD_set_eq' _ _ _ _ (by omega)]
      refine ⟨by simp [len], by simp, by simp, ?_, ?_, ?_, ?_, ?_⟩
      · intro k
        simp only [g]
        split
        · exact ⟨Adm.num 0, Mode.Laws.numc 0⟩
        · split
          · exact ⟨hA, hC⟩
          · exact adm k
      · intro x hx
        rw [← sum x hx]
        have : ∀ k, eval φ x (((s.coeffs.set i w).set j (.num 0)).getD k (.num 0)) * Poly.mono x (ex.getD k 0)
          = eval φ x (s.coeffs.getD k (.num 0)) * Poly.mono x (ex.getD k 0) +
            ((if k = i then eval φ x (s.coeffs.getD j (.num 0)) * Poly.mono x (ex.getD i 0) else 0)
              - (if k = j then eval φ x (s.coeffs.getD j (.num 0)) * Poly.mono x (ex.getD i 0) else 0)) := by
          intro k
          rw [g k]
          by_cases h1 : k = j
          · have : k ≠ i := by omega
            subst h1
            rw [if_pos rfl, if_neg this, if_pos rfl, hmatch]; simp [eval_num]
          · by_cases h2 : k = i
            · subst h2; simp [h1, hV x hx, add_mul]
            · simp [h1, h2]
        simp only []
        rw [Finset.sum_congr rfl (fun k _ => this k), Finset.sum_add_distrib, Finset.sum_sub_distrib]
        rw [Finset.sum_ite_eq', Finset.sum_ite_eq']
        have hjl : j < cs0.length := by omega
        simp [hi, hjl]
      · intro a ha hae
        simp only [Nat.add_sub_cancel] at ha hae ⊢
        rw [g]
        by_cases h1 : a = j
        · simp [h1]
        · rw [if_neg h1, if_neg (by omega)]
          rcases Nat.lt_or_ge a j with h3 | h3
          · exact prev a h3 (by rw [hae, hmatch])
          · exact gap a (by omega) ha
      · intro a h1 h2; simp only [Nat.add_sub_cancel] at h1; omega
      · intro a b hab hb hae
        simp only [Nat.add_sub_cancel] at hb ⊢
        rw [g, g]
        by_cases h1 : a = j
        · simp [h1]
        · by_cases h2 : b = j
          · simp [h2]
          · rw [if_neg h1, if_neg h2, if_neg (show a ≠ i by omega)]
            by_cases h3 : b = i
            · left
              rcases Nat.lt_or_ge a j with h4 | h4
              · exact prev a h4 (by rw [hae, h3, hmatch])
              · exact gap a (by omega) (by omega)
            · rw [if_neg h3]
              rcases Nat.lt_or_ge j b with h4 | h4
              · right; exact gap b h4 (by omega)
              · exact uniq a b hab h4 hae
    · rename_i hno
      refine ⟨len, by simp, by simp, adm, sum, ?_, ?_, ?_⟩
      · intro a ha hae
        simp only [Nat.add_sub_cancel] at ha hae
        rcases Nat.lt_or_ge j a with h3 | h3
        · exact gap a h3 ha
        · exact absurd (sandwich a h3 hae) hno
      · intro a h1 h2; simp only [Nat.add_sub_cancel] at h1; omega
      · intro a b hab hb hae
        simp only [Nat.add_sub_cancel] at hb
        by_cases h3 : b = i
        · subst h3; left
          rcases Nat.lt_or_ge j a with h3 | h3
          · exact gap a h3 hab
          · exact absurd (sandwich a h3 hae) hno
        · rcases Nat.lt_or_ge j b with h4 | h4
          · right; exact gap b h4 (by omega)
          · exact uniq a b hab h4 hae

theorem mloop_inv {add : Expr n F → Expr n F → Expr n F} (hadd : AddOk M φ U add) (ex : List (Expo n))
    (cs0 : List (Expr n F)) (hadm : ∀ c ∈ cs0, Adm M φ U c ∧ M.coef c) (hsorted : ∀ a b, a ≤ b → b < cs0.length →
      rowLe (List.ofFn (ex.getD a 0)) (List.ofFn (ex.getD b 0)) = true)
    (k : Nat) (hk : k + 1 ≤ cs0.length) :
    EInv M φ U ex cs0 (k+1) ((List.range' 1 k).foldl (mstep add ex) { coeffs := cs0, dist := 1 }) := by
  induction k with
  | zero =>
    refine ⟨rfl, by simp, by simp, ?_, fun _ _ => rfl, ?_, ?_, ?_⟩
    · intro k
      rcases Nat.lt_or_ge k cs0.length with h | h
      · rw [List.getD_eq_getElem _ _ (by simpa using h)]
        exact hadm _ (List.getElem_mem _)
      · rw [List.getD_eq_default _ _ (by simpa using h)]
        exact ⟨Adm.num 0, Mode.Laws.numc 0⟩
    all_goals intros; simp at *; try omega
  | succ k ih =>
    rw [List.range'_concat, List.foldl_append]
    have := mstep_inv hadd ex cs0 hsorted (k+1) (by omega) _ (ih (by omega))
    simpa [Nat.add_comm] using this

/-- Value of a term list. -/
noncomputable def tsum (φ : F →+* ℂ) (x : Fin n → ℂ) (ts : Terms n F) : ℂ :=
  (ts.map (fun t => eval φ x t.2 * Poly.mono x t.1)).sum

theorem tsum_zip (x : Fin n → ℂ) (ex : List (Expo n)) (cs : List (Expr n F))
    (h : ex.length = cs.length) :
    tsum φ x (ex.zip cs) = ∑ k ∈ Finset.range cs.length, eval φ x (cs.getD k (.num 0)) * Poly.mono x (ex.getD k 0) := by
  induction ex generalizing cs with
  | nil =>
    cases cs with
    | nil => simp [tsum]
    | cons c cs => simp at h
  | cons e ex ih =>
    cases cs with
    | nil => simp at h
    | cons c cs =>
      have := ih cs (by simpa using h)
      simp only [tsum, List.zip_cons_cons, List.map_cons, List.sum_cons, List.length_cons] at *
      rw [Finset.sum_range_succ', this]
      simp [add_comm]

theorem tsum_filter (x : Fin n → ℂ) (l : Terms n F) :
    tsum φ x (l.filter (fun t => !t.2.isNumZero)) = tsum φ x l := by
  induction l with
  | nil => rfl
  | cons t l ih =>
    simp only [tsum, List.filter_cons, List.map_cons, List.sum_cons] at *
    split
    · rw [List.map_cons, List.sum_cons, ih]
    · rename_i h
      have : t.2 = .num 0 := by
        rw [← isNumZero_iff]; simpa using h
      rw [this, ih]; simp [eval_num]

/-- Terms of an admissible polynomial. -/
def AdmT (M : Mode n F) (φ : F →+* ℂ) (U : Set (Fin n → ℂ)) (ts : Terms n F) : Prop :=
  (∀ t ∈ ts, ∀ x ∈ U, DefinedAt x t.1) ∧ (∀ t ∈ ts, Adm M φ U t.2 ∧ M.coef t.2)

theorem adm_poly_iff (ts : Terms n F) : Adm M φ U (.poly ts) ↔ AdmT M φ U ts := by
  constructor
  · intro h; cases h with
    | poly _ h1 h2 h3 => exact ⟨h1, fun t ht => ⟨h2 t ht, h3 t ht⟩⟩
  · rintro ⟨h1, h2⟩; exact Adm.poly _ h1 (fun t ht => (h2 t ht).1) (fun t ht => (h2 t ht).2)

def Sorted (ts : Terms n F) : Prop :=
  ts.Pairwise (fun a b => rowLe (List.ofFn a.1) (List.ofFn b.1) = true)

theorem sorted_idx {ts : Terms n F} (hs : Sorted ts) (a b : Nat) (hab : a ≤ b) (hb : b < ts.length) :
    rowLe (List.ofFn ((ts.map (·.1)).getD a 0)) (List.ofFn ((ts.map (·.1)).getD b 0)) = true := by
  rcases Nat.lt_or_ge a b with h | h
  · have := List.pairwise_iff_getElem.1 hs a b (by omega) hb h
    rw [List.getD_eq_getElem _ _ (by simp; omega), List.getD_eq_getElem _ _ (by simpa using hb)]
    simpa using this
  · have : a = b := by omega
    subst this; exact rowLe_refl _

theorem zip_maps {α β : Type} (l : List (α × β)) : (l.map (·.1)).zip (l.map (·.2)) = l := by
  induction l with
  | nil => rfl
  | cons a l ih => simp [ih]

theorem good_of_distinct {ts : Terms n F} (h : Distinct ts) (hne : ts ≠ []) : Good ts := by
  intro h0
  match ts, hne with
  | [t], _ => rfl
  | t :: u :: ts, _ =>
    exfalso
    have := (List.pairwise_cons.1 h).1 u (by simp)
    apply this
    rw [h0 t (by simp), h0 u (by simp)]

theorem mergeSorted_spec {add : Expr n F → Expr n F → Expr n F} (hadd : AddOk M φ U add) (ts : Terms n F)
    (hA : AdmT M φ U ts) (hs : Sorted ts) :
    AdmT M φ U (mergeSorted add ts) ∧ (∀ x ∈ U, tsum φ x (mergeSorted add ts) = tsum φ x ts) ∧
    Distinct (mergeSorted add ts) ∧ mergeSorted add ts ≠ [] := by
  rcases Nat.eq_zero_or_pos ts.length with h0 | hpos
  · have : ts = [] := List.eq_nil_of_length_eq_zero h0
    subst this
    simp only [mergeSorted, AdmT, Distinct, tsum, List.map_nil, List.zip_nil_left, List.filter_nil, List.length_nil, if_true]
    simp [DefinedAt, eval_num, Adm.num, Mode.Laws.numc (M := M)]
  · have h := mloop_inv (M := M) (φ := φ) (U := U) hadd (ts.map (·.1)) (ts.map (·.2)) (by
      intro c hc; obtain ⟨t, ht, rfl⟩ := List.mem_map.1 hc; exact hA.2 t ht)
      (by intro a b hab hb; exact sorted_idx hs a b hab (by simpa using hb)) (ts.length - 1) (by simp; omega)
    rw [show (ts.length - 1 + 1) = ts.length by omega] at h
    obtain ⟨len, d1, di, adm, sum, prev, gap, uniq⟩ := h
    set st := (List.range' 1 (ts.length - 1)).foldl (mstep add (ts.map (·.1))) { coeffs := ts.map (·.2), dist := 1 } with hst
    have huniq : ∀ a b, a < b → b < ts.length → (ts.map (·.1)).getD a 0 = (ts.map (·.1)).getD b 0 →
        st.coeffs.getD a (.num 0) = .num 0 ∨ st.coeffs.getD b (.num 0) = .num 0 := by
      intro a b hab hb hae
      rcases Nat.lt_or_ge (ts.length - st.dist) b with h | h
      · right; exact gap b h hb
      · exact uniq a b hab h hae
    set nz := ((ts.map (·.1)).zip st.coeffs).filter (fun t => !t.2.isNumZero) with hnz
    have hmem : ∀ t ∈ nz, (∃ u ∈ ts, u.1 = t.1) ∧ Adm M φ U t.2 ∧ M.coef t.2 := by
      intro t ht
      have ht' := (List.mem_filter.1 ht).1
      constructor
      · have := (List.of_mem_zip (a := t.1) (b := t.2) ht').1
        obtain ⟨u, hu, he⟩ := List.mem_map.1 this
        exact ⟨u, hu, he⟩
      · have := (List.of_mem_zip (a := t.1) (b := t.2) ht').2
        obtain ⟨k, hk, he⟩ := List.mem_iff_getElem.1 this
        rw [← he, ← List.getD_eq_getElem _ (.num 0) hk]
        exact adm k
    have hAnz : AdmT M φ U nz := by
      constructor
      · intro t ht x hx
        obtain ⟨u, hu, he⟩ := (hmem t ht).1
        rw [← he]; exact hA.1 u hu x hx
      · intro t ht; exact (hmem t ht).2
    have hsum : ∀ x ∈ U, tsum φ x nz = tsum φ x ts := by
      intro x hx
      rw [hnz, tsum_filter, tsum_zip _ _ _ (by rw [len]; simp), len, sum x hx]
      have := tsum_zip (φ := φ) x (ts.map (·.1)) (ts.map (·.2)) (by simp)
      rw [← this, zip_maps]
    have hdist : Distinct nz := by
      rw [hnz, Distinct, List.pairwise_filter, List.pairwise_iff_getElem]
      intro i j hi hj hij ha hb
      simp only [List.getElem_zip] at ha hb ⊢
      have hlen : j < ts.length := by
        simp [List.length_zip] at hj; omega
      intro he
      have hl : st.coeffs.length = ts.length := by rw [len]; simp
      have := huniq i j hij hlen (by
        rw [List.getD_eq_getElem _ _ (by simp; omega), List.getD_eq_getElem _ _ (by simpa using hlen)]
        simpa using he)
      rw [List.getD_eq_getElem _ _ (by omega), List.getD_eq_getElem _ _ (by omega)] at this
      rw [← isNumZero_iff, ← isNumZero_iff] at this
      rcases this with h | h
      · simp [h] at ha
      · simp [h] at hb
    have hms : mergeSorted add ts = if nz.length = 0 then [((fun _ => 0), .num 0)] else nz := rfl
    rw [hms]
    split
    · rename_i hl
      have hnil : nz = [] := List.length_eq_zero_iff.1 hl
      refine ⟨?_, ?_, ?_, by simp⟩
      · simp [AdmT, DefinedAt, Adm.num, Mode.Laws.numc (M := M)]
      · intro x hx
        rw [← hsum x hx, hnil]
        simp [tsum, eval_num]
      · simp [Distinct]
    · rename_i hl
      exact ⟨hAnz, hsum, hdist, fun h => hl (by rw [h]; rfl)⟩

theorem sortTerms_eq (ts : Terms n F) :
    sortTerms ts = ts.mergeSort (fun a b => rowLe (List.ofFn a.1) (List.ofFn b.1)) :=
  takeIdx_argsort2D_map ts (fun t => List.ofFn t.1)

theorem sortTerms_perm (ts : Terms n F) : (sortTerms ts).Perm ts := by
  rw [sortTerms_eq]; exact List.mergeSort_perm _ _

theorem sortTerms_sorted (ts : Terms n F) : Sorted (sortTerms ts) := by
  rw [sortTerms_eq]; exact sorted_mergeSort_key ts (fun t => List.ofFn t.1)

theorem AdmT.perm {ts us : Terms n F} (h : AdmT M φ U ts) (hp : us.Perm ts) : AdmT M φ U us :=
  ⟨fun t ht => h.1 t (hp.mem_iff.1 ht), fun t ht => h.2 t (hp.mem_iff.1 ht)⟩

theorem tsum_perm {ts us : Terms n F} (hp : us.Perm ts) (x : Fin n → ℂ) : tsum φ x us = tsum φ x ts :=
  (hp.map _).sum_eq

/-- Sorting and merging keeps the value. -/
theorem merge_sort_spec {add : Expr n F → Expr n F → Expr n F} (hadd : AddOk M φ U add) (ts : Terms n F)
    (hA : AdmT M φ U ts) :
    AdmT M φ U (mergeSorted add (sortTerms ts)) ∧
    (∀ x ∈ U, tsum φ x (mergeSorted add (sortTerms ts)) = tsum φ x ts) ∧
    Good (mergeSorted add (sortTerms ts)) := by
  obtain ⟨h1, h2, h3, h4⟩ := mergeSorted_spec hadd (sortTerms ts) (hA.perm (sortTerms_perm ts)) (sortTerms_sorted ts)
  refine ⟨h1, ?_, good_of_distinct h3 h4⟩
  intro x hx
  rw [h2 x hx, tsum_perm (sortTerms_perm ts)]

end Expr
end SecDec
