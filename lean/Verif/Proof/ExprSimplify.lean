import Verif.Proof.ExprMerge
set_option linter.unusedSectionVars false
namespace SecDec
namespace Expr
variable {n : Nat} {F : Type} [CommRing F] [DecidableEq F]
variable {M : Mode n F} {φ : F →+* ℂ} {U : Set (Fin n → ℂ)} [M.Laws]

theorem mapM_some {α β : Type} {f : α → Option β} {l : List α} {l' : List β}
    (h : l.mapM f = some l') : List.Forall₂ (fun a b => f a = some b) l l' := by
  induction l generalizing l' with
  | nil => simp at h; subst h; exact List.Forall₂.nil
  | cons a l ih =>
    rw [List.mapM_cons] at h
    cases hb : f a with
    | none => simp [hb] at h
    | some b =>
      cases hl : l.mapM f with
      | none => simp [hb, hl] at h
      | some m =>
        simp [hb, hl] at h
        subst h
        exact List.Forall₂.cons hb (ih hl)

theorem forall₂_mem_right {α β : Type} {R : α → β → Prop} {l : List α} {l' : List β}
    (h : List.Forall₂ R l l') {b : β} (hb : b ∈ l') : ∃ a ∈ l, R a b := by
  induction h with
  | nil => simp at hb
  | cons h1 _ ih =>
    rcases List.mem_cons.1 hb with h | h
    · subst h; exact ⟨_, by simp, h1⟩
    · obtain ⟨a, ha, hr⟩ := ih h
      exact ⟨a, by simp [ha], hr⟩

theorem mono_zero (x : Fin n → ℂ) : Poly.mono x (fun _ => 0) = 1 := by simp [Poly.mono]

theorem tsum_cons (x : Fin n → ℂ) (t : Expo n × Expr n F) (ts : Terms n F) :
    tsum φ x (t :: ts) = eval φ x t.2 * Poly.mono x t.1 + tsum φ x ts := by simp [tsum]
theorem tsum_append (x : Fin n → ℂ) (ts us : Terms n F) :
    tsum φ x (ts ++ us) = tsum φ x ts + tsum φ x us := by simp [tsum]
theorem eval_poly' (x : Fin n → ℂ) (ts : Terms n F) : eval φ x (.poly ts) = tsum φ x ts := eval_poly φ x ts

theorem eval_const (x : Fin n → ℂ) (c : F) : eval φ x (const c) = φ c := by
  rw [const, eval_poly]; simp [eval_num, mono_zero]
theorem admT_const (c : F) : AdmT M φ U ([((fun _ => 0), .num c)] : Terms n F) := by
  simp [AdmT, DefinedAt, Adm.num, Mode.Laws.numc (M := M)]
theorem adm_const (c : F) : Adm M φ U (const c : Expr n F) := (adm_poly_iff _).2 (admT_const c)

theorem eval_wrap (x : Fin n → ℂ) (e : Expr n F) : eval φ x (wrap e) = eval φ x e := by
  cases e <;> simp [wrap, eval_const, eval_num]
theorem adm_wrap {e : Expr n F} (h : Adm M φ U e) : Adm M φ U (wrap e) := by
  cases e <;> simp only [wrap] <;> first | exact adm_const _ | exact h

theorem AdmT.append {ts us : Terms n F} (h1 : AdmT M φ U ts) (h2 : AdmT M φ U us) : AdmT M φ U (ts ++ us) := by
  constructor
  · intro t ht; rcases List.mem_append.1 ht with h | h
    · exact h1.1 t h
    · exact h2.1 t h
  · intro t ht; rcases List.mem_append.1 ht with h | h
    · exact h1.2 t h
    · exact h2.2 t h

theorem sum_two {a b : Expr n F} (ha : Adm M φ U a) (hb : Adm M φ U b) :
    Adm M φ U (.sum [wrap a, wrap b]) ∧ ∀ x ∈ U, eval φ x (.sum [wrap a, wrap b]) = eval φ x a + eval φ x b := by
  constructor
  · apply Adm.sum
    intro e he
    simp at he
    rcases he with rfl | rfl
    · exact adm_wrap ha
    · exact adm_wrap hb
  · intro x _; rw [eval_sum]; simp [eval_wrap]

theorem caddWith_ok {add : Expr n F → Expr n F → Expr n F} (ih : AddOk M φ U add) :
    AddOk M φ U (caddWith add) := by
  intro a b ha hb
  refine ⟨?_, fun h1 h2 => Mode.Laws.caddc add a b h1 h2⟩
  have key : ∀ ts : Terms n F, AdmT M φ U ts →
      Adm M φ U (.poly (mergeSorted add (sortTerms ts))) ∧
      ∀ x ∈ U, eval φ x (.poly (mergeSorted add (sortTerms ts))) = tsum φ x ts := by
    intro ts hts
    obtain ⟨h1, h2, _⟩ := merge_sort_spec ih ts hts
    exact ⟨(adm_poly_iff _).2 h1, fun x hx => by rw [eval_poly', h2 x hx]⟩
  unfold caddWith
  split
  · refine ⟨Adm.num _, fun x _ => by simp [eval_num]⟩
  · obtain ⟨h1, h2⟩ := key _ (((adm_poly_iff _).1 ha).append ((adm_poly_iff _).1 hb))
    exact ⟨h1, fun x hx => by rw [h2 x hx, tsum_append, eval_poly', eval_poly']⟩
  · obtain ⟨h1, h2⟩ := key _ ((admT_const _).append ((adm_poly_iff _).1 ha))
    refine ⟨h1, fun x hx => ?_⟩
    have := h2 x hx
    rw [tsum_append, tsum_cons] at this
    simp only [List.cons_append, List.nil_append] at this
    rw [this]
    simp [eval_num, mono_zero, eval_poly', tsum, add_comm]
  · obtain ⟨h1, h2⟩ := key _ ((admT_const _).append ((adm_poly_iff _).1 hb))
    refine ⟨h1, fun x hx => ?_⟩
    have := h2 x hx
    rw [tsum_append, tsum_cons] at this
    simp only [List.cons_append, List.nil_append] at this
    rw [this]
    simp [eval_num, mono_zero, eval_poly', tsum]
  · exact sum_two ha hb

theorem caddBase_ok : AddOk M φ U (caddBase : Expr n F → Expr n F → Expr n F) := by
  intro a b ha hb
  refine ⟨?_, fun h1 h2 => Mode.Laws.caddb a b h1 h2⟩
  unfold caddBase
  split
  · refine ⟨Adm.num _, fun x _ => by simp [eval_num]⟩
  · exact sum_two ha hb

theorem cadd_ok (fuel : Nat) : AddOk M φ U (cadd fuel : Expr n F → Expr n F → Expr n F) := by
  induction fuel with
  | zero => intro a b ha hb; simp only [cadd]; exact caddWith_ok caddBase_ok a b ha hb
  | succ fuel ih => intro a b ha hb; simp only [cadd]; exact caddWith_ok ih a b ha hb

/-- `e'` is admissible and has the value `v` on `U`. -/
def Val (M : Mode n F) (φ : F →+* ℂ) (U : Set (Fin n → ℂ)) (e : Expr n F) (v : (Fin n → ℂ) → ℂ) : Prop :=
  Adm M φ U e ∧ ∀ x ∈ U, eval φ x e = v x

theorem val_prod_const {a : Expr n F} (ha : Adm M φ U a) (k : F) :
    Val M φ U (.prod [a, const k]) (fun x => eval φ x a * φ k) := by
  constructor
  · apply Adm.prod
    intro e he
    simp at he
    rcases he with rfl | rfl
    · exact ha
    · exact adm_const _
  · intro x _; rw [eval_prod]; simp [eval_const]

theorem val_prod2 {a b : Expr n F} (ha : Adm M φ U a) (hb : Adm M φ U b) :
    Val M φ U (.prod [a, b]) (fun x => eval φ x a * eval φ x b) := by
  constructor
  · apply Adm.prod
    intro e he
    simp at he
    rcases he with rfl | rfl
    · exact ha
    · exact hb
  · intro x _; rw [eval_prod]; simp

theorem cmul_ok (fuel : Nat) : ∀ (a : Expr n F) (k : F), Adm M φ U a →
    Val M φ U (cmul fuel a k) (fun x => eval φ x a * φ k) := by
  induction fuel with
  | zero =>
    intro a k ha
    cases a
    case num c => simp only [cmul]; exact ⟨Adm.num _, fun x _ => by simp [eval_num]⟩
    all_goals simp only [cmul]; exact val_prod_const ha k
  | succ fuel ih =>
    intro a k ha
    cases a
    case num c => simp only [cmul]; exact ⟨Adm.num _, fun x _ => by simp [eval_num]⟩
    case poly ts =>
      simp only [cmul]
      split
      · rename_i h; subst h; exact ⟨ha, fun x _ => by simp⟩
      · split
        · rename_i h; subst h; exact ⟨adm_const _, fun x _ => by simp [eval_const]⟩
        · have hA := (adm_poly_iff _).1 ha
          constructor
          · apply Adm.poly
            · intro t ht
              obtain ⟨u, hu, rfl⟩ := List.mem_map.1 ht
              exact hA.1 u hu
            · intro t ht
              obtain ⟨u, hu, rfl⟩ := List.mem_map.1 ht
              exact (ih u.2 k (hA.2 u hu).1).1
            · intro t ht
              obtain ⟨u, hu, rfl⟩ := List.mem_map.1 ht
              exact Mode.Laws.cmulc fuel u.2 k (hA.2 u hu).2
          · intro x hx
            beta_reduce
            rw [eval_poly, eval_poly, List.map_map, ← List.sum_map_mul_right]
            congr 1
            apply List.map_congr_left
            intro u hu
            simp only [Function.comp]
            rw [(ih u.2 k (hA.2 u hu).1).2 x hx]; ring
    all_goals simp only [cmul]; exact val_prod_const ha k

theorem tsum_flatMap_mul (x : Fin n → ℂ) (ts us : Terms n F) (h : Expr n F → Expr n F → Expr n F)
    (hdef1 : ∀ t ∈ ts, DefinedAt x t.1) (hdef2 : ∀ t ∈ us, DefinedAt x t.1)
    (hv : ∀ s ∈ ts, ∀ t ∈ us, eval φ x (h t.2 s.2) = eval φ x t.2 * eval φ x s.2) :
    tsum φ x (ts.flatMap (fun s => us.map (fun t => (t.1 + s.1, h t.2 s.2)))) = tsum φ x ts * tsum φ x us := by
  have mono_add : ∀ a b : Expo n, DefinedAt x a → DefinedAt x b →
      Poly.mono x (a + b) = Poly.mono x a * Poly.mono x b := by
    intro a b ha hb
    unfold Poly.mono
    rw [← Finset.prod_mul_distrib]
    apply Finset.prod_congr rfl
    intro i _
    by_cases hx : x i = 0
    · have h1 := ha i hx
      have h2 := hb i hx
      rw [hx, Pi.add_apply, zero_zpow_eq, zero_zpow_eq, zero_zpow_eq]
      by_cases h3 : a i = 0
      · by_cases h4 : b i = 0
        · simp [h3, h4]
        · simp [h3, h4]
      · have : a i + b i ≠ 0 := by omega
        simp [h3, this]
    · rw [Pi.add_apply, zpow_add₀ hx]
  induction ts with
  | nil => simp [tsum]
  | cons s ts ih =>
    rw [List.flatMap_cons, tsum_append, tsum_cons, ih (fun t ht => hdef1 t (by simp [ht]))
      (fun s hs => hv s (by simp [hs])), add_mul]
    congr 1
    unfold tsum
    rw [List.map_map, ← List.sum_map_mul_left]
    congr 1
    apply List.map_congr_left
    intro t ht
    simp only [Function.comp]
    rw [hv s (by simp) t ht, mono_add _ _ (hdef2 t ht) (hdef1 s (by simp))]; ring

theorem mulExpr_ok (fuel : Nat) : ∀ (a b : Expr n F), Adm M φ U a → Adm M φ U b →
    Val M φ U (mulExpr fuel a b) (fun x => eval φ x a * eval φ x b) := by
  induction fuel with
  | zero =>
    intro a b ha hb
    simp only [mulExpr]
    unfold mulBase
    split
    · exact ⟨Adm.num _, fun x _ => by simp [eval_num]⟩
    · obtain ⟨h1, h2⟩ := val_prod2 (adm_wrap ha) (adm_wrap hb)
      exact ⟨h1, fun x hx => by rw [h2 x hx]; simp only [eval_wrap]⟩
  | succ fuel ih =>
    intro a b ha hb
    unfold mulExpr
    split
    · exact ⟨Adm.num _, fun x _ => by simp [eval_num]⟩
    · obtain ⟨h1, h2⟩ := cmul_ok fuel b _ hb
      exact ⟨h1, fun x hx => by rw [h2 x hx]; simp only [eval_num, mul_comm]⟩
    · obtain ⟨h1, h2⟩ := cmul_ok fuel a _ ha
      exact ⟨h1, fun x hx => by rw [h2 x hx]; simp only [eval_num]⟩
    · rename_i ts us
      have hA := (adm_poly_iff _).1 ha
      have hB := (adm_poly_iff _).1 hb
      have hT : AdmT M φ U (ts.flatMap (fun s => us.map (fun t => (t.1 + s.1, mulExpr fuel t.2 s.2)))) := by
        constructor
        · intro t ht x hx
          obtain ⟨s, hs, ht⟩ := List.mem_flatMap.1 ht
          obtain ⟨u, hu, rfl⟩ := List.mem_map.1 ht
          intro i hi
          have := hA.1 s hs x hx i hi
          have := hB.1 u hu x hx i hi
          simp; omega
        · intro t ht
          obtain ⟨s, hs, ht⟩ := List.mem_flatMap.1 ht
          obtain ⟨u, hu, rfl⟩ := List.mem_map.1 ht
          exact ⟨(ih _ _ (hB.2 u hu).1 (hA.2 s hs).1).1, Mode.Laws.mulc fuel _ _ (hB.2 u hu).2 (hA.2 s hs).2⟩
      obtain ⟨h1, h2, _⟩ := merge_sort_spec (cadd_ok fuel) _ hT
      refine ⟨(adm_poly_iff _).2 h1, fun x hx => ?_⟩
      rw [eval_poly', h2 x hx, tsum_flatMap_mul x ts us (mulExpr fuel) (fun t ht => hA.1 t ht x hx)
        (fun t ht => hB.1 t ht x hx)]
      · simp only [eval_poly']
      intro s hs t ht
      exact (ih _ _ (hB.2 t ht).1 (hA.2 s hs).1).2 x hx
    · exact val_prod2 ha hb

theorem subOne_ok (fuel : Nat) (e : Expr n F) (h : Adm M φ U e) :
    Val M φ U (subOne fuel e) (fun x => eval φ x e - 1) := by
  unfold subOne
  split
  · exact ⟨Adm.num _, fun x _ => by simp [eval_num]⟩
  · obtain ⟨⟨h1, h2⟩, _⟩ := cadd_ok (M := M) (φ := φ) (U := U) fuel e (.num (-1)) h (Adm.num _)
    exact ⟨h1, fun x hx => by rw [h2 x hx, eval_num]; simp [sub_eq_add_neg]⟩

/-! ### simplify -/

/-- A polynomial result satisfies the condition on bases. -/
def GoodP (M : Mode n F) (e : Expr n F) : Prop := ∀ ts, e = .poly ts → M.clean ts

theorem goodP_const (c : F) : GoodP M (const c : Expr n F) := by
  intro ts h
  simp only [const, Expr.poly.injEq] at h
  subst h; exact Mode.Laws.distinct _ (by simp [Distinct]) (by simp)

theorem goodP_of_not_poly {e : Expr n F} (h : ∀ ts, e ≠ .poly ts) : GoodP M e := fun ts he => absurd he (h ts)

/-- Result of simplification. -/
def Res (M : Mode n F) (φ : F →+* ℂ) (U : Set (Fin n → ℂ)) (e' : Expr n F) (v : (Fin n → ℂ) → ℂ) : Prop :=
  Val M φ U e' v ∧ GoodP M e'

theorem isOneTerms_iff (ts : Terms n F) : isOneTerms ts = true ↔ ts = [((fun _ => 0), .num 1)] := by
  unfold isOneTerms
  split
  · rename_i t
    obtain ⟨a, b⟩ := t
    simp [isNumOne_iff, and_comm]
  · rename_i h
    constructor
    · intro h; simp at h
    · intro he; exact absurd he (by intro h'; exact h _ h')

theorem isZeroTerms_iff (ts : Terms n F) : isZeroTerms ts = true ↔ ts = [((fun _ => 0), .num 0)] := by
  unfold isZeroTerms
  split
  · rename_i t
    obtain ⟨a, b⟩ := t
    simp [isNumZero_iff, and_comm]
  · rename_i h
    constructor
    · intro h; simp at h
    · intro he; exact absurd he (by intro h'; exact h _ h')

theorem tsum_allCoeffsZero {ts : Terms n F} (h : allCoeffsZero ts = true) (x : Fin n → ℂ) : tsum φ x ts = 0 := by
  unfold tsum
  apply List.sum_eq_zero
  intro y hy
  obtain ⟨t, ht, rfl⟩ := List.mem_map.1 hy
  have := (List.all_eq_true.1 h) t ht
  rw [isNumZero_iff] at this
  simp [this, eval_num]

/-- A summand that `Sum.simplify` regards as zero is zero. -/
theorem sumPass_spec (l : List (Expr n F)) (zero : Option (Expr n F))
    (hl : ∀ e ∈ l, Adm M φ U e ∧ GoodP M e)
    (hz : ∀ z, zero = some z → Res M φ U z (fun _ => 0)) :
    (∀ e ∈ (sumPass l zero).1, Adm M φ U e) ∧
    (∀ x ∈ U, ((sumPass l zero).1.map (eval φ x)).sum = (l.map (eval φ x)).sum) ∧
    (∀ z, (sumPass l zero).2.2 = some z → Res M φ U z (fun _ => 0)) ∧
    ((sumPass l zero).2.1 = false → (sumPass l zero).1 = l) := by
  induction l generalizing zero with
  | nil => simpa [sumPass] using hz
  | cons s rest ih =>
    have hs := hl s (by simp)
    have hr : ∀ e ∈ rest, Adm M φ U e ∧ GoodP M e := fun e he => hl e (by simp [he])
    have keep : ∀ (zero : Option (Expr n F)), (∀ z, zero = some z → Res M φ U z (fun _ => 0)) →
        (∀ e ∈ s :: (sumPass rest zero).1, Adm M φ U e) ∧
        (∀ x ∈ U, ((s :: (sumPass rest zero).1).map (eval φ x)).sum = ((s :: rest).map (eval φ x)).sum) ∧
        (∀ z, (sumPass rest zero).2.2 = some z → Res M φ U z (fun _ => 0)) ∧
        ((sumPass rest zero).2.1 = false → s :: (sumPass rest zero).1 = s :: rest) := by
      intro zero hz
      obtain ⟨i1, i2, i3, i4⟩ := ih zero hr hz
      refine ⟨?_, ?_, i3, fun h => by rw [i4 h]⟩
      · intro e he
        rcases List.mem_cons.1 he with h | h
        · subst h; exact hs.1
        · exact i1 e h
      · intro x hx; simp [i2 x hx]
    have drop : (∀ x ∈ U, eval φ x s = 0) →
        (∀ e ∈ (sumPass rest (some s)).1, Adm M φ U e) ∧
        (∀ x ∈ U, ((sumPass rest (some s)).1.map (eval φ x)).sum = ((s :: rest).map (eval φ x)).sum) ∧
        (∀ z, (sumPass rest (some s)).2.2 = some z → Res M φ U z (fun _ => 0)) ∧
        (true = false → (sumPass rest (some s)).1 = s :: rest) := by
      intro h0
      obtain ⟨i1, i2, i3, i4⟩ := ih (some s) hr (by
        intro z hz; simp at hz; subst hz; exact ⟨⟨hs.1, h0⟩, hs.2⟩)
      refine ⟨i1, ?_, i3, by simp⟩
      intro x hx; simp [i2 x hx, h0 x hx]
    cases s with
    | sum l2 =>
      simp only [sumPass]
      obtain ⟨i1, i2, i3, i4⟩ := ih zero hr hz
      refine ⟨?_, ?_, i3, by simp⟩
      · intro e he
        rcases List.mem_append.1 he with h | h
        · cases hs.1 with
          | sum _ h' => exact h' e h
        · exact i1 e h
      · intro x hx; simp [i2 x hx, eval_sum]
    | poly ts =>
      simp only [sumPass]
      by_cases hc : allCoeffsZero ts = true
      · rw [if_pos hc]
        exact drop (fun x _ => by rw [eval_poly', tsum_allCoeffsZero hc])
      · rw [if_neg hc]; exact keep zero hz
    | epoly ts e =>
      simp only [sumPass]
      by_cases hc : allCoeffsZero ts = true
      · rw [if_pos hc]
        apply drop
        intro x hx
        cases hs.1 with
        | epoly _ _ _ _ _ _ h4 =>
          rcases h4 with h4 | ⟨_, _, _, _, h4⟩
          all_goals
            have := h4 x hx
            rw [eval_poly', tsum_allCoeffsZero hc] at this
            simp at this
      · rw [if_neg hc]; exact keep zero hz
    | lpoly ts =>
      simp only [sumPass]
      by_cases hc : allCoeffsZero ts = true
      · rw [if_pos hc]
        apply drop
        intro x hx
        cases hs.1 with
        | lpoly _ _ _ h4 =>
          have := h4 x hx
          rw [eval_poly', tsum_allCoeffsZero hc] at this
          simp at this
      · rw [if_neg hc]; exact keep zero hz
    | _ => simp only [sumPass]; exact keep zero hz

theorem prodPass_spec (l : List (Expr n F)) (st : ProdPass n F)
    (hl : ∀ e ∈ l, Adm M φ U e ∧ GoodP M e)
    (hst : ∀ e ∈ st.factors, Adm M φ U e)
    (hacc : st.changed = false → ∀ e ∈ st.factors, GoodP M e)
    (ho : ∀ z, st.one = some z → Res M φ U z (fun _ => 1)) :
    (∀ e ∈ (prodPass l st).factors, Adm M φ U e) ∧
    (∀ x ∈ U, ((prodPass l st).factors.map (eval φ x)).prod
      = (st.factors.map (eval φ x)).prod * (l.map (eval φ x)).prod) ∧
    (∀ z, (prodPass l st).one = some z → Res M φ U z (fun _ => 1)) ∧
    ((prodPass l st).changed = false → ∀ e ∈ (prodPass l st).factors, GoodP M e) := by
  induction l generalizing st with
  | nil => exact ⟨hst, fun x _ => by simp [prodPass], ho, hacc⟩
  | cons f rest ih =>
    have hf := hl f (by simp)
    have hr : ∀ e ∈ rest, Adm M φ U e ∧ GoodP M e := fun e he => hl e (by simp [he])
    have keep := ih { st with factors := st.factors ++ [f] } hr
        (by
          intro e he
          rcases List.mem_append.1 he with h | h
          · exact hst e h
          · simp at h; subst h; exact hf.1)
        (by
          intro hc e he
          rcases List.mem_append.1 he with h | h
          · exact hacc hc e h
          · simp at h; subst h; exact hf.2) ho
    have hv : ∀ x, ((st.factors ++ [f]).map (eval φ x)).prod * (rest.map (eval φ x)).prod
        = (st.factors.map (eval φ x)).prod * ((f :: rest).map (eval φ x)).prod := by
      intro x; simp [mul_assoc]
    cases f with
    | prod l2 =>
      simp only [prodPass]
      obtain ⟨i1, i2, i3, i4⟩ := ih { st with factors := st.factors ++ l2, changed := true } hr
        (by
          intro e he
          rcases List.mem_append.1 he with h | h
          · exact hst e h
          · cases hf.1 with
            | prod _ h' => exact h' e h) (by simp) ho
      refine ⟨i1, ?_, i3, i4⟩
      intro x hx; rw [i2 x hx]; simp [eval_prod, mul_assoc]
    | poly ts =>
      simp only [prodPass]
      split
      · rename_i hc
        simp only [Bool.and_eq_true] at hc
        have hlen : ts.length = 1 := by
          apply Mode.Laws.ones ts (hf.2 ts rfl)
          intro t ht
          have h1 := (List.all_eq_true.1 hc.1) t ht
          have h2 := (List.all_eq_true.1 hc.2) t ht
          rw [isNumOne_iff] at h2
          exact ⟨by simpa using h1, h2⟩
        have hone : ∀ x, eval φ x (.poly ts) = 1 := by
          intro x
          match ts, hlen with
          | [t], _ =>
            have h1 := (List.all_eq_true.1 hc.1) t (by simp)
            have h2 := (List.all_eq_true.1 hc.2) t (by simp)
            rw [isNumOne_iff] at h2
            have h1' : t.1 = fun _ => 0 := by simpa using h1
            rw [eval_poly]; simp [h2, h1', eval_num, mono_zero]
        obtain ⟨i1, i2, i3, i4⟩ := ih { st with changed := true, one := some (.poly ts) } hr hst (by simp)
          (by intro z hz; simp at hz; subst hz; exact ⟨⟨hf.1, fun x _ => hone x⟩, hf.2⟩)
        refine ⟨i1, ?_, i3, i4⟩
        intro x hx; rw [i2 x hx]; simp [hone x]
      · split
        · rename_i hc
          refine ⟨?_, ?_, ho, ?_⟩
          · intro e he; simp at he; subst he; exact hf.1
          · intro x _; simp [eval_poly', tsum_allCoeffsZero hc]
          · intro _ e he; simp at he; subst he; exact hf.2
        · exact ⟨keep.1, fun x hx => by rw [keep.2.1 x hx, hv], keep.2.2⟩
    | _ => simp only [prodPass]; exact ⟨keep.1, fun x hx => by rw [keep.2.1 x hx, hv], keep.2.2⟩

theorem unwrapExponent_ok {s : Expr n F} (h : Adm M φ U s) (hg : ∀ ts, s = .poly ts → Good ts) :
    Val M φ U (unwrapExponent s) (fun x => eval φ x s) := by
  unfold unwrapExponent
  split
  · rename_i t ts
    split
    · rename_i hc
      have h0 : ∀ u ∈ t :: ts, u.1 = fun _ => 0 := by
        intro u hu; have := (List.all_eq_true.1 hc) u hu; simpa using this
      have hl := hg _ rfl h0
      have : ts = [] := by simpa using hl
      subst this
      refine ⟨(((adm_poly_iff _).1 h).2 t (by simp)).1, fun x _ => ?_⟩
      beta_reduce; rw [eval_poly]; simp [h0 t (by simp), mono_zero]
    · exact ⟨h, fun x _ => rfl⟩
  · exact ⟨h, fun x _ => rfl⟩

theorem unwrapCoeff_ok {s : Expr n F} (h : Adm M φ U s) :
    Val M φ U (unwrapCoeff s) (fun x => eval φ x s) := by
  unfold unwrapCoeff
  split
  · rename_i t
    split
    · rename_i hc
      refine ⟨(((adm_poly_iff _).1 h).2 t (by simp)).1, fun x _ => ?_⟩
      beta_reduce; rw [eval_poly]; simp [hc, mono_zero]
    · exact ⟨h, fun x _ => rfl⟩
  · exact ⟨h, fun x _ => rfl⟩

/-- Statement for all functions with given fuel. -/
structure SOk (M : Mode n F) (φ : F →+* ℂ) (U : Set (Fin n → ℂ)) (fuel : Nat) : Prop where
  simp : ∀ e e' : Expr n F, Adm M φ U e → simplify fuel e = some e' → Res M φ U e' (fun x => eval φ x e)
  terms : ∀ ts ts' : Terms n F, AdmT M φ U ts → simplifyTerms fuel ts = some ts' →
    AdmT M φ U ts' ∧ (∀ x ∈ U, tsum φ x ts' = tsum φ x ts) ∧ M.clean ts'
  sumL : ∀ (l : List (Expr n F)) zero e', (∀ e ∈ l, Adm M φ U e) →
    (∀ z, zero = some z → Res M φ U z (fun _ => 0)) → sumLoop fuel l zero = some e' →
    Res M φ U e' (fun x => (l.map (eval φ x)).sum)
  prodL : ∀ (l : List (Expr n F)) one e', (∀ e ∈ l, Adm M φ U e) →
    (∀ z, one = some z → Res M φ U z (fun _ => 1)) → prodLoop fuel l one = some e' →
    Res M φ U e' (fun x => (l.map (eval φ x)).prod)

theorem map_simplify {fuel : Nat} (ih : SOk M φ U fuel) {l l' : List (Expr n F)}
    (hl : ∀ e ∈ l, Adm M φ U e) (h : l.mapM (simplify fuel) = some l') :
    (∀ e ∈ l', Adm M φ U e ∧ GoodP M e) ∧ (∀ x ∈ U, l'.map (eval φ x) = l.map (eval φ x)) := by
  have h2 := mapM_some h
  clear h
  induction h2 with
  | nil => simp
  | cons h1 _ ih2 =>
    rename_i a b l l' _
    obtain ⟨i1, i2⟩ := ih2 (fun e he => hl e (by simp [he]))
    have hb := ih.simp a b (hl a (by simp)) h1
    constructor
    · intro e he
      rcases List.mem_cons.1 he with h | h
      · subst h; exact ⟨hb.1.1, hb.2⟩
      · exact i1 e h
    · intro x hx
      simp [i2 x hx, hb.1.2 x hx]

theorem isZeroPoly_val {e : Expr n F} (h : isZeroPoly e = true) (x : Fin n → ℂ) : eval φ x e = 0 := by
  unfold isZeroPoly at h
  split at h
  · rw [eval_poly', tsum_allCoeffsZero h]
  · simp at h

theorem prod_any_zero {l : List (Expr n F)} (h : l.any isZeroPoly = true) (x : Fin n → ℂ) :
    (l.map (eval φ x)).prod = 0 := by
  obtain ⟨e, he, hz⟩ := List.any_eq_true.1 h
  apply List.prod_eq_zero
  exact List.mem_map.2 ⟨e, he, isZeroPoly_val hz x⟩

theorem prule_filter (terms : List (Int × List (Expr n F))) (x : Fin n → ℂ) :
    ((terms.filter (fun t => !decide (t.1 = 0) && !(t.2.any isZeroPoly))).map
      (fun t => (t.1 : ℂ) * (t.2.map (eval φ x)).prod)).sum
    = (terms.map (fun t => (t.1 : ℂ) * (t.2.map (eval φ x)).prod)).sum := by
  induction terms with
  | nil => rfl
  | cons t terms ih =>
    rw [List.filter_cons]
    split
    · simp [ih]
    · rename_i h
      rw [ih, List.map_cons, List.sum_cons]
      have : (t.1 : ℂ) * (t.2.map (eval φ x)).prod = 0 := by
        by_cases h1 : t.1 = 0
        · simp [h1]
        · have h2 : t.2.any isZeroPoly = true := by
            by_contra h3
            apply h
            simp only [Bool.not_eq_true] at h3
            simp [h1, h3]
          rw [prod_any_zero h2]; simp
      rw [this]; simp

theorem goodP_poly {ts : Terms n F} (h : M.clean ts) : GoodP M (.poly ts) := by
  intro us he; simp only [Expr.poly.injEq] at he; subst he; exact h

theorem simplify_ok (fuel : Nat) : SOk M φ U (n := n) (F := F) fuel := by
  induction fuel with
  | zero =>
    constructor
    · intro e e' _ h; simp [simplify] at h
    · intro ts ts' _ h; simp [simplifyTerms] at h
    · intro l z e' _ _ h; simp [sumLoop] at h
    · intro l z e' _ _ h; simp [prodLoop] at h
  | succ fuel ih =>
    constructor
    · intro e e' he h
      cases e with
      | num c =>
        simp only [simplify, Option.some.injEq] at h; subst h
        exact ⟨⟨he, fun _ _ => rfl⟩, goodP_of_not_poly (by simp)⟩
      | poly ts =>
        simp only [simplify] at h
        cases hs : simplifyTerms fuel ts with
        | none => simp [hs] at h
        | some ts' =>
          simp [hs] at h; subst h
          obtain ⟨h1, h2, h3⟩ := ih.terms ts ts' ((adm_poly_iff _).1 he) hs
          exact ⟨⟨(adm_poly_iff _).2 h1, fun x hx => by simp only [eval_poly']; exact h2 x hx⟩, goodP_poly h3⟩
      | epoly ts e =>
        cases he with
        | epoly _ _ hp hadm hexpo hgood hslit =>
        simp only [simplify] at h
        -- the exponent
        have hexp : ∀ e1, (if e.isNum then some e else (simplify fuel e).map unwrapExponent) = some e1 →
            Val M φ U e1 (fun x => eval φ x e) ∧ M.expo e1 := by
          intro e1 h1
          split at h1
          · simp at h1; subst h1; exact ⟨⟨hadm, fun _ _ => rfl⟩, hexpo⟩
          · obtain ⟨s, hs, h1⟩ := Option.map_eq_some_iff.1 h1
            subst h1
            obtain ⟨r1, r2⟩ := ih.simp e s hadm hs
            obtain ⟨u1, u2⟩ := unwrapExponent_ok r1.1 (Mode.Laws.good φ fuel e s hexpo hs r2)
            exact ⟨⟨u1, fun x hx => by rw [u2 x hx]; exact r1.2 x hx⟩, Mode.Laws.unwrap fuel e s hexpo hs⟩
        obtain ⟨e1, h1, h⟩ := Option.bind_eq_some_iff.1 h
        obtain ⟨⟨v1, v2⟩, v3⟩ := hexp e1 h1
        replace v2 : ∀ x ∈ U, eval φ x e1 = eval φ x e := v2
        split at h
        · rename_i hz
          rw [isNumZero_iff] at hz
          simp at h; subst h
          refine ⟨⟨adm_const _, fun x hx => ?_⟩, goodP_const _⟩
          beta_reduce
          rw [eval_const, eval_epoly, ← v2 x hx, hz, eval_num]; simp
        · split at h
          · rename_i ho
            rw [isNumOne_iff] at ho
            simp at h; subst h
            refine ⟨⟨hp, fun x hx => ?_⟩, goodP_poly (Mode.Laws.one fuel e ts hexpo hgood (by rw [h1, ho]))⟩
            beta_reduce
            rw [eval_epoly, ← v2 x hx, ho, eval_num]; simp
          · obtain ⟨ts', hs, h⟩ := Option.bind_eq_some_iff.1 h
            obtain ⟨t1, t2, t3⟩ := ih.terms ts ts' ((adm_poly_iff _).1 hp) hs
            have t1' := (adm_poly_iff _).2 t1
            split at h
            · rename_i hone
              rw [isOneTerms_iff] at hone
              simp at h; subst h
              refine ⟨⟨t1', fun x hx => ?_⟩, goodP_poly t3⟩
              have hval : tsum φ x ts' = 1 := by rw [hone]; simp [tsum, eval_num, mono_zero]
              beta_reduce
              rw [eval_epoly, eval_poly', eval_poly', ← t2 x hx, hval]; simp
            · simp at h; subst h
              refine ⟨⟨Adm.epoly _ _ t1' v1 v3 (Mode.Laws.cleanBase _ _ t3) ?_, fun x hx => ?_⟩, goodP_of_not_poly (by simp)⟩
              · rcases hslit with hslit | ⟨c, k, rfl, hk, hslit⟩
                · left
                  intro x hx
                  have := hslit x hx
                  rw [eval_poly'] at this ⊢
                  rwa [t2 x hx]
                · right
                  simp [isNum] at h1
                  refine ⟨c, k, h1.symm, hk, ?_⟩
                  intro x hx
                  have := hslit x hx
                  rw [eval_poly'] at this ⊢
                  rwa [t2 x hx]
              · beta_reduce
                rw [eval_epoly, eval_epoly, eval_poly', eval_poly', t2 x hx, v2 x hx]
      | lpoly ts =>
        cases he with
        | lpoly _ hp hgood hslit =>
        simp only [simplify] at h
        obtain ⟨ts', hs, h⟩ := Option.bind_eq_some_iff.1 h
        obtain ⟨t1, t2, t3⟩ := ih.terms ts ts' ((adm_poly_iff _).1 hp) hs
        have t1' := (adm_poly_iff _).2 t1
        split at h
        · rename_i hone
          rw [isOneTerms_iff] at hone
          simp at h; subst h
          refine ⟨⟨adm_const _, fun x hx => ?_⟩, goodP_const _⟩
          have hval : tsum φ x ts' = 1 := by rw [hone]; simp [tsum, eval_num, mono_zero]
          beta_reduce
          rw [eval_const, eval_lpoly, eval_poly', ← t2 x hx, hval]; simp
        · simp at h; subst h
          refine ⟨⟨Adm.lpoly _ t1' (Mode.Laws.cleanBase _ _ t3) ?_, fun x hx => ?_⟩, goodP_of_not_poly (by simp)⟩
          · intro x hx
            have := hslit x hx
            rw [eval_poly'] at this ⊢
            rwa [t2 x hx]
          · beta_reduce
            rw [eval_lpoly, eval_lpoly, eval_poly', eval_poly', t2 x hx]
      | sum l =>
        simp only [simplify] at h
        cases he with
        | sum _ hl =>
        obtain ⟨r1, r2⟩ := ih.sumL l none e' hl (by simp) h
        exact ⟨⟨r1.1, fun x hx => by beta_reduce; rw [r1.2 x hx, eval_sum]⟩, r2⟩
      | prod l =>
        simp only [simplify] at h
        cases he with
        | prod _ hl =>
        obtain ⟨r1, r2⟩ := ih.prodL l none e' hl (by simp) h
        exact ⟨⟨r1.1, fun x hx => by beta_reduce; rw [r1.2 x hx, eval_prod]⟩, r2⟩
      | prule terms =>
        cases he with
        | prule _ hl hlen =>
        simp only [simplify] at h
        split at h
        · rename_i h0
          simp at h; subst h
          refine ⟨⟨adm_const _, fun x hx => ?_⟩, goodP_const _⟩
          beta_reduce
          rw [eval_const, eval_prule, ← prule_filter, List.length_eq_zero_iff.1 h0]; simp
        · simp at h; subst h
          refine ⟨⟨Adm.prule _ ?_ ?_, fun x hx => ?_⟩, goodP_of_not_poly (by simp)⟩
          · intro t ht; exact hl t (List.mem_filter.1 ht).1
          · intro t ht t' ht'; exact hlen t (List.mem_filter.1 ht).1 t' (List.mem_filter.1 ht').1
          · beta_reduce; rw [eval_prule, eval_prule]; exact prule_filter terms x
      | pow b e =>
        cases he with
        | pow _ _ hb he hexpo hslit =>
        simp only [simplify] at h
        obtain ⟨b', hb', h⟩ := Option.bind_eq_some_iff.1 h
        obtain ⟨rb, gb⟩ := ih.simp b b' hb hb'
        split at h
        · rename_i ts
          obtain ⟨r1, r2⟩ := ih.simp _ e' (Adm.epoly ts e rb.1 he hexpo (Mode.Laws.cleanBase _ _ (gb _ rfl)) (Or.inl <| by
            intro x hx; rw [rb.2 x hx]; exact hslit x hx)) h
          refine ⟨⟨r1.1, fun x hx => ?_⟩, r2⟩
          rw [r1.2 x hx]; beta_reduce; rw [eval_epoly, rb.2 x hx, eval_pow]
        · obtain ⟨e2, he2, h⟩ := Option.bind_eq_some_iff.1 h
          obtain ⟨re, ge⟩ := ih.simp e e2 he he2
          have hpow : Res M φ U (.pow b' e2) (fun x => eval φ x (.pow b e)) := by
            refine ⟨⟨Adm.pow _ _ rb.1 re.1 (Mode.Laws.simp fuel e e2 hexpo he2) ?_, fun x hx => ?_⟩, goodP_of_not_poly (by simp)⟩
            · intro x hx; rw [rb.2 x hx]; exact hslit x hx
            · beta_reduce; rw [eval_pow, eval_pow, rb.2 x hx, re.2 x hx]
          split at h
          · rename_i us
            split at h
            · rename_i hz
              simp at h; subst h
              refine ⟨⟨adm_const _, fun x hx => ?_⟩, goodP_const _⟩
              beta_reduce
              rw [eval_const, eval_pow, ← show eval φ x (.poly us) = eval φ x e from re.2 x hx, eval_poly', tsum_allCoeffsZero hz]; simp
            · split at h
              · rename_i hone
                rw [isOneTerms_iff] at hone
                simp at h; subst h
                refine ⟨⟨rb.1, fun x hx => ?_⟩, gb⟩
                rw [rb.2 x hx]
                beta_reduce
                have hval : tsum φ x us = 1 := by rw [hone]; simp [tsum, eval_num, mono_zero]
                rw [eval_pow, ← show eval φ x (.poly us) = eval φ x e from re.2 x hx, eval_poly', hval]; simp
              · simp at h; subst h; exact hpow
          · simp at h; subst h; exact hpow
      | log a =>
        cases he with
        | log _ ha hslit =>
        simp only [simplify] at h
        obtain ⟨a', ha', h⟩ := Option.bind_eq_some_iff.1 h
        obtain ⟨ra, ga⟩ := ih.simp a a' ha ha'
        have hlog : Res M φ U (.log a') (fun x => eval φ x (.log a)) := by
          refine ⟨⟨Adm.log _ ra.1 ?_, fun x hx => ?_⟩, goodP_of_not_poly (by simp)⟩
          · intro x hx; rw [ra.2 x hx]; exact hslit x hx
          · beta_reduce; rw [eval_log, eval_log, ra.2 x hx]
        split at h
        · rename_i us
          split at h
          · rename_i hone
            rw [isOneTerms_iff] at hone
            simp at h; subst h
            refine ⟨⟨adm_const _, fun x hx => ?_⟩, goodP_const _⟩
            beta_reduce
            have hval : tsum φ x us = 1 := by rw [hone]; simp [tsum, eval_num, mono_zero]
            rw [eval_const, eval_log, ← show eval φ x (.poly us) = eval φ x a from ra.2 x hx, eval_poly', hval]; simp
          · simp at h; subst h; exact hlog
        · simp at h; subst h; exact hlog
      | exp a =>
        cases he with
        | exp _ ha =>
        simp only [simplify] at h
        obtain ⟨a', ha', h⟩ := Option.bind_eq_some_iff.1 h
        obtain ⟨ra, ga⟩ := ih.simp a a' ha ha'
        have hexp : Res M φ U (.exp a') (fun x => eval φ x (.exp a)) := by
          refine ⟨⟨Adm.exp _ ra.1, fun x hx => ?_⟩, goodP_of_not_poly (by simp)⟩
          beta_reduce; rw [eval_exp, eval_exp, ra.2 x hx]
        split at h
        · rename_i us
          split at h
          · rename_i hone
            rw [isZeroTerms_iff] at hone
            simp at h; subst h
            refine ⟨⟨adm_const _, fun x hx => ?_⟩, goodP_const _⟩
            beta_reduce
            have hval : tsum φ x us = 0 := by rw [hone]; simp [tsum, eval_num]
            rw [eval_const, eval_exp, ← show eval φ x (.poly us) = eval φ x a from ra.2 x hx, eval_poly', hval]; simp
          · simp at h; subst h; exact hexp
        · simp at h; subst h; exact hexp
    · intro ts ts' hts h
      simp only [simplifyTerms] at h
      obtain ⟨ts2, hm, h⟩ := Option.bind_eq_some_iff.1 h
      simp at h; subst h
      have hp := sortTerms_perm ts
      have hA := hts.perm hp
      have hs := sortTerms_sorted ts
      have key : ∀ l l2 : Terms n F, AdmT M φ U l → Sorted l →
          List.Forall₂ (fun t u => (if t.2.isNum then some t
            else (simplify fuel t.2).map (fun s => (t.1, unwrapCoeff s))) = some u) l l2 →
          AdmT M φ U l2 ∧ Sorted l2 ∧ (∀ x ∈ U, tsum φ x l2 = tsum φ x l) ∧ l2.map (·.1) = l.map (·.1) := by
        intro l l2 hA hs hf
        induction hf with
        | nil => exact ⟨hA, hs, fun _ _ => rfl, rfl⟩
        | cons h1 _ ih2 =>
          rename_i t u l l2 _
          have hs' := List.pairwise_cons.1 hs
          obtain ⟨i1, i2, i3, i4⟩ := ih2 ⟨fun t ht => hA.1 t (by simp [ht]), fun t ht => hA.2 t (by simp [ht])⟩ hs'.2
          have hu : u.1 = t.1 ∧ Val M φ U u.2 (fun x => eval φ x t.2) ∧ M.coef u.2 := by
            split at h1
            · simp at h1; subst h1; exact ⟨rfl, ⟨(hA.2 t (by simp)).1, fun x _ => rfl⟩, (hA.2 t (by simp)).2⟩
            · rename_i hnum
              obtain ⟨s, hs1, hs2⟩ := Option.map_eq_some_iff.1 h1
              subst hs2
              obtain ⟨r1, _⟩ := ih.simp t.2 s (hA.2 t (by simp)).1 hs1
              obtain ⟨w1, w2⟩ := unwrapCoeff_ok r1.1
              exact ⟨rfl, ⟨w1, fun x hx => by simp only []; rw [w2 x hx]; exact r1.2 x hx⟩,
                Mode.Laws.simpc fuel _ s (hA.2 t (by simp)).2 (by simpa using hnum) hs1⟩
          refine ⟨?_, ?_, ?_, by simp [i4, hu.1]⟩
          · constructor
            · intro v hv
              rcases List.mem_cons.1 hv with h | h
              · subst h; rw [hu.1]; exact hA.1 t (by simp)
              · exact i1.1 v h
            · intro v hv
              rcases List.mem_cons.1 hv with h | h
              · subst h; exact ⟨hu.2.1.1, hu.2.2⟩
              · exact i1.2 v h
          · apply List.pairwise_cons.2
            refine ⟨?_, i2⟩
            intro v hv
            have : v.1 ∈ l2.map (·.1) := List.mem_map.2 ⟨v, hv, rfl⟩
            rw [i4] at this
            obtain ⟨w, hw, he⟩ := List.mem_map.1 this
            rw [hu.1, ← he]; exact hs'.1 w hw
          · intro x hx
            rw [tsum_cons, tsum_cons, i3 x hx, hu.1, hu.2.1.2 x hx]
      obtain ⟨k1, k2, k3, _⟩ := key _ _ hA hs (mapM_some hm)
      obtain ⟨m1, m2, m3, m4⟩ := mergeSorted_spec (cadd_ok fuel) ts2 k1 k2
      refine ⟨m1, fun x hx => ?_, Mode.Laws.distinct _ m3 m4⟩
      rw [m2 x hx, k3 x hx, tsum_perm hp]
    · intro l zero e' hl hz h
      simp only [sumLoop] at h
      obtain ⟨l', hm, h⟩ := Option.bind_eq_some_iff.1 h
      obtain ⟨m1, m2⟩ := map_simplify ih hl hm
      obtain ⟨p1, p2, p3, p4⟩ := sumPass_spec l' zero m1 hz
      split at h
      · obtain ⟨r1, r2⟩ := ih.sumL _ _ e' p1 p3 h
        refine ⟨⟨r1.1, fun x hx => ?_⟩, r2⟩
        rw [r1.2 x hx]; beta_reduce; rw [p2 x hx, m2 x hx]
      · rename_i hc
        have hl' := p4 (by simpa using hc)
        unfold sumFinish at h
        split at h
        · rename_i s hs
          simp at h; subst h
          have hsl : l' = [s] := by rw [← hl', hs]
          have hms := m1 s (by simp [hsl])
          refine ⟨⟨hms.1, fun x hx => ?_⟩, hms.2⟩
          beta_reduce; rw [← m2 x hx, hsl]; simp
        · rename_i hs
          obtain ⟨r1, r2⟩ := p3 e' h
          refine ⟨⟨r1.1, fun x hx => ?_⟩, r2⟩
          rw [r1.2 x hx]; beta_reduce; rw [← m2 x hx, ← p2 x hx, hs]; simp
        · simp at h; subst h
          refine ⟨⟨Adm.sum _ p1, fun x hx => ?_⟩, goodP_of_not_poly (by simp)⟩
          beta_reduce
          rw [eval_sum, p2 x hx, m2 x hx]
    · intro l one e' hl hz h
      simp only [prodLoop] at h
      obtain ⟨l', hm, h⟩ := Option.bind_eq_some_iff.1 h
      obtain ⟨m1, m2⟩ := map_simplify ih hl hm
      obtain ⟨p1, p2, p3, p4⟩ := prodPass_spec l' ⟨[], false, one⟩ m1 (by simp) (by simp) hz
      simp only [List.map_nil, List.prod_nil, one_mul] at p2
      split at h
      · obtain ⟨r1, r2⟩ := ih.prodL _ _ e' p1 p3 h
        refine ⟨⟨r1.1, fun x hx => ?_⟩, r2⟩
        rw [r1.2 x hx]; beta_reduce; rw [p2 x hx, m2 x hx]
      · rename_i hc
        have hg := p4 (by simpa using hc)
        unfold prodFinish at h
        split at h
        · rename_i s hs
          simp at h; subst h
          refine ⟨⟨p1 s (by simp [hs]), fun x hx => ?_⟩, hg s (by simp [hs])⟩
          have := p2 x hx
          rw [hs] at this
          beta_reduce; rw [← m2 x hx, ← this]; simp
        · rename_i hs
          obtain ⟨r1, r2⟩ := p3 e' h
          refine ⟨⟨r1.1, fun x hx => ?_⟩, r2⟩
          rw [r1.2 x hx]; beta_reduce; rw [← m2 x hx, ← p2 x hx, hs]; simp
        · simp at h; subst h
          refine ⟨⟨Adm.prod _ p1, fun x hx => ?_⟩, goodP_of_not_poly (by simp)⟩
          beta_reduce
          rw [eval_prod, p2 x hx, m2 x hx]

/-! ### The two modes -/

instance : (Mode.strict : Mode n F).Laws where
  numc := fun _ => trivial
  caddc := fun _ _ _ _ _ => trivial
  caddb := fun _ _ _ _ => trivial
  cmulc := fun _ _ _ _ => trivial
  mulc := fun _ _ _ _ _ => trivial
  simpc := fun _ _ _ _ _ _ => trivial
  derivec := fun _ _ _ _ _ _ _ => trivial
  ones := fun ts h h' => h (fun t ht => (h' t ht).1)
  distinct := fun ts h hne => good_of_distinct h hne
  cleanBase := fun _ _ h => h
  subBase := fun _ _ _ _ h => h
  logBase := fun _ _ _ h => h
  one := fun _ _ _ _ h _ => h
  num := trivial
  const := trivial
  sub := fun _ _ _ => trivial
  simp := fun _ _ _ _ _ => trivial
  unwrap := fun _ _ _ _ _ => trivial
  good := fun _ _ _ _ _ _ h => h

/-- All coefficients are plain numbers. -/
def NumT (ts : Terms n F) : Prop := ∀ t ∈ ts, ∃ c, t.2 = .num c

theorem mergeSorted_num {add : Expr n F → Expr n F → Expr n F}
    (hadd : ∀ c d, ∃ e, add (.num c) (.num d) = .num e) (ts : Terms n F) (h : NumT ts) :
    NumT (mergeSorted add ts) := by
  have key : ∀ (l : List Nat) (ex : List (Expo n)) (s : MState n F),
      (∀ k, ∃ c, s.coeffs.getD k (.num 0) = .num c) →
      ∀ k, ∃ c, (l.foldl (mstep add ex) s).coeffs.getD k (.num 0) = .num c := by
    intro l ex
    induction l with
    | nil => intro s hs; exact hs
    | cons i l ih =>
      intro s hs
      rw [List.foldl_cons]
      apply ih
      unfold mstep
      split
      · exact hs
      · split
        · intro k
          obtain ⟨c, hc⟩ := hs i
          obtain ⟨d, hd⟩ := hs (i - s.dist)
          obtain ⟨e, he⟩ := hadd c d
          simp only [hc, hd, he]
          have hset : ∀ (l : List (Expr n F)) (j : Nat) (w : F), (∀ k, ∃ c, l.getD k (.num 0) = .num c) →
              ∀ k, ∃ c, (l.set j (.num w)).getD k (.num 0) = .num c := by
            intro l j w hl k
            by_cases hj : j < l.length
            · rw [getD_set_eq' _ _ _ _ hj]
              split
              · exact ⟨_, rfl⟩
              · exact hl k
            · rw [List.set_eq_of_length_le (by omega)]; exact hl k
          exact hset _ _ _ (hset _ _ _ hs) k
        · exact hs
  unfold mergeSorted
  simp only
  split
  · intro t ht; simp at ht; subst ht; exact ⟨0, rfl⟩
  · intro t ht
    have h1 := (List.of_mem_zip (a := t.1) (b := t.2) (List.mem_filter.1 ht).1).2
    obtain ⟨k, hk, he⟩ := List.mem_iff_getElem.1 h1
    rw [← he, ← List.getD_eq_getElem _ (.num 0) hk]
    apply key
    intro k
    by_cases hk : k < (ts.map (·.2)).length
    · rw [List.getD_eq_getElem _ _ hk]
      simp only [List.getElem_map]
      exact h _ (List.getElem_mem _)
    · simp only
      rw [List.getD_eq_getElem?_getD, List.getElem?_eq_none (by omega)]; exact ⟨0, rfl⟩

theorem cadd_num (fuel : Nat) (c d : F) : ∃ e, cadd fuel (.num c : Expr n F) (.num d) = .num e := by
  cases fuel <;> exact ⟨_, rfl⟩

theorem sortTerms_num {ts : Terms n F} (h : NumT ts) : NumT (sortTerms ts) :=
  fun t ht => h t ((sortTerms_perm ts).mem_iff.1 ht)

theorem simplifyTerms_num {fuel : Nat} {ts ts' : Terms n F} (h : NumT ts)
    (hs : simplifyTerms fuel ts = some ts') :
    NumT ts' ∧ ∀ (_ : F →+* ℂ), Good ts' := by
  cases fuel with
  | zero => simp [simplifyTerms] at hs
  | succ fuel =>
    simp only [simplifyTerms] at hs
    obtain ⟨ts2, hm, hs⟩ := Option.bind_eq_some_iff.1 hs
    simp at hs
    have h1 := sortTerms_num h
    have h2 : ts2 = sortTerms ts := by
      have hf := mapM_some hm
      generalize sortTerms ts = l at hf h1
      clear hm hs
      induction hf with
      | nil => rfl
      | cons h3 _ ih =>
        rename_i t u l l2 _
        obtain ⟨c, hc⟩ := h1 t (by simp)
        have := ih (fun t ht => h1 t (by simp [ht]))
        rw [this]
        simp [hc, isNum] at h3
        rw [h3]
    subst h2
    subst hs
    refine ⟨mergeSorted_num (cadd_num fuel) _ h1, fun φ => ?_⟩
    have hA : AdmT (Mode.strict) φ ∅ (sortTerms ts) := by
      refine ⟨by simp, fun t ht => ?_⟩
      obtain ⟨c, hc⟩ := h1 t ht
      rw [hc]; exact ⟨Adm.num _, trivial⟩
    obtain ⟨_, _, m3, m4⟩ := mergeSorted_spec (cadd_ok fuel) _ hA (sortTerms_sorted ts)
    exact good_of_distinct m3 m4

theorem flat_simplify {fuel : Nat} {e s : Expr n F} (h : Flat e) (hs : simplify fuel e = some s) :
    Flat s ∧ ∀ (_ : F →+* ℂ) ts, s = .poly ts → Good ts := by
  cases fuel with
  | zero => simp [simplify] at hs
  | succ fuel =>
    cases h with
    | num c => simp [simplify] at hs; subst hs; exact ⟨Flat.num c, by simp⟩
    | poly ts hts =>
      simp only [simplify] at hs
      obtain ⟨ts', hs', hs⟩ := Option.bind_eq_some_iff.1 hs
      simp at hs; subst hs
      obtain ⟨h1, h2⟩ := simplifyTerms_num hts hs'
      refine ⟨Flat.poly _ h1, fun φ us hu => ?_⟩
      simp at hu; subst hu; exact h2 φ

theorem flat_unwrap {s : Expr n F} (h : Flat s) : Flat (unwrapExponent s) := by
  unfold unwrapExponent
  split
  · split
    · cases h with
      | poly _ hts =>
        obtain ⟨c, hc⟩ := hts _ (List.mem_cons_self)
        rw [hc]; exact Flat.num c
    · exact h
  · exact h

theorem flat_const (c : F) : Flat (const c : Expr n F) := by
  refine Flat.poly _ ?_
  intro t ht; simp at ht; subst ht; exact ⟨c, rfl⟩

theorem flat_subOne (fuel : Nat) {e : Expr n F} (h : Flat e) : Flat (subOne fuel e) := by
  cases h with
  | num c => exact Flat.num _
  | poly ts hts =>
    have hT : NumT ((((fun _ => 0), .num (-1)) :: ts : Terms n F)) := by
      intro t ht
      rcases List.mem_cons.1 ht with h | h
      · subst h; exact ⟨_, rfl⟩
      · exact hts t h
    cases fuel with
    | zero =>
      simp only [subOne, cadd, caddWith]
      exact Flat.poly _ (mergeSorted_num (fun c d => ⟨_, rfl⟩) _ (sortTerms_num hT))
    | succ fuel =>
      simp only [subOne, cadd, caddWith]
      exact Flat.poly _ (mergeSorted_num (cadd_num fuel) _ (sortTerms_num hT))

instance : (Mode.flat : Mode n F).Laws where
  numc := fun c => ⟨c, rfl⟩
  caddc := fun _ _ _ h1 h2 => by obtain ⟨c, rfl⟩ := h1; obtain ⟨d, rfl⟩ := h2; exact ⟨_, rfl⟩
  caddb := fun _ _ h1 h2 => by obtain ⟨c, rfl⟩ := h1; obtain ⟨d, rfl⟩ := h2; exact ⟨_, rfl⟩
  cmulc := fun fuel _ _ h1 => by obtain ⟨c, rfl⟩ := h1; cases fuel <;> exact ⟨_, rfl⟩
  mulc := fun fuel _ _ h1 h2 => by
    obtain ⟨c, rfl⟩ := h1; obtain ⟨d, rfl⟩ := h2; cases fuel <;> exact ⟨_, rfl⟩
  simpc := fun _ _ _ h1 h2 _ => by obtain ⟨c, rfl⟩ := h1; simp [isNum] at h2
  derivec := fun _ _ _ _ h1 h2 _ => by obtain ⟨c, rfl⟩ := h1; simp [isNum] at h2
  ones := fun ts h => h
  distinct := fun ts h hne h' => good_of_distinct h hne (fun t ht => (h' t ht).1)
  cleanBase := fun _ _ h => h
  subBase := fun _ _ _ _ h => h
  logBase := fun _ _ _ h => h
  one := fun _ _ _ _ h _ => h
  num := Flat.num _
  const := flat_const _
  sub := fun fuel e h => flat_subOne fuel h
  simp := fun _ _ _ h hs => (flat_simplify h hs).1
  unwrap := fun _ _ _ h hs => flat_unwrap (flat_simplify h hs).1
  good := fun φ _ _ _ h hs _ => (flat_simplify h hs).2 φ

end Expr
end SecDec
