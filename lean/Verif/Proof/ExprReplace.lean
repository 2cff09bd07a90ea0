import Verif.Proof.ExprDerive
/-
Proofs about `replace` of expression trees, monotonicity of admissibility, continuity and
differentiability of admissible expressions.
-/
set_option linter.unusedSectionVars false
namespace SecDec
namespace Expr
variable {n : Nat} {F : Type} [CommRing F] [DecidableEq F]
variable {M : Mode n F} {φ : F →+* ℂ} {U V : Set (Fin n → ℂ)}

theorem BaseOK.mono {b e : Expr n F} (h : BaseOK φ U b e) (hV : V ⊆ U) : BaseOK φ V b e := by
  rcases h with h | ⟨c, k, h1, h2, h⟩
  · exact Or.inl fun x hx => h x (hV hx)
  · exact Or.inr ⟨c, k, h1, h2, fun x hx => h x (hV hx)⟩

theorem Adm.mono {e : Expr n F} (h : Adm M φ U e) (hV : V ⊆ U) : Adm M φ V e := by
  induction h with
  | num c => exact .num c
  | poly ts h1 h2 h3 ih => exact .poly ts (fun t ht x hx => h1 t ht x (hV hx)) ih h3
  | epoly ts e h1 h2 h3 h4 h5 ih1 ih2 => exact .epoly ts e ih1 ih2 h3 h4 (h5.mono hV)
  | lpoly ts h1 h2 h3 ih => exact .lpoly ts ih h2 (fun x hx => h3 x (hV hx))
  | sum l h ih => exact .sum l ih
  | prod l h ih => exact .prod l ih
  | prule l h1 h2 ih => exact .prule l ih h2
  | pow b e h1 h2 h3 h4 ih1 ih2 => exact .pow b e ih1 ih2 h3 (fun x hx => h4 x (hV hx))
  | log a h1 h2 ih => exact .log a ih (fun x hx => h2 x (hV hx))
  | exp a h ih => exact .exp a ih

theorem continuousOn_list_sum {α : Type} (l : List α) (f : α → (Fin n → ℂ) → ℂ)
    (h : ∀ a ∈ l, ContinuousOn (f a) U) : ContinuousOn (fun x => (l.map (fun a => f a x)).sum) U := by
  induction l with
  | nil => simpa using continuousOn_const
  | cons a l ih =>
    simp only [List.map_cons, List.sum_cons]
    exact (h a (by simp)).add (ih (fun b hb => h b (by simp [hb])))

theorem continuousOn_list_prod {α : Type} (l : List α) (f : α → (Fin n → ℂ) → ℂ)
    (h : ∀ a ∈ l, ContinuousOn (f a) U) : ContinuousOn (fun x => (l.map (fun a => f a x)).prod) U := by
  induction l with
  | nil => simpa using continuousOn_const
  | cons a l ih =>
    simp only [List.map_cons, List.prod_cons]
    exact (h a (by simp)).mul (ih (fun b hb => h b (by simp [hb])))

theorem continuousOn_mono (m : Expo n) (h : ∀ x ∈ U, DefinedAt x m) :
    ContinuousOn (fun x => Poly.mono x m) U := by
  unfold Poly.mono
  refine continuousOn_finset_prod _ (fun i _ => ?_)
  intro x hx
  by_cases h0 : x i = 0
  · have := h x hx i h0
    exact ((continuousAt_apply i x).zpow₀ (m i) (Or.inr this)).continuousWithinAt
  · exact ((continuousAt_apply i x).zpow₀ (m i) (Or.inl h0)).continuousWithinAt

/-- The value of an admissible expression is continuous. -/
theorem Adm.continuousOn {e : Expr n F} (h : Adm M φ U e) : ContinuousOn (fun x => eval φ x e) U := by
  induction h with
  | num c => simp only [eval_num]; exact continuousOn_const
  | poly ts h1 h2 h3 ih =>
    simp only [eval_poly]
    exact continuousOn_list_sum ts _ (fun t ht => (ih t ht).mul (continuousOn_mono t.1 (h1 t ht)))
  | epoly ts e h1 h2 h3 h4 h5 ih1 ih2 =>
    simp only [eval_epoly]
    rcases h5 with h5 | ⟨c, k, rfl, hk, h5⟩
    · exact ih1.cpow ih2 h5
    · simp only [eval_num, hk, Complex.cpow_intCast]
      exact ih1.zpow₀ k (fun x hx => Or.inl (h5 x hx))
  | lpoly ts h1 h2 h3 ih =>
    simp only [eval_lpoly]
    exact ih.clog h3
  | sum l h ih => simp only [eval_sum]; exact continuousOn_list_sum l _ ih
  | prod l h ih => simp only [eval_prod]; exact continuousOn_list_prod l _ ih
  | prule l h1 h2 ih =>
    simp only [eval_prule]
    exact continuousOn_list_sum l _ (fun t ht => continuousOn_const.mul
      (continuousOn_list_prod t.2 _ (ih t ht)))
  | pow b e h1 h2 h3 h4 ih1 ih2 => simp only [eval_pow]; exact ih1.cpow ih2 h4
  | log a h1 h2 ih => simp only [eval_log]; exact ih.clog h2
  | exp a h ih => simp only [eval_exp]; exact ih.cexp

/-! ### replace -/

theorem mono_replace (x : Fin n → ℂ) (i : Fin n) (v : ℂ) (m : Expo n) :
    Poly.mono (Function.update x i v) m = v ^ (m i) * Poly.mono x (Function.update m i 0) := by
  rw [Poly.mono_update, Poly.mono_update_expo]; simp

theorem cmul_val (x : Fin n → ℂ) (fuel : Nat) : ∀ (a : Expr n F) (k : F),
    eval φ x (cmul fuel a k) = eval φ x a * φ k := by
  induction fuel with
  | zero =>
    intro a k
    cases a
    case num c => simp only [cmul]; simp [eval_num]
    all_goals simp only [cmul]; rw [eval_prod]; simp [eval_const]
  | succ fuel ih =>
    intro a k
    cases a
    case num c => simp only [cmul]; simp [eval_num]
    case poly ts =>
      simp only [cmul]
      split
      · rename_i h; subst h; simp
      · split
        · rename_i h; subst h; simp [eval_const]
        · rw [eval_poly, eval_poly, List.map_map, ← List.sum_map_mul_right]
          congr 1
          apply List.map_congr_left
          intro u _
          simp only [Function.comp]
          rw [ih]; ring
    all_goals simp only [cmul]; rw [eval_prod]; simp [eval_const]

theorem replaceRowsZero_tsum (i : Fin n) (ts : Terms n F) (x : Fin n → ℂ)
    (hn : ∀ t ∈ ts, ∃ k, t.2 = .num k) :
    tsum φ x (replaceRowsZero i ts) = tsum φ (Function.update x i 0) ts := by
  unfold tsum replaceRowsZero
  rw [List.map_map]
  congr 1
  apply List.map_congr_left
  intro t ht
  obtain ⟨k, hk⟩ := hn t ht
  simp only [Function.comp, hk]
  rw [mono_replace]
  split
  · rename_i h0; simp [eval_num, h0]
  · rename_i h0
    simp [eval_num, zero_zpow _ h0]

theorem replaceRows_tsum (fuel : Nat) (v : F) (vpow : Int → F) (i : Fin n) (ts : Terms n F)
    (cs : List (Expr n F)) (x : Fin n → ℂ) (hpow : ∀ k, φ (vpow k) = φ v ^ k)
    (hc : List.Forall₂ (fun (t : Expo n × Expr n F) c =>
      eval φ x c = eval φ (Function.update x i (φ v)) t.2) ts cs) :
    tsum φ x (replaceRows fuel v vpow i ts cs) = tsum φ (Function.update x i (φ v)) ts := by
  induction hc with
  | nil => rfl
  | cons h1 _ ih =>
    rename_i t c ts cs _
    have e1 : replaceRows fuel v vpow i (t :: ts) (c :: cs) =
        (Function.update t.1 i 0, if v = 1 then c else cmul fuel c (vpow (t.1 i))) ::
          replaceRows fuel v vpow i ts cs := rfl
    rw [e1, tsum_cons, tsum_cons, ih, mono_replace]
    congr 1
    dsimp only
    split
    · rename_i h; subst h; rw [h1]; simp
    · rw [cmul_val, h1, hpow]; ring

theorem forall₂_of_mapM {α β : Type} {f : α → Option β} {P : α → β → Prop} {l : List α} {l' : List β}
    (h : l.mapM f = some l') (hp : ∀ a ∈ l, ∀ b, f a = some b → P a b) : List.Forall₂ P l l' := by
  have h2 := mapM_some h
  clear h
  induction h2 with
  | nil => exact .nil
  | cons h1 _ ih => exact .cons (hp _ (by simp) _ h1) (ih (fun a ha => hp a (by simp [ha])))

theorem forall₂_map_eq {α β γ : Type} {f : α → γ} {g : β → γ} {l : List α} {l' : List β}
    (h : List.Forall₂ (fun a b => g b = f a) l l') : l'.map g = l.map f := by
  induction h with
  | nil => rfl
  | cons h1 _ ih => simp [h1, ih]

/-- `replace` substitutes the value.  For the value zero the coefficients of all polynomials must be
plain numbers. -/
theorem replace_val (v : F) (vpow : Int → F) (i : Fin n) (hpow : v ≠ 0 → ∀ k, φ (vpow k) = φ v ^ k)
    (hz : v = 0 → ∀ c, M.coef c → ∃ k, c = .num k) (fuel : Nat) :
    ∀ e e' : Expr n F, Adm M φ U e → replace v vpow i fuel e = some e' →
      ∀ x, eval φ x e' = eval φ (Function.update x i (φ v)) e := by
  induction fuel with
  | zero => intro e e' _ h; simp [replace] at h
  | succ fuel ih =>
    -- polynomials
    have hterms : ∀ (ts ts' : Terms n F), Adm M φ U (.poly ts) →
        (if v = 0 then some (replaceRowsZero i ts) else
          (ts.mapM (fun t => replace v vpow i fuel t.2)).map (replaceRows fuel v vpow i ts)) = some ts' →
        ∀ x, tsum φ x ts' = tsum φ (Function.update x i (φ v)) ts := by
      intro ts ts' hA h x
      cases hA with
      | poly _ h1 h2 h3 =>
      split at h
      · rename_i h0
        simp at h; subst h
        rw [replaceRowsZero_tsum i ts x (fun t ht => hz h0 _ (h3 t ht)), h0, map_zero]
      · rename_i h0
        obtain ⟨cs, hcs, h⟩ := Option.map_eq_some_iff.1 h
        subst h
        exact replaceRows_tsum fuel v vpow i ts cs x (hpow h0)
          (forall₂_of_mapM hcs (fun t ht c hc => ih _ _ (h2 t ht) hc x))
    intro e e' hA h x
    cases hA with
    | num c => simp [replace] at h; subst h; simp [eval_num]
    | poly ts h1 h2 h3 =>
      have hA := Adm.poly ts h1 h2 h3
      have : ∃ ts', (if v = 0 then some (replaceRowsZero i ts) else
          (ts.mapM (fun t => replace v vpow i fuel t.2)).map (replaceRows fuel v vpow i ts)) = some ts' ∧
          e' = .poly ts' := by
        simp only [replace] at h
        split at h
        · rename_i h0; simp at h; exact ⟨_, by rw [if_pos h0], h.symm⟩
        · rename_i h0
          obtain ⟨cs, hcs, h⟩ := Option.bind_eq_some_iff.1 h
          simp at h
          exact ⟨_, by rw [if_neg h0, hcs]; rfl, h.symm⟩
      obtain ⟨ts', h4, rfl⟩ := this
      rw [eval_poly', eval_poly', hterms ts ts' hA h4 x]
    | epoly ts e hp he _ _ _ =>
      have : ∃ ts' e'', (if v = 0 then some (replaceRowsZero i ts) else
          (ts.mapM (fun t => replace v vpow i fuel t.2)).map (replaceRows fuel v vpow i ts)) = some ts' ∧
          replace v vpow i fuel e = some e'' ∧ e' = .epoly ts' e'' := by
        simp only [replace] at h
        obtain ⟨e'', he'', h⟩ := Option.bind_eq_some_iff.1 h
        split at h
        · rename_i h0; simp at h; exact ⟨_, _, by rw [if_pos h0], he'', h.symm⟩
        · rename_i h0
          obtain ⟨cs, hcs, h⟩ := Option.bind_eq_some_iff.1 h
          simp at h
          exact ⟨_, _, by rw [if_neg h0, hcs]; rfl, he'', h.symm⟩
      obtain ⟨ts', e'', h4, h5, rfl⟩ := this
      rw [eval_epoly, eval_epoly, eval_poly', eval_poly', hterms ts ts' hp h4 x, ih _ _ he h5 x]
    | lpoly ts hp _ _ =>
      have : ∃ ts', (if v = 0 then some (replaceRowsZero i ts) else
          (ts.mapM (fun t => replace v vpow i fuel t.2)).map (replaceRows fuel v vpow i ts)) = some ts' ∧
          e' = .lpoly ts' := by
        simp only [replace] at h
        split at h
        · rename_i h0; simp at h; exact ⟨_, by rw [if_pos h0], h.symm⟩
        · rename_i h0
          obtain ⟨cs, hcs, h⟩ := Option.bind_eq_some_iff.1 h
          simp at h
          exact ⟨_, by rw [if_neg h0, hcs]; rfl, h.symm⟩
      obtain ⟨ts', h4, rfl⟩ := this
      rw [eval_lpoly, eval_lpoly, eval_poly', eval_poly', hterms ts ts' hp h4 x]
    | sum l hl =>
      simp only [replace] at h
      obtain ⟨l', hl', h⟩ := Option.bind_eq_some_iff.1 h
      simp at h; subst h
      have := forall₂_of_mapM (P := fun a b => eval φ x b = eval φ (Function.update x i (φ v)) a) hl'
        (fun a ha b hb => ih _ _ (hl a ha) hb x)
      rw [eval_sum, eval_sum, forall₂_map_eq this]
    | prod l hl =>
      simp only [replace] at h
      obtain ⟨l', hl', h⟩ := Option.bind_eq_some_iff.1 h
      simp at h; subst h
      have := forall₂_of_mapM (P := fun a b => eval φ x b = eval φ (Function.update x i (φ v)) a) hl'
        (fun a ha b hb => ih _ _ (hl a ha) hb x)
      rw [eval_prod, eval_prod, forall₂_map_eq this]
    | prule terms hl hlen =>
      simp only [replace] at h
      obtain ⟨l', hl', h⟩ := Option.bind_eq_some_iff.1 h
      simp at h; subst h
      have := forall₂_of_mapM (P := fun (a : Int × List (Expr n F)) b =>
          b.map (eval φ x) = a.2.map (eval φ (Function.update x i (φ v)))) hl'
        (fun a ha b hb => forall₂_map_eq (forall₂_of_mapM hb (fun f hf g hg => ih _ _ (hl a ha f hf) hg x)))
      rw [eval_sum, eval_prule, List.map_map]
      clear hl' hl h hlen
      induction this with
      | nil => rfl
      | cons h1 _ ih2 =>
        simp only [List.zip_cons_cons, List.map_cons, List.sum_cons, Function.comp]
        rw [ih2]
        congr 1
        rw [eval_prod]
        simp only [List.map_cons, List.map_nil, List.prod_cons, List.prod_nil]
        rw [eval_prod, h1, eval_const]; simp [mul_comm]
    | pow b e hb he _ _ =>
      simp only [replace] at h
      obtain ⟨b', hb', h⟩ := Option.bind_eq_some_iff.1 h
      obtain ⟨e'', he', h⟩ := Option.bind_eq_some_iff.1 h
      simp at h; subst h
      rw [eval_pow, eval_pow, ih _ _ hb hb' x, ih _ _ he he' x]
    | log a ha _ =>
      simp only [replace] at h
      obtain ⟨b', hb', h⟩ := Option.bind_eq_some_iff.1 h
      simp at h; subst h
      rw [eval_log, eval_log, ih _ _ ha hb' x]
    | exp a ha =>
      simp only [replace] at h
      obtain ⟨b', hb', h⟩ := Option.bind_eq_some_iff.1 h
      simp at h; subst h
      rw [eval_exp, eval_exp, ih _ _ ha hb' x]

theorem notOnes_zero (h01 : (0 : F) ≠ 1) {i : Fin n} {ts : Terms n F} (hN : NotOnes ts) : NotOnes (replaceRowsZero i ts) := by
  intro h
  have : ∀ t ∈ ts, t.1 = (fun _ => 0) ∧ t.2 = .num 1 := by
    intro t ht
    have h1 := h _ (List.mem_map.2 ⟨t, ht, rfl⟩)
    dsimp only at h1
    by_cases h0 : t.1 i = 0
    · rw [if_pos h0] at h1
      refine ⟨?_, h1.2⟩
      rw [← h1.1]
      funext k
      by_cases hk : k = i
      · subst hk; simp [h0]
      · rw [Function.update_of_ne hk]
    · rw [if_neg h0] at h1
      simp at h1
      exact absurd h1.2 h01
  have := hN this
  simpa [replaceRowsZero] using this

theorem flat_replace_zero {vpow : Int → F} {i : Fin n} {fuel : Nat} {e e' : Expr n F} (hf : Flat e) (h : replace 0 vpow i fuel e = some e') :
    Flat e' := by
  cases fuel with
  | zero => simp [replace] at h
  | succ fuel =>
  cases hf with
  | num c => simp [replace] at h; subst h; exact Flat.num c
  | poly ts hts =>
    simp [replace] at h; subst h
    refine Flat.poly _ ?_
    intro t ht
    obtain ⟨u, hu, rfl⟩ := List.mem_map.1 ht
    dsimp only
    split
    · exact hts u hu
    · exact ⟨0, rfl⟩

/-- Admissibility is kept by `replace(i, 0)`. -/
theorem replace_zero_gen {M : Mode n F} [M.Laws] (vpow : Int → F) (i : Fin n) (hnum : ∀ c, M.coef c → ∃ k, c = .num k)
    (hones : ∀ fuel ts e e', M.expo e → M.base ts e → replace 0 vpow i fuel e = some e' → M.base (replaceRowsZero i ts) e')
    (hexp : ∀ fuel e e', M.expo e → replace 0 vpow i fuel e = some e' → M.expo e') (fuel : Nat) :
    ∀ e e' : Expr n F, Adm M φ U e → replace 0 vpow i fuel e = some e' →
      Adm M φ {x | Function.update x i 0 ∈ U} e' := by
  induction fuel with
  | zero => intro e e' _ h; simp [replace] at h
  | succ fuel ih =>
    have hval : ∀ e e' : Expr n F, Adm M φ U e → replace 0 vpow i (fuel+1) e = some e' →
        ∀ x, eval φ x e' = eval φ (Function.update x i 0) e := by
      intro e e' hA h x
      have := replace_val (M := M) (φ := φ) (U := U) 0 vpow i (fun h => absurd rfl h)
        (fun _ c hc => hnum c hc) (fuel+1) e e' hA h x
      rwa [map_zero] at this
    have hpoly : ∀ ts : Terms n F, Adm M φ U (.poly ts) →
        Adm M φ {x | Function.update x i 0 ∈ U} (.poly (replaceRowsZero i ts)) := by
      intro ts hA
      cases hA with
      | poly _ h1 h2 h3 =>
      have hco : ∀ t ∈ replaceRowsZero i ts, ∃ c, t.2 = .num c := by
        intro t ht
        obtain ⟨u, hu, rfl⟩ := List.mem_map.1 ht
        dsimp only
        split
        · exact hnum _ (h3 u hu)
        · exact ⟨0, rfl⟩
      refine Adm.poly _ ?_ ?_ (fun t ht => by obtain ⟨c, hc⟩ := hco t ht; rw [hc]; exact Mode.Laws.numc c)
      · intro t ht x hx k hk
        obtain ⟨u, hu, rfl⟩ := List.mem_map.1 ht
        dsimp only
        by_cases hki : k = i
        · subst hki; simp
        · rw [Function.update_of_ne hki]
          exact h1 u hu _ hx k (by rw [Function.update_of_ne hki]; exact hk)
      · intro t ht
        obtain ⟨c, hc⟩ := hco t ht
        rw [hc]; exact Adm.num c
    have hcoef : ∀ ts : Terms n F, Adm M φ U (.poly ts) → ∀ t ∈ ts, ∃ c, t.2 = .num c := by
      intro ts hA
      cases hA with
      | poly _ h1 h2 h3 => exact fun t ht => hnum _ (h3 t ht)
    intro e e' hA h
    cases e with
    | num c => simp [replace] at h; subst h; exact Adm.num c
    | poly ts => simp [replace] at h; subst h; exact hpoly ts hA
    | epoly ts e =>
      have hv := hval _ _ hA h
      cases hA with
      | epoly _ _ hp he hx hb hs =>
      simp only [replace] at h
      obtain ⟨e'', he'', h⟩ := Option.bind_eq_some_iff.1 h
      simp at h; subst h
      refine Adm.epoly _ _ (hpoly ts hp) (ih _ _ he he'') (hexp _ _ _ hx he'')
        (hones _ ts _ _ hx hb he'') ?_
      rcases hs with hs | ⟨c, k, rfl, hk, hs⟩
      · left
        intro x hx
        rw [eval_poly', replaceRowsZero_tsum i ts x (hcoef ts hp), ← eval_poly']
        exact hs _ hx
      · right
        refine ⟨c, k, ?_, hk, ?_⟩
        · cases fuel with
          | zero => simp [replace] at he''
          | succ fuel => simp [replace] at he''; exact he''.symm
        intro x hx
        rw [eval_poly', replaceRowsZero_tsum i ts x (hcoef ts hp), ← eval_poly']
        exact hs _ hx
    | lpoly ts =>
      cases hA with
      | lpoly _ hp hb hs =>
      simp [replace] at h; subst h
      refine Adm.lpoly _ (hpoly ts hp) (hones 1 ts _ _ Mode.Laws.num hb (by simp [replace])) ?_
      intro x hx
      rw [eval_poly', replaceRowsZero_tsum i ts x (hcoef ts hp), ← eval_poly']
      exact hs _ hx
    | sum l =>
      cases hA with
      | sum _ hl =>
      simp only [replace] at h
      obtain ⟨l', hl', h⟩ := Option.bind_eq_some_iff.1 h
      simp at h; subst h
      refine Adm.sum _ (fun b hb => ?_)
      obtain ⟨a, ha, hab⟩ := forall₂_mem_right (mapM_some hl') hb
      exact ih _ _ (hl a ha) hab
    | prod l =>
      cases hA with
      | prod _ hl =>
      simp only [replace] at h
      obtain ⟨l', hl', h⟩ := Option.bind_eq_some_iff.1 h
      simp at h; subst h
      refine Adm.prod _ (fun b hb => ?_)
      obtain ⟨a, ha, hab⟩ := forall₂_mem_right (mapM_some hl') hb
      exact ih _ _ (hl a ha) hab
    | prule terms =>
      cases hA with
      | prule _ hl _ =>
      simp only [replace] at h
      obtain ⟨l', hl', h⟩ := Option.bind_eq_some_iff.1 h
      simp at h; subst h
      refine Adm.sum _ (fun b hb => ?_)
      obtain ⟨p, hp, rfl⟩ := List.mem_map.1 hb
      have hp2 := (List.of_mem_zip (a := p.1) (b := p.2) hp).2
      obtain ⟨a, ha, hab⟩ := forall₂_mem_right (mapM_some hl') hp2
      refine Adm.prod _ (fun c hc => ?_)
      simp at hc
      rcases hc with rfl | rfl
      · refine Adm.prod _ (fun d hd => ?_)
        obtain ⟨f, hf, hfd⟩ := forall₂_mem_right (mapM_some hab) hd
        exact ih _ _ (hl a ha f hf) hfd
      · exact adm_const _
    | pow b e =>
      cases hA with
      | pow _ _ hb he hx hs =>
      simp only [replace] at h
      obtain ⟨b', hb', h⟩ := Option.bind_eq_some_iff.1 h
      obtain ⟨e'', he', h⟩ := Option.bind_eq_some_iff.1 h
      simp at h; subst h
      refine Adm.pow _ _ (ih _ _ hb hb') (ih _ _ he he') (hexp _ _ _ hx he') ?_
      intro x hx
      have := replace_val (M := M) (φ := φ) (U := U) 0 vpow i (fun h => absurd rfl h)
        (fun _ c hc => hnum c hc) fuel b b' hb hb' x
      rw [map_zero] at this
      rw [this]; exact hs _ hx
    | log a =>
      cases hA with
      | log _ ha hs =>
      simp only [replace] at h
      obtain ⟨b', hb', h⟩ := Option.bind_eq_some_iff.1 h
      simp at h; subst h
      refine Adm.log _ (ih _ _ ha hb') ?_
      intro x hx
      have := replace_val (M := M) (φ := φ) (U := U) 0 vpow i (fun h => absurd rfl h)
        (fun _ c hc => hnum c hc) fuel a b' ha hb' x
      rw [map_zero] at this
      rw [this]; exact hs _ hx
    | exp a =>
      cases hA with
      | exp _ ha =>
      simp only [replace] at h
      obtain ⟨b', hb', h⟩ := Option.bind_eq_some_iff.1 h
      simp at h; subst h
      exact Adm.exp _ (ih _ _ ha hb')

/-- Admissibility is kept by `replace(i, 0)` in the flat mode. -/
theorem replace_zero_adm (vpow : Int → F) (i : Fin n) (fuel : Nat) :
    ∀ e e' : Expr n F, Adm Mode.flat φ U e → replace 0 vpow i fuel e = some e' →
      Adm Mode.flat φ {x | Function.update x i 0 ∈ U} e' :=
  replace_zero_gen vpow i (fun _ h => h) (fun _ _ _ _ _ h _ => notOnes_zero (by
    intro h
    have := congrArg φ h
    simp at this) h) (fun _ _ _ h1 h2 => flat_replace_zero h1 h2) fuel

end Expr
end SecDec
