import Verif.Proof.ExprReplace
/-
The laws of the mode `Mode.nonint`, and substitution of the value one.
-/
set_option linter.unusedSectionVars false
namespace SecDec
namespace Expr
variable {n : Nat} {F : Type} [CommRing F] [DecidableEq F]
variable {φ : F →+* ℂ} {U : Set (Fin n → ℂ)} {dep : Fin n → Prop}

/-- Points with nonzero coordinates. -/
def nz (n : Nat) : Set (Fin n → ℂ) := {x | ∀ i, x i ≠ 0}

theorem update_nz {x : Fin n → ℂ} (hx : x ∈ nz n) {i : Fin n} {s : ℂ} (hs : s ≠ 0) : Function.update x i s ∈ nz n := by
  intro k
  by_cases hk : k = i
  · subst hk; simpa using hs
  · rw [Function.update_of_ne hk]; exact hx k

theorem flat_adm {M : Mode n F} [M.Laws] {e : Expr n F} (h : Flat e) : Adm M φ (nz n) e := by
  cases h with
  | num c => exact Adm.num c
  | poly ts hts =>
    refine Adm.poly _ ?_ ?_ ?_
    · intro t _ x hx i hi; exact absurd hi (hx i)
    · intro t ht; obtain ⟨c, hc⟩ := hts t ht; rw [hc]; exact Adm.num c
    · intro t ht; obtain ⟨c, hc⟩ := hts t ht; rw [hc]; exact Mode.Laws.numc c

/-- The condition on exponents depends on the values only. -/
theorem nonint_congr {e s : Expr n F} (hs : Flat s) (h : (Mode.nonint φ dep).expo e)
    (hv : ∀ x ∈ nz n, eval φ x s = eval φ x e) : (Mode.nonint φ dep).expo s := by
  obtain ⟨_, h2, h3⟩ := h
  refine ⟨hs, fun k => ?_, fun i hi x r hx hr => ?_⟩
  · obtain ⟨x, hx, hne⟩ := h2 k
    exact ⟨x, hx, by rw [hv x hx]; exact hne⟩
  · rw [hv _ (update_nz hx hr), hv x hx]; exact h3 i hi x r hx hr

theorem flat_simplify_val {fuel : Nat} {e s : Expr n F} (h : Flat e) (hs : simplify fuel e = some s) :
    ∀ x ∈ nz n, eval φ x s = eval φ x e :=
  fun x hx => ((simplify_ok (M := Mode.flat) (φ := φ) (U := nz n) fuel).simp e s (flat_adm h) hs).1.2 x hx

theorem flat_unwrap_val {fuel : Nat} {e s : Expr n F} (h : Flat e) (hs : simplify fuel e = some s) :
    ∀ x ∈ nz n, eval φ x (unwrapExponent s) = eval φ x e := by
  intro x hx
  obtain ⟨h1, h2⟩ := flat_simplify h hs
  rw [← flat_simplify_val (φ := φ) h hs x hx]
  exact (unwrapExponent_ok (M := Mode.flat) (φ := φ) (U := nz n) (flat_adm h1) (h2 φ)).2 x hx

theorem expo_minus_one {e : Expr n F} (hf : Flat e) (hv : ∀ x, eval φ x e = -1) : (Mode.nonint φ dep).expo e := by
  refine ⟨hf, fun k => ⟨fun _ => 1, fun _ => one_ne_zero, ?_⟩, fun i _ x s _ _ => by rw [hv, hv]⟩
  rw [hv]
  intro h
  have := congrArg Complex.re h
  simp at this
  have h2 : (0:ℝ) ≤ k := Nat.cast_nonneg k
  linarith

instance instLawsNonint : (Mode.nonint φ dep : Mode n F).Laws where
  numc := fun c => ⟨c, rfl⟩
  caddc := fun _ _ _ h1 h2 => by obtain ⟨c, rfl⟩ := h1; obtain ⟨d, rfl⟩ := h2; exact ⟨_, rfl⟩
  caddb := fun _ _ h1 h2 => by obtain ⟨c, rfl⟩ := h1; obtain ⟨d, rfl⟩ := h2; exact ⟨_, rfl⟩
  cmulc := fun fuel _ _ h1 => by obtain ⟨c, rfl⟩ := h1; cases fuel <;> exact ⟨_, rfl⟩
  mulc := fun fuel _ _ h1 h2 => by
    obtain ⟨c, rfl⟩ := h1; obtain ⟨d, rfl⟩ := h2; cases fuel <;> exact ⟨_, rfl⟩
  simpc := fun _ _ _ h1 h2 _ => by obtain ⟨c, rfl⟩ := h1; simp [isNum] at h2
  derivec := fun _ _ _ _ h1 h2 _ => by obtain ⟨c, rfl⟩ := h1; simp [isNum] at h2
  ones := fun ts h => h
  distinct := fun ts h hne h' => good_of_distinct h hne (fun t ht => (h' t ht).1)
  cleanBase := fun _ _ _ => trivial
  subBase := fun _ _ _ _ _ => trivial
  logBase := fun _ _ _ _ => trivial
  one := fun fuel e ts hx _ h => by
    exfalso
    obtain ⟨h1, h2, _⟩ := hx
    obtain ⟨x, hxn, hne⟩ := h2 0
    apply hne
    split at h
    · simp at h; subst h; simp [eval_num]
    · obtain ⟨s, hs, h⟩ := Option.map_eq_some_iff.1 h
      rw [← flat_unwrap_val (φ := φ) h1 hs x hxn, h]
      simp [eval_num]
  num := expo_minus_one (Flat.num _) (fun x => by simp [eval_num])
  const := expo_minus_one (flat_const _) (fun x => by simp [eval_const])
  sub := fun fuel e h => by
    obtain ⟨h1, h2, h3⟩ := h
    have hv : ∀ x ∈ nz n, eval φ x (subOne fuel e) = eval φ x e - 1 :=
      (subOne_ok (M := Mode.flat) (φ := φ) (U := nz n) fuel e (flat_adm h1)).2
    refine ⟨flat_subOne fuel h1, fun k => ?_, fun i hi x r hx hr => ?_⟩
    · obtain ⟨x, hx, hne⟩ := h2 (k + 1)
      refine ⟨x, hx, ?_⟩
      rw [hv x hx]
      intro h
      apply hne
      push_cast
      linear_combination h
    · rw [hv _ (update_nz hx hr), hv x hx, h3 i hi x r hx hr]
  simp := fun _ _ _ h hs => nonint_congr (flat_simplify h.1 hs).1 h (flat_simplify_val h.1 hs)
  unwrap := fun _ _ _ h hs => nonint_congr (flat_unwrap (flat_simplify h.1 hs).1) h (flat_unwrap_val h.1 hs)
  good := fun ψ _ _ _ h hs _ => (flat_simplify h.1 hs).2 ψ

/-- A polynomial with numeric coefficients. -/
theorem rows_one {i : Fin n} (fuel : Nat) (ts : Terms n F) (cs : List (Expr n F)) (hts : ∀ t ∈ ts, ∃ c, t.2 = .num c)
    (hm : ts.mapM (fun t => replace 1 (fun _ => 1) i fuel t.2) = some cs) :
    replaceRows fuel 1 (fun _ => 1) i ts cs = ts.map (fun t => (Function.update t.1 i 0, t.2)) := by
  have hf := mapM_some hm
  have hcs : cs = ts.map (·.2) := by
    clear hm
    induction hf with
    | nil => rfl
    | cons h1 _ ih2 =>
      rename_i t c ts cs _
      rw [ih2 (fun t ht => hts t (by simp [ht]))]
      obtain ⟨k, hk⟩ := hts t (by simp)
      cases fuel with
      | zero => simp [replace] at h1
      | succ fuel =>
        simp only [hk, replace, Option.some.injEq] at h1
        rw [List.map_cons, hk, h1]
  subst hcs
  unfold replaceRows
  clear hf hm hts
  induction ts with
  | nil => rfl
  | cons t ts ih2 =>
    rw [List.map_cons, List.zip_cons_cons, List.map_cons, ih2, List.map_cons]
    simp

theorem flat_replace_one (h10 : (1 : F) ≠ 0) {i : Fin n} {fuel : Nat} {e e' : Expr n F} (hf : Flat e)
    (h : replace 1 (fun _ => 1) i fuel e = some e') : Flat e' := by
  cases fuel with
  | zero => simp [replace] at h
  | succ fuel =>
  cases hf with
  | num c => simp [replace] at h; subst h; exact Flat.num c
  | poly ts hts =>
    simp only [replace, if_neg h10] at h
    obtain ⟨cs, hcs, h⟩ := Option.bind_eq_some_iff.1 h
    simp at h; subst h
    rw [rows_one fuel ts cs hts hcs]
    refine Flat.poly _ ?_
    intro t ht
    obtain ⟨u, hu, rfl⟩ := List.mem_map.1 ht
    exact hts u hu

/-- Admissibility is kept by `replace(i, 1)`, for modes without conditions on the bases. -/
theorem replace_one_gen {M : Mode n F} [M.Laws] (i : Fin n) (hnum : ∀ c, M.coef c → ∃ k, c = .num k) (hbase : ∀ ts e, M.base ts e)
    (hexpo : ∀ fuel e e', M.expo e → replace 1 (fun _ => 1) i fuel e = some e' → M.expo e') (fuel : Nat) :
    ∀ e e' : Expr n F, Adm M φ U e → replace 1 (fun _ => 1) i fuel e = some e' →
      Adm M φ {x | Function.update x i 1 ∈ U} e' := by
  have h10 : (1 : F) ≠ 0 := by
    intro h
    have := congrArg φ h
    simp at this
  have hpow : (1 : F) ≠ 0 → ∀ k : ℤ, φ ((fun _ => 1 : Int → F) k) = φ 1 ^ k := by intro _ k; simp
  have hval : ∀ (fuel : Nat) (e e' : Expr n F), Adm M φ U e → replace 1 (fun _ => 1) i fuel e = some e' →
      ∀ x, eval φ x e' = eval φ (Function.update x i 1) e := by
    intro fuel e e' hA h x
    have := replace_val (M := M) (φ := φ) (U := U) 1 (fun _ => 1) i hpow
      (fun h => absurd h h10) fuel e e' hA h x
    rwa [map_one] at this
  induction fuel with
  | zero => intro e e' _ h; simp [replace] at h
  | succ fuel ih =>
    have hpoly : ∀ ts : Terms n F, Adm M φ U (.poly ts) →
        Adm M φ {x | Function.update x i 1 ∈ U}
          (.poly (ts.map (fun t => (Function.update t.1 i 0, t.2)))) := by
      intro ts hA
      cases hA with
      | poly _ h1 h2 h3 =>
      refine Adm.poly _ ?_ ?_ ?_
      · intro t ht x hx k hk
        obtain ⟨u, hu, rfl⟩ := List.mem_map.1 ht
        dsimp only
        by_cases hki : k = i
        · subst hki; simp
        · rw [Function.update_of_ne hki]
          exact h1 u hu _ hx k (by rw [Function.update_of_ne hki]; exact hk)
      · intro t ht
        obtain ⟨u, hu, rfl⟩ := List.mem_map.1 ht
        obtain ⟨c, hc⟩ := hnum _ (h3 u hu)
        simp only [hc]; exact Adm.num c
      · intro t ht
        obtain ⟨u, hu, rfl⟩ := List.mem_map.1 ht
        exact h3 u hu
    have hcoef : ∀ ts : Terms n F, Adm M φ U (.poly ts) → ∀ t ∈ ts, ∃ c, t.2 = .num c := by
      intro ts hA
      cases hA with
      | poly _ h1 h2 h3 => exact fun t ht => hnum _ (h3 t ht)
    have hpv : ∀ (ts : Terms n F) x, (∀ t ∈ ts, ∃ c, t.2 = .num c) →
        eval φ x (.poly (ts.map (fun t => (Function.update t.1 i 0, t.2)))) = eval φ (Function.update x i 1) (.poly ts) := by
      intro ts x hts
      rw [eval_poly, eval_poly, List.map_map]
      congr 1
      refine List.map_congr_left fun t ht => ?_
      obtain ⟨c, hc⟩ := hts t ht
      simp only [Function.comp, hc, eval_num, mono_replace, one_zpow, one_mul]
    intro e e' hA h
    cases e with
    | num c => simp [replace] at h; subst h; exact Adm.num c
    | poly ts =>
      simp only [replace, if_neg h10] at h
      obtain ⟨cs, hcs, h⟩ := Option.bind_eq_some_iff.1 h
      simp at h; subst h
      rw [rows_one fuel ts cs (hcoef ts hA) hcs]
      exact hpoly ts hA
    | epoly ts e =>
      cases hA with
      | epoly _ _ hp he hx hb hs =>
      simp only [replace, if_neg h10] at h
      obtain ⟨e'', he'', h⟩ := Option.bind_eq_some_iff.1 h
      obtain ⟨cs, hcs, h⟩ := Option.bind_eq_some_iff.1 h
      simp at h; subst h
      rw [rows_one fuel ts cs (hcoef ts hp) hcs]
      refine Adm.epoly _ _ (hpoly ts hp) (ih _ _ he he'') (hexpo _ _ _ hx he'') (hbase _ _) ?_
      rcases hs with hs | ⟨c, k, rfl, hk, hs⟩
      · left
        intro x hx
        rw [hpv ts x (hcoef ts hp)]
        exact hs _ hx
      · right
        refine ⟨c, k, ?_, hk, ?_⟩
        · cases fuel with
          | zero => simp [replace] at he''
          | succ fuel => simp [replace] at he''; exact he''.symm
        intro x hx
        rw [hpv ts x (hcoef ts hp)]
        exact hs _ hx
    | lpoly ts =>
      cases hA with
      | lpoly _ hp hb hs =>
      simp only [replace, if_neg h10] at h
      obtain ⟨cs, hcs, h⟩ := Option.bind_eq_some_iff.1 h
      simp at h; subst h
      rw [rows_one fuel ts cs (hcoef ts hp) hcs]
      refine Adm.lpoly _ (hpoly ts hp) (hbase _ _) ?_
      intro x hx
      rw [hpv ts x (hcoef ts hp)]
      exact hs _ hx
    | sum l =>
      cases hA with
      | sum _ hl =>
      simp only [replace] at h
      obtain ⟨l', hl', h⟩ := Option.bind_eq_some_iff.1 h
      simp at h; subst h
      refine Adm.sum _ (fun b hb => ?_)
      obtain ⟨a, ha, hab⟩ := forall₂_mem_right (mapM_some hl') hb
      exact ih _ _ (hl a ha) hab
    | prod l =>
      cases hA with
      | prod _ hl =>
      simp only [replace] at h
      obtain ⟨l', hl', h⟩ := Option.bind_eq_some_iff.1 h
      simp at h; subst h
      refine Adm.prod _ (fun b hb => ?_)
      obtain ⟨a, ha, hab⟩ := forall₂_mem_right (mapM_some hl') hb
      exact ih _ _ (hl a ha) hab
    | prule terms =>
      cases hA with
      | prule _ hl _ =>
      simp only [replace] at h
      obtain ⟨l', hl', h⟩ := Option.bind_eq_some_iff.1 h
      simp at h; subst h
      refine Adm.sum _ (fun b hb => ?_)
      obtain ⟨p, hp, rfl⟩ := List.mem_map.1 hb
      have hp2 := (List.of_mem_zip (a := p.1) (b := p.2) hp).2
      obtain ⟨a, ha, hab⟩ := forall₂_mem_right (mapM_some hl') hp2
      refine Adm.prod _ (fun c hc => ?_)
      simp at hc
      rcases hc with rfl | rfl
      · refine Adm.prod _ (fun d hd => ?_)
        obtain ⟨f, hf, hfd⟩ := forall₂_mem_right (mapM_some hab) hd
        exact ih _ _ (hl a ha f hf) hfd
      · exact adm_const _
    | pow b e =>
      cases hA with
      | pow _ _ hb he hx hs =>
      simp only [replace] at h
      obtain ⟨b', hb', h⟩ := Option.bind_eq_some_iff.1 h
      obtain ⟨e'', he', h⟩ := Option.bind_eq_some_iff.1 h
      simp at h; subst h
      refine Adm.pow _ _ (ih _ _ hb hb') (ih _ _ he he') (hexpo _ _ _ hx he') ?_
      intro x hx
      rw [hval fuel b b' hb hb' x]; exact hs _ hx
    | log a =>
      cases hA with
      | log _ ha hs =>
      simp only [replace] at h
      obtain ⟨b', hb', h⟩ := Option.bind_eq_some_iff.1 h
      simp at h; subst h
      refine Adm.log _ (ih _ _ ha hb') ?_
      intro x hx
      rw [hval fuel a b' ha hb' x]; exact hs _ hx
    | exp a =>
      cases hA with
      | exp _ ha =>
      simp only [replace] at h
      obtain ⟨b', hb', h⟩ := Option.bind_eq_some_iff.1 h
      simp at h; subst h
      exact Adm.exp _ (ih _ _ ha hb')

/-- Admissibility is kept by `replace(i, 1)` in the mode `nonint`, if exponents do not depend on the
variable `i`. -/
theorem replace_one_adm (i : Fin n) (hi : ¬ dep i) (fuel : Nat) :
    ∀ e e' : Expr n F, Adm (Mode.nonint φ dep) φ U e → replace 1 (fun _ => 1) i fuel e = some e' →
      Adm (Mode.nonint φ dep) φ {x | Function.update x i 1 ∈ U} e' := by
  have h10 : (1 : F) ≠ 0 := by
    intro h
    have := congrArg φ h
    simp at this
  have hpow : (1 : F) ≠ 0 → ∀ k : ℤ, φ ((fun _ => 1 : Int → F) k) = φ 1 ^ k := by intro _ k; simp
  refine replace_one_gen i (fun _ h => h) (fun _ _ => trivial) (fun fuel e e' he h => ?_) fuel
  have hv : ∀ x ∈ nz n, eval φ x e' = eval φ x e := by
    intro x hx
    have := replace_val (M := Mode.nonint φ dep) (φ := φ) (U := nz n) 1 (fun _ => 1) i hpow
      (fun h => absurd h h10) fuel e e' (flat_adm he.1) h x
    rw [this, map_one]
    exact he.2.2 i hi x 1 hx one_ne_zero
  exact nonint_congr (flat_replace_one h10 he.1 h) he hv

/-! ### The mode `nonint0` -/

theorem flat_adm_univ {M : Mode n F} [M.Laws] {e : Expr n F} (h : Flat e) (hn : NonNegPowers e) : Adm M φ Set.univ e := by
  cases h with
  | num c => exact Adm.num c
  | poly ts hts =>
    refine Adm.poly _ ?_ ?_ ?_
    · intro t ht x hx i hi; exact hn ts rfl t ht i
    · intro t ht; obtain ⟨c, hc⟩ := hts t ht; rw [hc]; exact Adm.num c
    · intro t ht; obtain ⟨c, hc⟩ := hts t ht; rw [hc]; exact Mode.Laws.numc c

theorem nonNeg_of_adm {M : Mode n F} {e : Expr n F} {U : Set (Fin n → ℂ)} (h : Adm M φ U e) (h0 : (0 : Fin n → ℂ) ∈ U) : NonNegPowers e := by
  rintro ts rfl t ht i
  cases h with
  | poly _ h1 _ _ => exact h1 t ht 0 h0 i rfl

/-- The condition on exponents depends on the values only. -/
theorem nonint0_congr {e s : Expr n F} (hs : Flat s) (hn : NonNegPowers s) (h : (Mode.nonint0 φ dep).expo e)
    (hv : ∀ x, eval φ x s = eval φ x e) : (Mode.nonint0 φ dep).expo s := by
  obtain ⟨_, ⟨_, h2⟩, h3⟩ := h
  exact ⟨hs, ⟨hn, fun k => by rw [hv]; exact h2 k⟩, fun i hi x r => by rw [hv, hv]; exact h3 i hi x r⟩

theorem flat0_simplify {fuel : Nat} {e s : Expr n F} (h : Flat e) (hn : NonNegPowers e) (hs : simplify fuel e = some s) :
    Flat s ∧ NonNegPowers s ∧ ∀ x, eval φ x s = eval φ x e := by
  obtain ⟨⟨a1, a2⟩, _⟩ := (simplify_ok (M := Mode.flat) (φ := φ) (U := Set.univ) fuel).simp e s (flat_adm_univ h hn) hs
  exact ⟨(flat_simplify h hs).1, nonNeg_of_adm a1 trivial, fun x => a2 x trivial⟩

theorem flat0_unwrap {fuel : Nat} {e s : Expr n F} (h : Flat e) (hn : NonNegPowers e) (hs : simplify fuel e = some s) :
    Flat (unwrapExponent s) ∧ NonNegPowers (unwrapExponent s) ∧ ∀ x, eval φ x (unwrapExponent s) = eval φ x e := by
  obtain ⟨h1, h2⟩ := flat_simplify h hs
  obtain ⟨_, b2, b3⟩ := flat0_simplify (φ := φ) h hn hs
  obtain ⟨c1, c2⟩ := unwrapExponent_ok (M := Mode.flat) (φ := φ) (U := Set.univ) (flat_adm_univ h1 b2) (h2 φ)
  exact ⟨flat_unwrap h1, nonNeg_of_adm c1 trivial, fun x => (c2 x trivial).trans (b3 x)⟩

theorem expo0_minus_one {e : Expr n F} (hf : Flat e) (hn : NonNegPowers e) (hv : ∀ x, eval φ x e = -1) : (Mode.nonint0 φ dep).expo e := by
  refine ⟨hf, ⟨hn, fun k => ?_⟩, fun i _ x s => by rw [hv, hv]⟩
  rw [hv]
  intro h
  have := congrArg Complex.re h
  simp at this
  have h2 : (0:ℝ) ≤ k := Nat.cast_nonneg k
  linarith

instance instLawsNonint0 : (Mode.nonint0 φ dep : Mode n F).Laws where
  numc := fun c => ⟨c, rfl⟩
  caddc := fun _ _ _ h1 h2 => by obtain ⟨c, rfl⟩ := h1; obtain ⟨d, rfl⟩ := h2; exact ⟨_, rfl⟩
  caddb := fun _ _ h1 h2 => by obtain ⟨c, rfl⟩ := h1; obtain ⟨d, rfl⟩ := h2; exact ⟨_, rfl⟩
  cmulc := fun fuel _ _ h1 => by obtain ⟨c, rfl⟩ := h1; cases fuel <;> exact ⟨_, rfl⟩
  mulc := fun fuel _ _ h1 h2 => by
    obtain ⟨c, rfl⟩ := h1; obtain ⟨d, rfl⟩ := h2; cases fuel <;> exact ⟨_, rfl⟩
  simpc := fun _ _ _ h1 h2 _ => by obtain ⟨c, rfl⟩ := h1; simp [isNum] at h2
  derivec := fun _ _ _ _ h1 h2 _ => by obtain ⟨c, rfl⟩ := h1; simp [isNum] at h2
  ones := fun ts h => h
  distinct := fun ts h hne h' => good_of_distinct h hne (fun t ht => (h' t ht).1)
  cleanBase := fun _ _ _ => trivial
  subBase := fun _ _ _ _ _ => trivial
  logBase := fun _ _ _ _ => trivial
  one := fun fuel e ts hx _ h => by
    exfalso
    obtain ⟨h1, ⟨hn, h2⟩, _⟩ := hx
    apply h2 0
    split at h
    · simp at h; subst h; simp [eval_num]
    · obtain ⟨s, hs, h⟩ := Option.map_eq_some_iff.1 h
      rw [← (flat0_unwrap (φ := φ) h1 hn hs).2.2 0, h]
      simp [eval_num]
  num := expo0_minus_one (Flat.num _) (by rintro ts ⟨⟩) (fun x => by simp [eval_num])
  const := expo0_minus_one (flat_const _) (by
    intro ts h t ht i
    unfold const at h
    cases h
    simp at ht; subst ht; simp) (fun x => by simp [eval_const])
  sub := fun fuel e h => by
    obtain ⟨h1, ⟨hn, h2⟩, h3⟩ := h
    obtain ⟨a1, hv⟩ := subOne_ok (M := Mode.flat) (φ := φ) (U := Set.univ) fuel e (flat_adm_univ h1 hn)
    refine ⟨flat_subOne fuel h1, ⟨nonNeg_of_adm a1 trivial, fun k => ?_⟩, fun i hi x r => ?_⟩
    · rw [hv 0 trivial]
      intro h
      apply h2 (k + 1)
      push_cast
      linear_combination h
    · rw [hv _ trivial, hv x trivial]
      beta_reduce
      rw [h3 i hi x r]
  simp := fun _ _ _ h hs => by
    obtain ⟨a, b, c⟩ := flat0_simplify (φ := φ) h.1 h.2.1.1 hs
    exact nonint0_congr a b h c
  unwrap := fun _ _ _ h hs => by
    obtain ⟨a, b, c⟩ := flat0_unwrap (φ := φ) h.1 h.2.1.1 hs
    exact nonint0_congr a b h c
  good := fun ψ _ _ _ h hs _ => (flat_simplify h.1 hs).2 ψ

theorem replace_one_adm0 (i : Fin n) (hi : ¬ dep i) (fuel : Nat) (e e' : Expr n F) (hA : Adm (Mode.nonint0 φ dep) φ U e)
    (h : replace 1 (fun _ => 1) i fuel e = some e') : Adm (Mode.nonint0 φ dep) φ {x | Function.update x i 1 ∈ U} e' := by
  have h10 : (1 : F) ≠ 0 := by
    intro h
    have := congrArg φ h
    simp at this
  have hpow : (1 : F) ≠ 0 → ∀ k : ℤ, φ ((fun _ => 1 : Int → F) k) = φ 1 ^ k := by intro _ k; simp
  refine replace_one_gen i (fun _ h => h) (fun _ _ => trivial) (fun fuel e e' he h => ?_) fuel e e' hA h
  have hv : ∀ x, eval φ x e' = eval φ x e := by
    intro x
    have := replace_val (M := Mode.nonint0 φ dep) (φ := φ) (U := Set.univ) 1 (fun _ => 1) i hpow
      (fun h => absurd h h10) fuel e e' (flat_adm_univ he.1 he.2.1.1) h x
    rw [this]
    exact he.2.2 i hi x _
  refine nonint0_congr (flat_replace_one h10 he.1 h) ?_ he hv
  have hf := he.1
  have hn := he.2.1.1
  cases fuel with
  | zero => simp [replace] at h
  | succ fuel =>
  cases hf with
  | num c => simp [replace] at h; subst h; exact hn
  | poly ts hts =>
    simp only [replace, if_neg h10] at h
    obtain ⟨cs, hcs, h⟩ := Option.bind_eq_some_iff.1 h
    simp at h; subst h
    rw [rows_one fuel ts cs hts hcs]
    intro ts' hts' t ht k
    cases hts'
    obtain ⟨u, hu, rfl⟩ := List.mem_map.1 ht
    dsimp only
    by_cases hk : k = i
    · subst hk; simp
    · rw [Function.update_of_ne hk]; exact hn ts rfl u hu k

theorem replace_zero_adm0 (vpow : Int → F) (i : Fin n) (fuel : Nat) (e e' : Expr n F) (hA : Adm (Mode.nonint0 φ dep) φ U e)
    (h : replace 0 vpow i fuel e = some e') : Adm (Mode.nonint0 φ dep) φ {x | Function.update x i 0 ∈ U} e' := by
  refine replace_zero_gen vpow i (fun _ h => h) (fun _ _ _ _ _ _ _ => trivial) (fun fuel e e' he h => ?_) fuel e e' hA h
  have hA0 : Adm (Mode.flat) φ Set.univ e := flat_adm_univ he.1 he.2.1.1
  have hv : ∀ x, eval φ x e' = eval φ (Function.update x i 0) e := by
    intro x
    have := replace_val (M := Mode.flat) (φ := φ) (U := Set.univ) 0 vpow i (fun h => absurd rfl h)
      (fun _ c hc => hc) fuel e e' hA0 h x
    rwa [map_zero] at this
  have hA1 := replace_zero_adm vpow i fuel e e' hA0 h
  refine ⟨flat_replace_zero he.1 h, ⟨nonNeg_of_adm hA1 trivial, fun k => ?_⟩, fun j hj x s => ?_⟩
  · rw [hv, show Function.update (0 : Fin n → ℂ) i 0 = 0 by ext; simp [Function.update_apply]]; exact he.2.1.2 k
  · rw [hv, hv]
    by_cases hji : j = i
    · subst hji; rw [Function.update_idem]
    · rw [Function.update_comm hji]; exact he.2.2 j hj _ s

/-! ### The mode `free` -/

theorem notPos_sub {fuel : Nat} {e : Expr n F} (hf : Flat e) (h : NotPosIntAtZero φ e) : NotPosIntAtZero φ (subOne fuel e) := by
  obtain ⟨hn, h2⟩ := h
  obtain ⟨a1, hv⟩ := subOne_ok (M := Mode.flat) (φ := φ) (U := Set.univ) fuel e (flat_adm_univ hf hn)
  refine ⟨nonNeg_of_adm a1 trivial, fun k => ?_⟩
  rw [hv 0 trivial]
  intro h
  apply h2 (k + 1)
  push_cast
  linear_combination h

theorem notPos_minus_one : NotPosIntAtZero φ (.num (-1) : Expr n F) :=
  (expo0_minus_one (dep := fun _ => False) (Flat.num _) (by rintro ts ⟨⟩) (fun x => by simp [eval_num])).2.1

theorem notPos_zero {vpow : Int → F} {i : Fin n} {fuel : Nat} {e e' : Expr n F} (hf : Flat e) (h : NotPosIntAtZero φ e)
    (hr : replace 0 vpow i fuel e = some e') : NotPosIntAtZero φ e' := by
  have hA0 : Adm (Mode.flat) φ Set.univ e := flat_adm_univ hf h.1
  have hv : ∀ x, eval φ x e' = eval φ (Function.update x i 0) e := by
    intro x
    have := replace_val (M := Mode.flat) (φ := φ) (U := Set.univ) 0 vpow i (fun h => absurd rfl h)
      (fun _ c hc => hc) fuel e e' hA0 hr x
    rwa [map_zero] at this
  refine ⟨nonNeg_of_adm (replace_zero_adm vpow i fuel e e' hA0 hr) trivial, fun k => ?_⟩
  rw [hv, show Function.update (0 : Fin n → ℂ) i 0 = 0 by ext; simp [Function.update_apply]]; exact h.2 k

instance instLawsFree : (Mode.free φ : Mode n F).Laws where
  numc := fun c => ⟨c, rfl⟩
  caddc := fun _ _ _ h1 h2 => by obtain ⟨c, rfl⟩ := h1; obtain ⟨d, rfl⟩ := h2; exact ⟨_, rfl⟩
  caddb := fun _ _ h1 h2 => by obtain ⟨c, rfl⟩ := h1; obtain ⟨d, rfl⟩ := h2; exact ⟨_, rfl⟩
  cmulc := fun fuel _ _ h1 => by obtain ⟨c, rfl⟩ := h1; cases fuel <;> exact ⟨_, rfl⟩
  mulc := fun fuel _ _ h1 h2 => by
    obtain ⟨c, rfl⟩ := h1; obtain ⟨d, rfl⟩ := h2; cases fuel <;> exact ⟨_, rfl⟩
  simpc := fun _ _ _ h1 h2 _ => by obtain ⟨c, rfl⟩ := h1; simp [isNum] at h2
  derivec := fun _ _ _ _ h1 h2 _ => by obtain ⟨c, rfl⟩ := h1; simp [isNum] at h2
  ones := fun ts h => h
  distinct := fun ts h hne h' => good_of_distinct h hne (fun t ht => (h' t ht).1)
  cleanBase := fun _ _ h => Or.inl h
  subBase := fun _ _ _ hx h => h.imp id (notPos_sub hx)
  logBase := fun _ _ _ _ => Or.inr notPos_minus_one
  one := fun fuel e ts hx hb h => by
    rcases hb with hb | ⟨hn, h2⟩
    · exact hb
    exfalso
    apply h2 0
    split at h
    · simp at h; subst h; simp [eval_num]
    · obtain ⟨s, hs, h⟩ := Option.map_eq_some_iff.1 h
      rw [← (flat0_unwrap (φ := φ) hx hn hs).2.2 0, h]
      simp [eval_num]
  num := Flat.num _
  const := flat_const _
  sub := fun fuel e h => flat_subOne fuel h
  simp := fun _ _ _ h hs => (flat_simplify h hs).1
  unwrap := fun _ _ _ h hs => flat_unwrap (flat_simplify h hs).1
  good := fun φ _ _ _ h hs _ => (flat_simplify h hs).2 φ

/-- Admissibility is kept by `replace(i, 0)` in the mode `free`. -/
theorem replace_zero_free (vpow : Int → F) (i : Fin n) (fuel : Nat) (e e' : Expr n F) (hA : Adm (Mode.free φ) φ U e)
    (h : replace 0 vpow i fuel e = some e') : Adm (Mode.free φ) φ {x | Function.update x i 0 ∈ U} e' := by
  refine replace_zero_gen vpow i (fun _ h => h) (fun fuel ts e e' he hb h => ?_) (fun _ _ _ h1 h2 => flat_replace_zero h1 h2) fuel e e' hA h
  refine hb.imp (notOnes_zero ?_) fun hb => notPos_zero he hb h
  intro h
  have := congrArg φ h
  simp at this

/-- Conditions which imply those of another mode. -/
theorem Adm.mode {M M' : Mode n F} (hb : ∀ ts e, M.expo e → M.base ts e → M'.base ts e) (hl : ∀ ts, M.base ts (.num (-1)) → M'.base ts (.num (-1)))
    (he : ∀ e, M.expo e → M'.expo e) (hc : ∀ c, M.coef c → M'.coef c) {e : Expr n F} (h : Adm M φ U e) : Adm M' φ U e := by
  induction h with
  | num c => exact Adm.num c
  | poly ts h1 _ h3 ih => exact Adm.poly ts h1 ih fun t ht => hc _ (h3 t ht)
  | epoly ts e _ _ h3 h4 h5 ih1 ih2 => exact Adm.epoly ts e ih1 ih2 (he _ h3) (hb _ _ h3 h4) h5
  | lpoly ts _ h2 h3 ih => exact Adm.lpoly ts ih (hl _ h2) h3
  | sum l _ ih => exact Adm.sum l ih
  | prod l _ ih => exact Adm.prod l ih
  | prule l _ h2 ih => exact Adm.prule l ih h2
  | pow b e _ _ h3 h4 ih1 ih2 => exact Adm.pow b e ih1 ih2 (he _ h3) h4
  | log a _ h2 ih => exact Adm.log a ih h2
  | exp a _ ih => exact Adm.exp a ih

theorem adm_free_of_flat {e : Expr n F} (h : Adm Mode.flat φ U e) : Adm (Mode.free φ) φ U e :=
  Adm.mode (M := Mode.flat) (M' := Mode.free φ) (fun _ _ _ h => Or.inl h) (fun _ h => Or.inl h) (fun _ h => h) (fun _ h => h) h

theorem adm_free_of_nonint0 {e : Expr n F} (h : Adm (Mode.nonint0 φ dep) φ U e) : Adm (Mode.free φ) φ U e :=
  Adm.mode (M := Mode.nonint0 φ dep) (M' := Mode.free φ) (fun _ _ h _ => Or.inr h.2.1) (fun _ _ => Or.inr notPos_minus_one) (fun _ h => h.1)
    (fun _ h => h) h

end Expr
end SecDec
