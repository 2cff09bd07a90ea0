import Verif.Proof.ExprTotal
/-
Termination of `derive` and `replace`.
-/
namespace SecDec
namespace Expr
variable {n : Nat} {F : Type} [CommRing F] [DecidableEq F]

/-- All sufficiently large bounds give the same value, which satisfies `P`. -/
def EvC {α : Type*} (f : ℕ → α) (P : α → Prop) : Prop := ∃ a, P a ∧ ∃ N, ∀ fuel, N ≤ fuel → f fuel = a

theorem EvC.shift {α : Type*} {f : ℕ → α} {P : α → Prop} {g : ℕ → α} (h : EvC f P) (hg : ∀ k, g (k + 1) = f k) : EvC g P := by
  obtain ⟨a, ha, N, hN⟩ := h
  refine ⟨a, ha, N + 1, fun fuel hf => ?_⟩
  obtain ⟨k, rfl⟩ : ∃ k, fuel = k + 1 := ⟨fuel - 1, by omega⟩
  rw [hg]; exact hN k (by omega)

theorem EvC.map {α β : Type*} {f : ℕ → α} {P : α → Prop} {Q : β → Prop} (h : EvC f P) (g : α → β) (hg : ∀ a, P a → Q (g a)) :
    EvC (fun k => g (f k)) Q := by
  obtain ⟨a, ha, N, hN⟩ := h
  exact ⟨g a, hg a ha, N, fun fuel hf => by beta_reduce; rw [hN fuel hf]⟩

theorem EvC.bind {α β : Type*} {f : ℕ → α} {P : α → Prop} {Q : β → Prop} {g : ℕ → α → β} (h : EvC f P)
    (hg : ∀ a, P a → EvC (fun k => g k a) Q) : EvC (fun k => g k (f k)) Q := by
  obtain ⟨a, ha, N, hN⟩ := h
  obtain ⟨b, hb, M, hM⟩ := hg a ha
  exact ⟨b, hb, max N M, fun fuel hf => by beta_reduce; rw [hN fuel (by omega)]; exact hM fuel (by omega)⟩

theorem EvC.const {α : Type*} {P : α → Prop} (a : α) (h : P a) : EvC (fun _ => a) P := ⟨a, h, 0, fun _ _ => rfl⟩

theorem EvC.list {α β : Type*} {f : ℕ → α → β} {P : β → Prop} (l : List α) (h : ∀ a ∈ l, EvC (fun k => f k a) P) :
    EvC (fun k => l.map (f k)) (fun l' => (∀ b ∈ l', P b) ∧ l'.length = l.length) := by
  induction l with
  | nil => exact .const _ (by simp)
  | cons a l ih =>
    obtain ⟨b, hb, N, hN⟩ := h a (by simp)
    obtain ⟨l', ⟨hl, hlen⟩, M, hM⟩ := ih fun x hx => h x (by simp [hx])
    refine ⟨b :: l', ⟨by simpa using ⟨hb, hl⟩, by simp [hlen]⟩, max N M, fun fuel hf => ?_⟩
    beta_reduce at hN hM ⊢
    rw [List.map_cons, hN fuel (by omega), hM fuel (by omega)]

/-- The Option version. -/
def EvO {α : Type*} (f : ℕ → Option α) (P : α → Prop) : Prop := EvC f fun o => ∃ a, o = some a ∧ P a

theorem EvO.list {α β : Type*} {f : ℕ → α → Option β} {P : β → Prop} (l : List α) (h : ∀ a ∈ l, EvO (fun k => f k a) P) :
    EvO (fun k => l.mapM (f k)) (fun l' => (∀ b ∈ l', P b) ∧ l'.length = l.length) := by
  induction l with
  | nil => exact .const _ ⟨[], rfl, by simp⟩
  | cons a l ih =>
    obtain ⟨_, ⟨b, rfl, hb⟩, N, hN⟩ := h a (by simp)
    obtain ⟨_, ⟨l', rfl, hl, hlen⟩, M, hM⟩ := ih fun x hx => h x (by simp [hx])
    refine ⟨some (b :: l'), ⟨_, rfl, by simpa using ⟨hb, hl⟩, by simp [hlen]⟩, max N M, fun fuel hf => ?_⟩
    beta_reduce at hN hM ⊢
    rw [List.mapM_cons, hN fuel (by omega), hM fuel (by omega)]; rfl

theorem EvO.bind {α β : Type*} {f : ℕ → Option α} {P : α → Prop} {Q : β → Prop} {g : ℕ → α → Option β} (h : EvO f P)
    (hg : ∀ a, P a → EvO (fun k => g k a) Q) : EvO (fun k => (f k).bind (g k)) Q := by
  obtain ⟨_, ⟨a, rfl, ha⟩, N, hN⟩ := h
  obtain ⟨_, ⟨b, rfl, hb⟩, M, hM⟩ := hg a ha
  exact ⟨some b, ⟨b, rfl, hb⟩, max N M, fun fuel hf => by
    beta_reduce; rw [hN fuel (by omega), Option.bind_some]; exact hM fuel (by omega)⟩

theorem EvO.map {α β : Type*} {f : ℕ → Option α} {P : α → Prop} {Q : β → Prop} {g : ℕ → α → β} (h : EvO f P)
    (hg : ∀ a, P a → EvC (fun k => g k a) Q) : EvO (fun k => (f k).map (g k)) Q := by
  obtain ⟨_, ⟨a, rfl, ha⟩, N, hN⟩ := h
  obtain ⟨b, hb, M, hM⟩ := hg a ha
  exact ⟨some b, ⟨b, rfl, hb⟩, max N M, fun fuel hf => by
    beta_reduce at hM ⊢; rw [hN fuel (by omega), Option.map_some, hM fuel (by omega)]⟩

theorem EvO.ret {α : Type*} {P : α → Prop} {f : ℕ → α} (h : EvC f P) : EvO (fun k => some (f k)) P :=
  EvC.map h some fun a ha => ⟨a, rfl, ha⟩

theorem EvO.pure {α : Type*} {P : α → Prop} (a : α) (h : P a) : EvO (fun _ => some a) P := .const _ ⟨a, rfl, h⟩

theorem EvO.shift {α : Type*} {f : ℕ → Option α} {P : α → Prop} {g : ℕ → Option α} (h : EvO f P)
    (hg : ∀ k, g (k + 1) = f k) : EvO g P := EvC.shift h hg

theorem EvO.terminates {α : Type*} {f : ℕ → Option α} {P : α → Prop} (h : EvO f P) : ∃ a, P a ∧ Terminates f a := by
  obtain ⟨_, ⟨a, rfl, ha⟩, N, hN⟩ := h
  exact ⟨a, ha, N, hN⟩

theorem EvO.mono {α : Type*} {f : ℕ → Option α} {P Q : α → Prop} (h : EvO f P) (hPQ : ∀ a, P a → Q a) : EvO f Q := by
  obtain ⟨_, ⟨a, rfl, ha⟩, N, hN⟩ := h
  exact ⟨_, ⟨a, rfl, hPQ a ha⟩, N, hN⟩

theorem simplify_ev {e : Expr n F} (h : Complete e) : EvO (fun k => simplify k e) Complete := by
  obtain ⟨e', -, h1, h2⟩ := tot (wt e) e (le_refl _) h
  exact ⟨some e', ⟨e', rfl, h1⟩, _, h2⟩

/-- Rows with complete coefficients. -/
def CT (ts : Terms n F) : Prop := ∀ t ∈ ts, Complete t.2

theorem merge_ev {ts : Terms n F} (h : CT ts) : EvC (fun k => mergeSorted (cadd k) (sortTerms ts)) CT := by
  refine ⟨mergeSorted (cadd (wT ts)) (sortTerms ts), mergeSorted_closed (.num 0) (cadd_complete _) _ fun t ht => h t (mem_sortTerms.1 ht),
    wT ts, fun fuel hf => merge_stable _ _ hf _ fun t ht => ?_⟩
  have := wT_mem (mem_sortTerms.1 ht)
  exact dep_wt _ _ (by omega)

theorem cmul_ev (c : F) : ∀ (k : ℕ) (e : Expr n F), wt e ≤ k → Complete e → EvC (fun f => cmul f e c) Complete := by
  intro k
  induction k with
  | zero =>
    intro e hk he
    by_cases hn : ∃ d, e = .num d
    · obtain ⟨d, rfl⟩ := hn
      exact ⟨.num (d * c), .num _, 0, fun f _ => by cases f <;> rfl⟩
    · refine ⟨.prod [e, Expr.const c], complete_prod2 he (complete_const _), 0, fun f _ => ?_⟩
      cases e with
      | num d => exact absurd ⟨d, rfl⟩ hn
      | poly ts => rw [wt_poly] at hk; omega
      | _ => cases f <;> rfl
  | succ k ih =>
    intro e hk he
    by_cases hn : ∃ d, e = .num d
    · obtain ⟨d, rfl⟩ := hn
      exact ⟨.num (d * c), .num _, 0, fun f _ => by cases f <;> rfl⟩
    · by_cases hp : ∃ ts, e = .poly ts
      · obtain ⟨ts, rfl⟩ := hp
        have hts := (complete_poly_iff _).1 he
        have hl : EvC (fun f => ts.map (fun t => (t.1, cmul f t.2 c))) CT := by
          obtain ⟨l, ⟨h1, -⟩, h3⟩ := EvC.list (f := fun f (t : Expo n × Expr n F) => (t.1, cmul f t.2 c)) (P := fun t => Complete t.2) ts (by
            intro t ht
            have := wT_mem ht
            rw [wt_poly] at hk
            exact (ih t.2 (by omega) (hts t ht)).map (fun x => (t.1, x)) fun a ha => ha)
          exact ⟨l, h1, h3⟩
        refine EvC.shift (f := fun f => if c = 1 then .poly ts else if c = 0 then Expr.const 0
          else .poly (ts.map (fun t => (t.1, cmul f t.2 c)))) ?_ (fun k => rfl)
        split
        · exact .const _ he
        · split
          · exact .const _ (complete_const _)
          · exact hl.map _ fun ts h => .poly ts h
      · refine ⟨.prod [e, Expr.const c], complete_prod2 he (complete_const _), 0, fun f _ => ?_⟩
        cases e with
        | num d => exact absurd ⟨d, rfl⟩ hn
        | poly ts => exact absurd ⟨ts, rfl⟩ hp
        | _ => cases f <;> rfl

theorem cmul_ev' (c : F) {e : Expr n F} (h : Complete e) : EvC (fun f => cmul f e c) Complete := cmul_ev c _ e (le_refl _) h

theorem flatMap_ev {α β γ : Type*} {f : ℕ → α → β → γ} {P : γ → Prop} (l : List α) (us : List β)
    (h : ∀ a ∈ l, ∀ b ∈ us, EvC (fun k => f k a b) P) :
    EvC (fun k => l.flatMap fun a => us.map (f k a)) (fun l' => ∀ c ∈ l', P c) := by
  induction l with
  | nil => exact .const _ (by simp)
  | cons a l ih =>
    obtain ⟨l1, ⟨h1, -⟩, N, hN⟩ := EvC.list us (h a (by simp))
    obtain ⟨l2, h2, M, hM⟩ := ih fun x hx => h x (by simp [hx])
    refine ⟨l1 ++ l2, fun c hc => ?_, max N M, fun fuel hf => ?_⟩
    · rcases List.mem_append.1 hc with h | h
      · exact h1 c h
      · exact h2 c h
    · beta_reduce at hN hM ⊢
      rw [List.flatMap_cons, hN fuel (by omega), hM fuel (by omega)]

theorem mulExpr_ev : ∀ (k : ℕ) (a b : Expr n F), wt a + wt b ≤ k → Complete a → Complete b → EvC (fun f => mulExpr f a b) Complete := by
  intro k
  induction k using Nat.strong_induction_on with
  | _ k ih =>
    intro a b hk ha hb
    by_cases hna : ∃ c, a = .num c
    · obtain ⟨c, rfl⟩ := hna
      by_cases hnb : ∃ d, b = .num d
      · obtain ⟨d, rfl⟩ := hnb
        exact ⟨.num (c * d), .num _, 1, fun f hf => by
          obtain ⟨f, rfl⟩ : ∃ k, f = k + 1 := ⟨f - 1, by omega⟩
          rfl⟩
      · refine EvC.shift (f := fun f => cmul f b c) (cmul_ev' c hb) (fun k => ?_)
        cases b with
        | num d => exact absurd ⟨d, rfl⟩ hnb
        | _ => rfl
    · by_cases hnb : ∃ d, b = .num d
      · obtain ⟨d, rfl⟩ := hnb
        refine EvC.shift (f := fun f => cmul f a d) (cmul_ev' d ha) (fun k => ?_)
        cases a with
        | num d => exact absurd ⟨d, rfl⟩ hna
        | _ => rfl
      · by_cases hp : (∃ ts, a = .poly ts) ∧ (∃ us, b = .poly us)
        · obtain ⟨⟨ts, rfl⟩, us, rfl⟩ := hp
          have hts := (complete_poly_iff _).1 ha
          have hus := (complete_poly_iff _).1 hb
          refine EvC.shift (f := fun f => .poly (mergeSorted (cadd f) (sortTerms
            (ts.flatMap (fun s => us.map (fun t => (t.1 + s.1, mulExpr f t.2 s.2))))))) ?_ (fun k => rfl)
          have hl : EvC (fun f => ts.flatMap (fun s => us.map (fun t => (t.1 + s.1, mulExpr f t.2 s.2)))) CT :=
            flatMap_ev (f := fun f (s t : Expo n × Expr n F) => (t.1 + s.1, mulExpr f t.2 s.2)) ts us (by
              intro s hs t ht
              have h1 := wT_mem hs
              have h2 := wT_mem ht
              rw [wt_poly, wt_poly] at hk
              exact (ih (wt t.2 + wt s.2) (by omega) t.2 s.2 (le_refl _) (hus t ht) (hts s hs)).map (fun x => (t.1 + s.1, x)) fun a ha => ha)
          have hm := hl.bind (g := fun f (l : Terms n F) => mergeSorted (cadd f) (sortTerms l)) (Q := CT) fun l h => merge_ev h
          exact hm.map _ fun ts h => .poly ts h
        · refine EvC.shift (f := fun _ => .prod [a, b]) (.const _ (complete_prod2 ha hb)) (fun k => ?_)
          cases a <;> cases b <;> first
            | exact absurd ⟨_, rfl⟩ hna
            | exact absurd ⟨_, rfl⟩ hnb
            | exact absurd ⟨⟨_, rfl⟩, ⟨_, rfl⟩⟩ hp
            | rfl

theorem mulExpr_ev' {a b : Expr n F} (ha : Complete a) (hb : Complete b) : EvC (fun f => mulExpr f a b) Complete :=
  mulExpr_ev _ a b (le_refl _) ha hb

theorem cadd_ev {a b : Expr n F} (ha : Complete a) (hb : Complete b) : EvC (fun f => cadd f a b) Complete :=
  ⟨_, cadd_complete (wt a + wt b) a b ha hb, wt a + wt b, fun fuel hf =>
    cadd_stable _ _ _ _ hf (dep_wt _ _ (by omega)) (dep_wt _ _ (by omega))⟩

theorem subOne_ev {e : Expr n F} (h : Complete e) : EvC (fun f => subOne f e) Complete := by
  by_cases hn : ∃ c, e = .num c
  · obtain ⟨c, rfl⟩ := hn
    exact .const _ (.num _)
  · have : (fun f => subOne f e) = fun f => cadd f e (.num (-1)) := by
      funext f
      cases e with
      | num c => exact absurd ⟨c, rfl⟩ hn
      | _ => rfl
    rw [this]
    exact cadd_ev h (.num _)

theorem deriveTerms_ev (ts : Terms n F) (dc : List (Option (Expr n F))) (i : Fin n) (hts : CT ts)
    (hdc : ∀ d ∈ dc, ∀ e, d = some e → Complete e) : EvC (fun f => deriveTerms f ts dc i) CT := by
  have h1 : EvC (fun f => (ts.filter (fun t => decide (t.1 i ≠ 0))).map
      (fun t => (Function.update t.1 i (t.1 i - 1), cmul f t.2 ((t.1 i : Int) : F)))) CT := by
    obtain ⟨l, ⟨h1, -⟩, h3⟩ := EvC.list
      (f := fun f (t : Expo n × Expr n F) => (Function.update t.1 i (t.1 i - 1), cmul f t.2 ((t.1 i : Int) : F)))
      (P := fun t => Complete t.2) (ts.filter (fun t => decide (t.1 i ≠ 0))) (fun t ht =>
        (cmul_ev' ((t.1 i : Int) : F) (hts t (List.mem_of_mem_filter ht))).map
          (fun x => (Function.update t.1 i (t.1 i - 1), x)) fun a ha => ha)
    exact ⟨l, h1, h3⟩
  have h2 : CT ((ts.zip dc).map (fun p => (p.1.1, p.2.getD (.num 0)))) := by
    intro t ht
    obtain ⟨p, hp, rfl⟩ := List.mem_map.1 ht
    have := (List.of_mem_zip hp).2
    cases hd : p.2 with
    | none => exact .num _
    | some e => exact hdc _ this e hd
  refine h1.bind (g := fun f s1 => if dc.any Option.isSome then
      if s1.length = 0 then (ts.zip dc).map (fun p => (p.1.1, p.2.getD (.num 0))) else
        mergeSorted (cadd f) (sortTerms (s1 ++ (ts.zip dc).map (fun p => (p.1.1, p.2.getD (.num 0)))))
    else if s1.length = 0 then [((fun _ => 0), .num 0)] else s1) fun s1 hs1 => ?_
  split
  · split
    · exact .const _ h2
    · refine merge_ev fun t ht => ?_
      rcases List.mem_append.1 ht with h | h
      · exact hs1 t h
      · exact h2 t h
  · split
    · refine .const _ fun t ht => ?_
      rw [List.mem_singleton] at ht; subst ht; exact .num _
    · exact .const _ hs1

theorem derive_poly_ev (ts : Terms n F) (i : Fin n) (hts : CT ts)
    (h : ∀ t ∈ ts, EvO (fun k => derive k t.2 i) Complete) :
    EvO (fun k => derive k (.poly ts) i) (fun e => ∃ us, e = .poly us ∧ CT us) := by
  refine EvO.shift (f := fun k => (ts.mapM (fun t : Expo n × Expr n F => if t.2.isNum then some none else (derive k t.2 i).map some)).bind
    fun dc => some (.poly (deriveTerms k ts dc i))) ?_ (fun k => by rw [derive]; rfl)
  refine (EvO.list (P := fun d => ∀ e, d = some e → Complete e) ts fun t ht => ?_).bind fun dc hdc => ?_
  · by_cases hn : t.2.isNum = true
    · simp only [hn, if_true]
      exact .pure _ (by simp)
    · simp only [hn, Bool.false_eq_true, if_false]
      exact (h t ht).map (g := fun _ => some) fun a ha => .const _ (by rintro e ⟨⟩; exact ha)
  · exact .ret ((deriveTerms_ev ts dc i hts hdc.1).map _ fun us hus => ⟨us, rfl, hus⟩)

theorem derive_prule_ev (terms : List (Int × List (Expr n F))) (i : Fin n) (hne : terms ≠ []) (hf : ∀ t ∈ terms, t.2 ≠ [])
    (hC : ∀ t ∈ terms, ∀ f ∈ t.2, Complete f) (h : ∀ t ∈ terms, ∀ f ∈ t.2, EvO (fun k => derive k f i) Complete) :
    EvO (fun k => derive k (.prule terms) i) Complete := by
  refine EvO.shift (f := fun k => (terms.mapM (fun t : Int × List (Expr n F) => t.2.mapM (fun f => (derive k f i).bind fun d => simplify k d))).bind
    fun dterms => some (.prule ((List.range (terms.headD (0, [])).2.length).flatMap (fun j => (terms.zip dterms).map (fun p =>
        (if (p.1.2.set j (p.2.getD j (.num 0))).any isZeroPoly then 0 else p.1.1, p.1.2.set j (p.2.getD j (.num 0)))))))) ?_
    (fun k => by rw [derive]; rfl)
  refine (EvO.list (P := fun l : List (Expr n F) => ∀ e ∈ l, Complete e) terms fun t ht => ?_).bind fun dterms hd => .pure _ ?_
  · exact (EvO.list (P := Complete) t.2 fun f hf => (h t ht f hf).bind fun d hd => simplify_ev hd).mono fun l hl => hl.1
  · have key : ∀ q ∈ ((List.range (terms.headD (0, [])).2.length).flatMap (fun j => (terms.zip dterms).map (fun p =>
        (if (p.1.2.set j (p.2.getD j (.num 0))).any isZeroPoly then 0 else p.1.1, p.1.2.set j (p.2.getD j (.num 0)))))),
        ∃ t ∈ terms, ∃ d ∈ dterms, ∃ j, q.2 = t.2.set j (d.getD j (.num 0)) := by
      intro q hq
      obtain ⟨j, -, hq⟩ := List.mem_flatMap.1 hq
      obtain ⟨p, hp, rfl⟩ := List.mem_map.1 hq
      have := List.of_mem_zip hp
      exact ⟨p.1, this.1, p.2, this.2, j, rfl⟩
    refine .prule _ ?_ ?_ ?_
    · obtain ⟨t, ts, rfl⟩ := List.exists_cons_of_ne_nil hne
      obtain ⟨d, ds, rfl⟩ := List.exists_cons_of_ne_nil (l := dterms) (by
        intro h0; have := hd.2; rw [h0] at this; simp at this)
      have ht := hf t (by simp)
      obtain ⟨a, b, hab⟩ := List.exists_cons_of_ne_nil ht
      simp only [List.headD_cons, hab, List.length_cons, List.range_succ_eq_map, List.flatMap_cons, List.zip_cons_cons, List.map_cons]
      simp
    · intro q hq
      obtain ⟨t, ht, d, hdd, j, e⟩ := key q hq
      rw [e]
      simpa using hf t ht
    · intro q hq
      obtain ⟨t, ht, d, hdd, j, e⟩ := key q hq
      rw [e]
      intro x hx
      rcases List.mem_or_eq_of_mem_set hx with hx | rfl
      · exact hC t ht x hx
      · rw [List.getD_eq_getElem?_getD]
        cases hg : d[j]? with
        | none => exact .num _
        | some y => exact hd.1 d hdd y (List.mem_of_getElem? hg)

theorem complete_prod3 {a b c : Expr n F} (ha : Complete a) (hb : Complete b) (hc : Complete c) : Complete (.prod [a, b, c]) :=
  .prod _ (by simp) (by simp [ha, hb, hc])

/-- the second summand of `ExponentiatedPolynomial.derive` -/
def epolyS1 (ts : Terms n F) (e : Expr n F) (k : ℕ) (us : Terms n F) : Option (Expr n F) :=
  if allCoeffsZero us then none
  else if (subOne k e).isNumZero then some (mulExpr k e (.poly us))
  else some (.prod [.epoly ts (subOne k e), mulExpr k e (.poly us)])

theorem epolyS1_ev (ts : Terms n F) (e : Expr n F) (us : Terms n F) (hts : CT ts) (he : Complete e) (hus : CT us) :
    EvC (fun k => epolyS1 ts e k us) (fun o => ∀ x, o = some x → Complete x) := by
  unfold epolyS1
  split
  · exact .const _ (by simp)
  · refine (subOne_ev he).bind (g := fun k s => if s.isNumZero then some (mulExpr k e (.poly us))
      else some (.prod [.epoly ts s, mulExpr k e (.poly us)])) fun s hs => ?_
    have hm := mulExpr_ev' he (.poly us hus)
    split
    · exact hm.map _ fun a ha => by rintro x ⟨⟩; exact ha
    · exact hm.map (fun m => some (Expr.prod [.epoly ts s, m])) fun a ha => by
        rintro x ⟨⟩; exact complete_prod2 (.epoly _ _ hts hs) ha

def epolyJoin : Option (Expr n F) → Option (Expr n F) → Expr n F
  | none, none => const 0
  | none, some s1 => s1
  | some s0, none => s0
  | some s0, some s1 => .sum [s0, s1]

/-- `derive` terminates on every complete expression. -/
theorem derive_ev (i : Fin n) : ∀ (k : ℕ) (e : Expr n F), wt e ≤ k → Complete e → EvO (fun f => derive f e i) Complete := by
  intro k
  induction k using Nat.strong_induction_on with
  | _ k ih =>
    intro e hk he
    have hrec : ∀ e' : Expr n F, wt e' < wt e → Complete e' → EvO (fun f => derive f e' i) Complete :=
      fun e' hw hc => ih (wt e') (by omega) e' (le_refl _) hc
    have hpoly : ∀ ts : Terms n F, CT ts → wt (.poly ts) ≤ wt e →
        EvO (fun f => derive f (.poly ts) i) (fun e => ∃ us, e = .poly us ∧ CT us) := by
      intro ts hts hw
      refine derive_poly_ev ts i hts fun t ht => hrec t.2 ?_ (hts t ht)
      have := wT_mem ht
      rw [wt_poly] at hw; omega
    cases he with
    | num c => exact EvO.shift (f := fun _ => some (Expr.const 0)) (.pure _ (complete_const _)) fun k => by rw [derive]
    | poly ts h => exact (hpoly ts h (le_refl _)).mono fun e => by rintro ⟨us, rfl, h⟩; exact .poly us h
    | epoly ts e0 h h0 =>
      have hp := hpoly ts h (by rw [wt_poly, wt_epoly]; omega)
      have hd : EvO (fun k => (if e0.isNum then some none else
          (derive k e0 i).map (fun de => some (.prod [.epoly ts e0, de, .lpoly ts])) : Option (Option (Expr n F))))
          (fun o => ∀ x, o = some x → Complete x) := by
        split
        · exact .pure _ (by simp)
        · refine (hrec e0 (by rw [wt_epoly]; omega) h0).map
            (g := fun _ de => some (Expr.prod [.epoly ts e0, de, .lpoly ts])) fun de hde => .const _ ?_
          rintro x ⟨⟩
          exact complete_prod3 (.epoly _ _ h h0) hde (.lpoly _ h)
      refine EvO.shift (f := fun k => (if e0.isNum then some none else
          (derive k e0 i).map (fun de => some (.prod [.epoly ts e0, de, .lpoly ts])) : Option (Option (Expr n F))).bind fun s0 =>
          (derive k (.poly ts) i).bind fun dp => some (epolyJoin s0 (match dp with | .poly us => epolyS1 ts e0 k us | _ => none))) ?_ ?_
      · refine hd.bind fun s0 hs0 => hp.bind fun dp hdp => ?_
        obtain ⟨us, rfl, hus⟩ := hdp
        refine .ret ((epolyS1_ev ts e0 us h h0 hus).map (fun s1 => epolyJoin s0 s1) fun s1 hs1 => ?_)
        cases s0 <;> cases s1
        · exact complete_const _
        · exact hs1 _ rfl
        · exact hs0 _ rfl
        · exact complete_sum2 (hs0 _ rfl) (hs1 _ rfl)
      · intro k
        rw [derive]
        simp only [Option.bind_eq_bind]
        congr 1
        funext s0
        congr 1
        funext dp
        cases dp with
        | poly us =>
          by_cases z : allCoeffsZero us = true
          · cases s0 <;> simp [epolyS1, epolyJoin, z]
          · by_cases z2 : (subOne k e0).isNumZero = true <;> cases s0 <;> simp [epolyS1, epolyJoin, z, z2]
        | _ => cases s0 <;> rfl
    | lpoly ts h =>
      have hp := hpoly ts h (by rw [wt_poly, wt_lpoly]; omega)
      refine EvO.shift (f := fun k => (derive k (.poly ts) i).bind fun dp => match dp with
        | .poly us => if allCoeffsZero us then some (Expr.const 0) else some (.prod [.epoly ts (.num (-1)), dp])
        | _ => none) ?_ (fun k => by rw [derive]; rfl)
      refine hp.bind fun dp hdp => ?_
      obtain ⟨us, rfl, hus⟩ := hdp
      dsimp only
      split
      · exact .pure _ (complete_const _)
      · exact .pure _ (complete_prod2 (.epoly _ _ h (.num _)) (.poly _ hus))
    | sum l hne h =>
      refine EvO.shift (f := fun k => (l.mapM (fun e => derive k e i)).bind fun l' => some (.sum l')) ?_ (fun k => by rw [derive]; rfl)
      refine (EvO.list l fun a ha => hrec a (by have := wL_mem ha; rw [wt_sum]; omega) (h a ha)).bind fun l' hl' => .pure _ ?_
      exact .sum _ (fun h0 => hne (by have := hl'.2; rw [h0] at this; exact List.length_eq_zero_iff.1 this.symm)) hl'.1
    | prod l hne h =>
      refine EvO.shift (f := fun k => (l.mapM (simplify k)).bind fun l' => derive k (.prule [(1, l')]) i) ?_ (fun k => by rw [derive]; rfl)
      have hs : EvO (fun k => l.mapM (simplify k)) (fun l' => (∀ e ∈ l', Complete e) ∧ l'.length = l.length ∧ wL l' ≤ wL l) := by
        obtain ⟨l', h1, h2, h3, h4⟩ := simp_list l fun a ha => tot _ a (le_refl _) (h a ha)
        exact ⟨_, ⟨l', rfl, h1, h3, h2⟩, _, h4⟩
      refine hs.bind fun l' hl' => ?_
      refine derive_prule_ev _ i (by simp) ?_ ?_ ?_
      · intro t ht
        rw [List.mem_singleton] at ht; subst ht
        exact fun (h0 : l' = []) => hne (by have := hl'.2.1; rw [h0] at this; exact List.length_eq_zero_iff.1 this.symm)
      · intro t ht
        rw [List.mem_singleton] at ht; subst ht
        exact hl'.1
      · intro t ht
        rw [List.mem_singleton] at ht; subst ht
        intro f hf
        have : wt f ≤ wL l' := wL_mem hf
        have := hl'.2.2
        exact hrec f (by rw [wt_prod]; omega) (hl'.1 f hf)
    | prule terms hne hf hC =>
      refine derive_prule_ev terms i hne hf hC fun t ht f hfm => hrec f ?_ (hC t ht f hfm)
      have h1 := wL_mem hfm
      have h2 : 1 + wL t.2 ≤ (terms.map (fun t => 1 + wL t.2)).sum :=
        List.single_le_sum (by simp) _ (List.mem_map.2 ⟨t, ht, rfl⟩)
      rw [wt_prule]; omega
    | pow b e0 hb h0 =>
      refine EvO.shift (f := fun k => (derive k e0 i).bind fun de => (derive k b i).bind fun db =>
        some (.sum [.prod [.pow b e0, de, .log b], .prod [.pow b (subOne k e0), mulExpr k e0 db]])) ?_ (fun k => by rw [derive]; rfl)
      refine (hrec e0 (by rw [wt_pow]; omega) h0).bind fun de hde => (hrec b (by rw [wt_pow]; omega) hb).bind fun db hdb => .ret ?_
      refine (subOne_ev h0).bind (g := fun k s => Expr.sum [.prod [.pow b e0, de, .log b], .prod [.pow b s, mulExpr k e0 db]]) fun s hs => ?_
      exact (mulExpr_ev' h0 hdb).map _ fun m hm =>
        complete_sum2 (complete_prod3 (.pow _ _ hb h0) hde (.log _ hb)) (complete_prod2 (.pow _ _ hb hs) hm)
    | log a ha =>
      refine EvO.shift (f := fun k => (derive k a i).bind fun da => some (.prod [.pow a (Expr.const (-1)), da])) ?_ (fun k => by rw [derive]; rfl)
      exact (hrec a (by rw [wt_log]; omega) ha).bind fun da hda => .pure _ (complete_prod2 (.pow _ _ ha (complete_const _)) hda)
    | exp a ha =>
      refine EvO.shift (f := fun k => (derive k a i).bind fun da => some (.prod [.exp a, da])) ?_ (fun k => by rw [derive]; rfl)
      exact (hrec a (by rw [wt_exp]; omega) ha).bind fun da hda => .pure _ (complete_prod2 (.exp _ ha) hda)

theorem replaceRows_ev (v : F) (vpow : Int → F) (i : Fin n) (ts : Terms n F) (cs : List (Expr n F)) (hcs : ∀ c ∈ cs, Complete c) :
    EvC (fun k => replaceRows k v vpow i ts cs) CT := by
  obtain ⟨l, ⟨h1, -⟩, h3⟩ := EvC.list
    (f := fun k (p : (Expo n × Expr n F) × Expr n F) => (Function.update p.1.1 i 0,
      if v = 1 then p.2 else cmul k p.2 (vpow (p.1.1 i))))
    (P := fun t => Complete t.2) (ts.zip cs) (fun p hp => by
      have hc := hcs _ (List.of_mem_zip hp).2
      split
      · exact .const _ hc
      · exact (cmul_ev' _ hc).map (fun x => (Function.update p.1.1 i 0, x)) fun a ha => ha)
  exact ⟨l, h1, h3⟩

theorem replaceRowsZero_complete (i : Fin n) (ts : Terms n F) (h : CT ts) : CT (replaceRowsZero i ts) := by
  intro t ht
  obtain ⟨s, hs, rfl⟩ := List.mem_map.1 ht
  dsimp only
  split
  · exact h s hs
  · exact .num _

/-- `replace` terminates on every complete expression. -/
theorem replace_ev (v : F) (vpow : Int → F) (i : Fin n) :
    ∀ (k : ℕ) (e : Expr n F), wt e ≤ k → Complete e → EvO (fun f => replace v vpow i f e) Complete := by
  intro k
  induction k using Nat.strong_induction_on with
  | _ k ih =>
    intro e hk he
    have hrec : ∀ e' : Expr n F, wt e' < wt e → Complete e' → EvO (fun f => replace v vpow i f e') Complete :=
      fun e' hw hc => ih (wt e') (by omega) e' (le_refl _) hc
    have hrows : ∀ ts : Terms n F, CT ts → wt (.poly ts) ≤ wt e →
        EvO (fun f => if v = 0 then some (replaceRowsZero i ts) else
          (ts.mapM (fun t : Expo n × Expr n F => replace v vpow i f t.2)).bind fun cs => some (replaceRows f v vpow i ts cs)) CT := by
      intro ts hts hw
      split
      · exact .pure _ (replaceRowsZero_complete i ts hts)
      · refine (EvO.list (P := Complete) ts fun t ht => hrec t.2 ?_ (hts t ht)).bind fun cs hcs => .ret (replaceRows_ev v vpow i ts cs hcs.1)
        have := wT_mem ht
        rw [wt_poly] at hw; omega
    have hlist : ∀ l : List (Expr n F), (∀ e ∈ l, Complete e) → (∀ e' ∈ l, wt e' < wt e) → l ≠ [] →
        EvO (fun f => l.mapM (replace v vpow i f)) (fun l' => (∀ e ∈ l', Complete e) ∧ l' ≠ []) := by
      intro l hl hw hne
      refine (EvO.list l fun a ha => hrec a (hw a ha) (hl a ha)).mono fun l' hl' => ⟨hl'.1, fun h0 => hne ?_⟩
      have := hl'.2; rw [h0] at this; exact List.length_eq_zero_iff.1 this.symm
    cases he with
    | num c => exact EvO.shift (f := fun _ => some (.num c)) (.pure _ (.num _)) fun k => by rw [replace]
    | poly ts h =>
      refine EvO.shift (f := fun k => (if v = 0 then some (replaceRowsZero i ts) else
          (ts.mapM (fun t : Expo n × Expr n F => replace v vpow i k t.2)).bind fun cs => some (replaceRows k v vpow i ts cs)).bind fun us => some (.poly us)) ?_ ?_
      · exact (hrows ts h (le_refl _)).bind fun us hus => .pure _ (.poly _ hus)
      · intro k
        rw [replace]
        split
        · rfl
        · rw [Option.bind_assoc]; rfl
    | epoly ts e0 h h0 =>
      refine EvO.shift (f := fun k => (replace v vpow i k e0).bind fun e' => (if v = 0 then some (replaceRowsZero i ts) else
          (ts.mapM (fun t : Expo n × Expr n F => replace v vpow i k t.2)).bind fun cs => some (replaceRows k v vpow i ts cs)).bind fun us => some (.epoly us e')) ?_ ?_
      · exact (hrec e0 (by rw [wt_epoly]; omega) h0).bind fun e' he' =>
          (hrows ts h (by rw [wt_poly, wt_epoly]; omega)).bind fun us hus => .pure _ (.epoly _ _ hus he')
      · intro k
        rw [replace]
        simp only [Option.bind_eq_bind]
        congr 1
        funext e'
        split
        · rfl
        · rw [Option.bind_assoc]; rfl
    | lpoly ts h =>
      refine EvO.shift (f := fun k => (if v = 0 then some (replaceRowsZero i ts) else
          (ts.mapM (fun t : Expo n × Expr n F => replace v vpow i k t.2)).bind fun cs => some (replaceRows k v vpow i ts cs)).bind fun us => some (.lpoly us)) ?_ ?_
      · exact (hrows ts h (by rw [wt_poly, wt_lpoly]; omega)).bind fun us hus => .pure _ (.lpoly _ hus)
      · intro k
        rw [replace]
        split
        · rfl
        · rw [Option.bind_assoc]; rfl
    | sum l hne h =>
      refine EvO.shift (f := fun k => (l.mapM (replace v vpow i k)).bind fun l' => some (.sum l')) ?_ (fun k => by rw [replace]; rfl)
      exact (hlist l h (fun a ha => by have := wL_mem ha; rw [wt_sum]; omega) hne).bind fun l' hl' => .pure _ (.sum _ hl'.2 hl'.1)
    | prod l hne h =>
      refine EvO.shift (f := fun k => (l.mapM (replace v vpow i k)).bind fun l' => some (.prod l')) ?_ (fun k => by rw [replace]; rfl)
      exact (hlist l h (fun a ha => by have := wL_mem ha; rw [wt_prod]; omega) hne).bind fun l' hl' => .pure _ (.prod _ hl'.2 hl'.1)
    | prule terms hne hf hC =>
      refine EvO.shift (f := fun k => (terms.mapM (fun t : Int × List (Expr n F) => t.2.mapM (replace v vpow i k))).bind fun ts' =>
        some (.sum ((terms.zip ts').map (fun p => .prod [.prod p.2, Expr.const ((p.1.1 : Int) : F)])))) ?_ (fun k => by rw [replace]; rfl)
      refine (EvO.list (P := fun l' : List (Expr n F) => (∀ e ∈ l', Complete e) ∧ l' ≠ []) terms fun t ht =>
        hlist t.2 (hC t ht) ?_ (hf t ht)).bind fun ts' hts' => .pure _ (.sum _ ?_ ?_)
      · intro f hfm
        have h1 := wL_mem hfm
        have h2 : 1 + wL t.2 ≤ (terms.map (fun t => 1 + wL t.2)).sum :=
          List.single_le_sum (by simp) _ (List.mem_map.2 ⟨t, ht, rfl⟩)
        rw [wt_prule]; omega
      · obtain ⟨t, ts, rfl⟩ := List.exists_cons_of_ne_nil hne
        obtain ⟨d, ds, rfl⟩ := List.exists_cons_of_ne_nil (l := ts') (by
          intro h0; have := hts'.2; rw [h0] at this; simp at this)
        simp
      · intro e he
        obtain ⟨p, hp, rfl⟩ := List.mem_map.1 he
        have := hts'.1 _ (List.of_mem_zip hp).2
        exact complete_prod2 (.prod _ this.2 this.1) (complete_const _)
    | pow b e0 hb h0 =>
      refine EvO.shift (f := fun k => (replace v vpow i k b).bind fun b' => (replace v vpow i k e0).bind fun e' => some (.pow b' e')) ?_
        (fun k => by rw [replace]; rfl)
      exact (hrec b (by rw [wt_pow]; omega) hb).bind fun b' hb' => (hrec e0 (by rw [wt_pow]; omega) h0).bind fun e' he' => .pure _ (.pow _ _ hb' he')
    | log a ha =>
      refine EvO.shift (f := fun k => (replace v vpow i k a).bind fun a' => some (.log a')) ?_ (fun k => by rw [replace]; rfl)
      exact (hrec a (by rw [wt_log]; omega) ha).bind fun a' ha' => .pure _ (.log _ ha')
    | exp a ha =>
      refine EvO.shift (f := fun k => (replace v vpow i k a).bind fun a' => some (.exp a')) ?_ (fun k => by rw [replace]; rfl)
      exact (hrec a (by rw [wt_exp]; omega) ha).bind fun a' ha' => .pure _ (.exp _ ha')

end Expr
end SecDec
