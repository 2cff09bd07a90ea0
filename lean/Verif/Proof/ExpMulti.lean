import Verif.Proof.ExpSing
import Verif.Proof.ExprNonint
/-
Expansion in several variables, and the Taylor expansion of general expressions.
-/
set_option linter.unusedSectionVars false
namespace SecDec
namespace Expansion
open Filter Topology Asymptotics
variable {n : Nat} {F : Type} [Field F] [DecidableEq F] {φ : F →+* ℂ} {i : Fin n} {y : Fin n → ℂ}

section multi
variable {C : Type} {step : C → Fin n → Int → Except Err (Poly n C)} {𝓕 : Filter (Fin n → ℂ)}
  {val : C → (Fin n → ℂ) → ℂ} {Ok : C → Prop}

/-- The single-variable expansion is correct. -/
def StepOk (step : C → Fin n → Int → Except Err (Poly n C)) (𝓕 : Filter (Fin n → ℂ))
    (val : C → (Fin n → ℂ) → ℂ) (Ok : C → Prop) : Prop :=
  ∀ e i o p, Ok e → step e i o = .ok p → ∃ cs : List (ℤ × C),
    p.terms = cs.map (fun c => (Function.update (fun _ => 0) i c.1, c.2)) ∧ (∀ c ∈ cs, Ok c.2) ∧
    ∀ᶠ y in 𝓕, IsExpansion (fun s => val e (Function.update y i s)) o (cs.map (fun c => (c.1, val c.2 y))) ∧
      ∀ c ∈ cs, ∀ s, val c.2 (Function.update y i s) = val c.2 y

theorem ok_bind {ε α β : Type} {x : Except ε α} {f : α → Except ε β} {b : β} (h : (x >>= f) = .ok b) :
    ∃ a, x = .ok a ∧ f a = .ok b := by
  cases x with
  | error e => cases h
  | ok a => exact ⟨a, rfl, h⟩

theorem mapM_ok {ε α β : Type} {f : α → Except ε β} : ∀ {l : List α} {r : List β}, l.mapM f = .ok r →
    List.Forall₂ (fun a b => f a = .ok b) l r := by
  intro l
  induction l with
  | nil => intro r h; simp [pure, Except.pure] at h; subst h; exact List.Forall₂.nil
  | cons a l ih =>
    intro r h
    rw [List.mapM_cons] at h
    obtain ⟨b, hb, h⟩ := ok_bind h
    obtain ⟨bs, hbs, h⟩ := ok_bind h
    simp [pure, Except.pure] at h
    subst h
    exact List.Forall₂.cons hb (ih hbs)

theorem recursive_ok (hstep : StepOk step 𝓕 val Ok) : ∀ (l : List (Fin n × Int)) (e : C) (r : Nest n C), Ok e →
    recursiveExpansion step l e = .ok r →
    ∃ (ts : List (Expo n × Nest n C)) (L : List (Expo n × C)), r = .node ts ∧
      flatten (l.length - 1) ts = L.map (fun t => (t.1, .leaf t.2)) ∧ (∀ t ∈ L, Ok t.2) ∧
      Expands 𝓕 l (val e) (L.map (fun t => (t.1, val t.2))) := by
  intro l
  induction l with
  | nil => intro e r _ h; simp [recursiveExpansion] at h
  | cons a rest ih =>
    obtain ⟨i, o⟩ := a
    intro e r he h
    cases rest with
    | nil =>
      simp only [recursiveExpansion] at h
      obtain ⟨p, hp, h⟩ := ok_bind h
      simp only [Except.ok.injEq] at h
      subst h
      obtain ⟨cs, h1, h2, h3⟩ := hstep e i o p he hp
      refine ⟨_, p.terms, rfl, rfl, ?_, ?_⟩
      · intro t ht
        rw [h1] at ht
        obtain ⟨c, hc, rfl⟩ := List.mem_map.1 ht
        exact h2 c hc
      · refine ⟨cs.map (fun c => (c.1, val c.2)), cs.map (fun c => [((fun _ => 0), val c.2)]), ?_, ?_, ?_⟩
        · filter_upwards [h3] with y hy
          refine ⟨by simpa [List.map_map, Function.comp_def] using hy.1, ?_⟩
          intro c hc s
          obtain ⟨d, hd, rfl⟩ := List.mem_map.1 hc
          exact hy.2 d hd s
        · rw [List.forall₂_map_left_iff, List.forall₂_map_right_iff, List.forall₂_same]
          intro c _; rfl
        · rw [h1]
          clear h1 h2 h3
          induction cs with
          | nil => rfl
          | cons c cs ihc =>
            simp only [List.map_cons, List.zipWith_cons_cons, List.flatten_cons, List.map_nil] at ihc ⊢
            rw [ihc]
            simp only [List.singleton_append, List.cons.injEq, Prod.mk.injEq, and_true]
            funext k; simp
    | cons j rest =>
      simp only [recursiveExpansion] at h
      obtain ⟨p, hp, h'⟩ := ok_bind h
      clear h
      obtain ⟨ts, hts, h⟩ := ok_bind h'
      clear h'
      simp only [Except.ok.injEq] at h
      subst h
      obtain ⟨cs, h1, h2, h3⟩ := hstep e i o p he hp
      have hF := mapM_ok hts
      rw [h1] at hF
      -- the sub-expansions
      have key : ∃ Ls : List (List (Expo n × C)),
          flatten (rest.length + 1) ts = (List.zipWith (fun c sub => sub.map (fun t =>
            (Function.update (fun _ => (0 : ℤ)) i c.1 + t.1, t.2))) cs Ls).flatten.map (fun t => (t.1, .leaf t.2)) ∧
          (∀ L ∈ Ls, ∀ t ∈ L, Ok t.2) ∧
          List.Forall₂ (fun c L => Expands 𝓕 (j :: rest) (val c.2) (L.map (fun t => (t.1, val t.2)))) cs Ls := by
        clear h1 hts h3 hp
        induction cs generalizing ts with
        | nil =>
          simp only [List.map_nil, List.forall₂_nil_left_iff] at hF
          subst hF
          exact ⟨[], rfl, by simp, List.Forall₂.nil⟩
        | cons c cs ihc =>
          rw [List.map_cons, List.forall₂_cons_left_iff] at hF
          obtain ⟨b, ts', hb, hF', rfl⟩ := hF
          obtain ⟨r, hr, hb⟩ := ok_bind hb
          simp only [Except.ok.injEq] at hb
          subst hb
          obtain ⟨Ls, k1, k2, k3⟩ := ihc ts' (fun c hc => h2 c (by simp [hc])) hF'
          obtain ⟨us, L, rfl, m2, m3, m4⟩ := ih c.2 r (h2 c (by simp)) hr
          refine ⟨L :: Ls, ?_, ?_, List.Forall₂.cons m4 k3⟩
          · have m2' : (if rest.length > 0 then flatten rest.length us else us) = L.map (fun t => (t.1, .leaf t.2)) := by
              simp only [List.length_cons, Nat.add_sub_cancel] at m2
              split
              · exact m2
              · rename_i h0
                have : rest.length = 0 := by omega
                rw [this] at m2; exact m2
            rw [flatten, List.flatMap_cons]
            rw [flatten] at k1
            rw [k1]
            simp only [m2', List.zipWith_cons_cons, List.flatten_cons, List.map_append, List.map_map]
            rfl
          · intro L' hL'
            rcases List.mem_cons.1 hL' with rfl | h
            · exact m3
            · exact k2 L' h
      obtain ⟨Ls, k1, k2, k3⟩ := key
      refine ⟨ts, _, rfl, k1, ?_, ?_⟩
      · intro t ht
        simp only [List.mem_flatten] at ht
        obtain ⟨M, hM, ht⟩ := ht
        obtain ⟨c, L, hcL, rfl⟩ : ∃ c L, L ∈ Ls ∧ M = L.map (fun t =>
            (Function.update (fun _ => (0 : ℤ)) i (c : ℤ) + t.1, t.2)) := by
          clear k1 k3 h1 hF h2 h3 hts
          induction cs generalizing Ls with
          | nil => simp at hM
          | cons c cs ihc => cases Ls with
            | nil => simp at hM
            | cons L Ls =>
              simp only [List.zipWith_cons_cons, List.mem_cons] at hM
              rcases hM with rfl | hM
              · exact ⟨c.1, L, by simp, rfl⟩
              · obtain ⟨c', L', h1, h2⟩ := ihc Ls (fun L hL => k2 L (by simp [hL])) hM
                exact ⟨c', L', by simp [h1], h2⟩
        obtain ⟨u, hu, rfl⟩ := List.mem_map.1 ht
        exact k2 L hcL u hu
      · refine ⟨cs.map (fun c => (c.1, val c.2)), Ls.map (fun L => L.map (fun t => (t.1, val t.2))), ?_, ?_, ?_⟩
        · filter_upwards [h3] with y hy
          refine ⟨by simpa [List.map_map, Function.comp_def] using hy.1, ?_⟩
          intro c hc s
          obtain ⟨d, hd, rfl⟩ := List.mem_map.1 hc
          exact hy.2 d hd s
        · rw [List.forall₂_map_left_iff, List.forall₂_map_right_iff]
          exact k3
        · rw [List.map_flatten, List.zipWith_map, List.map_zipWith]
          simp only [List.map_map, Function.comp_def]

theorem expandAndFlatten_ok (hstep : StepOk step 𝓕 val Ok) {l : List (Fin n × Int)} {e : C} {r : Nest n C} (he : Ok e)
    (h : expandAndFlatten step l e = .ok r) :
    ∃ L : List (Expo n × C), r = .node (L.map (fun t => (t.1, .leaf t.2))) ∧ (∀ t ∈ L, Ok t.2) ∧
      Expands 𝓕 l (val e) (L.map (fun t => (t.1, val t.2))) := by
  unfold expandAndFlatten at h
  obtain ⟨r0, hr, h⟩ := ok_bind h
  obtain ⟨ts, L, rfl, h2, h3, h4⟩ := recursive_ok hstep l e r0 he hr
  refine ⟨L, ?_, h3, h4⟩
  split at h
  · rename_i hl
    rw [hl] at h2
    simp only [Except.ok.injEq] at h
    rw [← h, ← h2]; rfl
  · simp only [Except.ok.injEq] at h
    rw [← h, ← h2]

end multi

theorem singStep_stepOk : StepOk (singStep (n := n) (F := F)) (generic n) (RatProd.value φ) RatProd.Valid := by
  intro P i o p hP h
  obtain ⟨k, h1, h2, -⟩ := singStep_spec (φ := φ) P hP i o
  by_cases ho : o < k
  · rw [(h1 ho).1] at h; simp at h
  · obtain ⟨p', c0, cs, e1, e2, e3, e4, -⟩ := h2 (by omega)
    rw [h] at e1
    simp only [Except.ok.injEq] at e1
    subst e1
    refine ⟨(c0 :: cs).zipIdx.map (fun c => ((c.2 : ℤ) + k, c.1)), ?_, ?_, ?_⟩
    · rw [e2, List.map_map]; rfl
    · intro c hc
      obtain ⟨d, hd, rfl⟩ := List.mem_map.1 hc
      exact (e3 d.1 (List.fst_mem_of_mem_zipIdx hd)).1
    · filter_upwards [generic_valid (φ := φ) hP i] with y hy
      refine ⟨?_, ?_⟩
      · have := e4 y hy
        rw [consec, List.zipIdx_map, List.map_map] at this
        rw [List.map_map]
        exact this
      · intro c hc s
        obtain ⟨d, hd, rfl⟩ := List.mem_map.1 hc
        exact (e3 d.1 (List.fst_mem_of_mem_zipIdx hd)).2 y s

/-! ### Taylor expansion -/
section taylor
open Expr
variable {U : Set (Fin n → ℂ)}

/-- The expression as function of the variable `i`. -/
noncomputable def lineFun (φ : F →+* ℂ) (e : Expr n F) (i : Fin n) (y : Fin n → ℂ) (s : ℂ) : ℂ :=
  eval φ (Function.update y i s) e

theorem eventually_line (hU : IsOpen U) (hy : Function.update y i 0 ∈ U) :
    ∀ᶠ s in 𝓝 (0:ℂ), Function.update y i s ∈ U := by
  have hc : Continuous (fun s : ℂ => Function.update y i s) := continuous_const.update i continuous_id
  exact hc.continuousAt.eventually_mem (hU.mem_nhds hy)

theorem lineFun_analytic {e : Expr n F} (he : Adm (Mode.free φ) φ U e) (hy : Function.update y i 0 ∈ U) :
    AnalyticAt ℂ (lineFun φ e i y) 0 := by
  have h1 := Subtraction.Adm.analytic he _ hy
  have h2 : AnalyticAt ℂ (fun s : ℂ => Function.update y i s) 0 := by
    apply AnalyticAt.pi
    intro j
    by_cases hj : j = i
    · subst hj; simp only [Function.update_self]; exact analyticAt_id
    · simpa [Function.update_of_ne hj] using analyticAt_const
  exact AnalyticAt.comp (g := fun x => eval φ x e) (f := fun s : ℂ => Function.update y i s) h1 h2

theorem taylorLoop_ok (hU : IsOpen U) (i : Fin n) (fuel : Nat) (e0 : Expr n F) :
    ∀ (count k : ℕ) (fact : F) (e : Expr n F) (cs : List (Expr n F)), Adm (Mode.free φ) φ U e →
    φ fact = 1 / (k.factorial : ℂ) →
    (∀ y, Function.update y i 0 ∈ U → ∀ᶠ t in 𝓝 (0:ℂ), iteratedDeriv k (lineFun φ e0 i y) t = lineFun φ e i y t) →
    taylorLoop fuel i count k fact e = .ok cs →
    (∀ c ∈ cs, Adm (Mode.free φ) φ {x | Function.update x i 0 ∈ U} c) ∧
    ∀ y, Function.update y i 0 ∈ U → cs.map (fun c => eval φ y c) =
      (List.range count).map (fun j => iteratedDeriv (k + 1 + j) (lineFun φ e0 i y) 0 / ((k + 1 + j).factorial : ℂ)) := by
  intro count
  induction count with
  | zero =>
    intro k fact e cs _ _ _ h
    simp only [taylorLoop, Except.ok.injEq] at h
    subst h
    simp
  | succ count ih =>
    intro k fact e cs he hfact hder h
    simp only [taylorLoop] at h
    split at h
    · simp at h
    · rename_i e1 he1
      split at h
      · simp at h
      · rename_i e2 he2
        split at h
        · simp at h
        · rename_i e3 he3
          split at h
          · simp at h
          · rename_i rest hrest
            simp only [Except.ok.injEq] at h
            subst h
            obtain ⟨⟨a1, v1⟩, -⟩ := (simplify_ok (M := (Mode.free φ)) (φ := φ) (U := U) fuel).1 e e1 he he1
            obtain ⟨a2, v2⟩ := derive_ok hU fuel e1 e2 a1 he2
            have v3 := replace_val (φ := φ) (M := (Mode.free φ)) (U := U) 0 (fun _ => 0) i (by simp) (fun _ c hc => hc) fuel e2 e3 a2 he3
            have a3 := replace_zero_free (φ := φ) (U := U) (fun _ => 0) i fuel e2 e3 a2 he3
            have hfact' : φ (fact / ((k : F) + 1)) = 1 / ((k + 1).factorial : ℂ) := by
              rw [map_div₀, hfact, Nat.factorial_succ, div_div]; push_cast; simp [mul_comm]
            obtain ⟨a4, v4⟩ := mulExpr_ok (M := (Mode.free φ)) (φ := φ) (U := {x | Function.update x i 0 ∈ U}) fuel e3
              (.num (fact / ((k : F) + 1))) a3 (Adm.num _)
            have hder' : ∀ y, Function.update y i 0 ∈ U → ∀ᶠ t in 𝓝 (0:ℂ),
                iteratedDeriv (k + 1) (lineFun φ e0 i y) t = lineFun φ e2 i y t := by
              intro y hy
              have h1 : iteratedDeriv k (lineFun φ e0 i y) =ᶠ[𝓝 0] lineFun φ e1 i y := by
                filter_upwards [hder y hy, eventually_line hU hy] with t ht htU
                rw [ht]; exact (v1 _ htU).symm
              filter_upwards [h1.deriv, eventually_line hU hy] with t ht htU
              rw [iteratedDeriv_succ, ht]
              have := v2 _ htU
              simp only [Function.update_idem, Function.update_self] at this
              exact this.deriv
            obtain ⟨b1, b2⟩ := ih (k + 1) _ e2 rest a2 hfact' hder' hrest
            refine ⟨?_, ?_⟩
            · intro c hc
              rcases List.mem_cons.1 hc with rfl | h
              · exact a4
              · exact b1 c h
            · intro y hy
              rw [List.map_cons, b2 y hy, List.range_succ_eq_map, List.map_cons, List.map_map]
              congr 1
              · rw [v4 y hy]; simp only; rw [eval_num, hfact', v3 y, map_zero, add_zero, (hder' y hy).self_of_nhds]
                unfold lineFun
                rw [mul_one_div]
              · refine List.map_congr_left fun j _ => ?_
                simp only [Function.comp, Nat.succ_eq_add_one]
                rw [show k + 1 + (j + 1) = k + 1 + 1 + j by ring]

/-- The condition for a Taylor expansion: the expression is analytic at zero. -/
def TaylorOk (φ : F →+* ℂ) (e : Expr n F) : Prop :=
  ∃ U : Set (Fin n → ℂ), IsOpen U ∧ (0 : Fin n → ℂ) ∈ U ∧ Adm (Mode.free φ) φ U e

theorem taylorStep_stepOk (fuel : Nat) :
    StepOk (taylorStep (n := n) (F := F) fuel) (𝓝 0) (fun e x => eval φ x e) (TaylorOk φ) := by
  rintro e i o p ⟨U, hU, h0, he⟩ h
  unfold taylorStep at h
  split at h
  · simp at h
  · rename_i ho
    split at h
    · simp at h
    · rename_i e0 he0
      split at h
      · simp at h
      · rename_i cs hcs
        simp only [Except.ok.injEq] at h
        subst h
        have v0 := replace_val (φ := φ) (M := (Mode.free φ)) (U := U) 0 (fun _ => 0) i (by simp) (fun _ c hc => hc) fuel e e0 he he0
        have a0 := replace_zero_free (φ := φ) (U := U) (fun _ => 0) i fuel e e0 he he0
        obtain ⟨b1, b2⟩ := taylorLoop_ok (φ := φ) hU i fuel e o.toNat 0 1 e cs he (by simp)
          (fun y _ => Eventually.of_forall fun t => by simp) hcs
        have hVopen : IsOpen {x : Fin n → ℂ | Function.update x i 0 ∈ U} := Subtraction.isOpen_dom0 hU i
        have hV0 : (0 : Fin n → ℂ) ∈ {x : Fin n → ℂ | Function.update x i 0 ∈ U} := by
          simp only [Set.mem_setOf_eq]
          rwa [show Function.update (0 : Fin n → ℂ) i 0 = 0 from by simp]
        have hvals : ∀ y, Function.update y i 0 ∈ U → (e0 :: cs).map (fun c => eval φ y c) =
            (List.range (o.toNat + 1)).map (fun j => iteratedDeriv j (lineFun φ e i y) 0 / (j.factorial : ℂ)) := by
          intro y hy
          rw [List.map_cons, b2 y hy, List.range_succ_eq_map, List.map_cons, List.map_map]
          congr 1
          · rw [v0 y]; simp [lineFun]
          · refine List.map_congr_left fun j _ => ?_
            simp only [Function.comp, Nat.succ_eq_add_one]
            rw [show 0 + 1 + j = j + 1 by ring]
        refine ⟨(e0 :: cs).zipIdx.map (fun c => ((c.2 : ℤ), c.1)), ?_, ?_, ?_⟩
        · simp only [List.map_map]; rfl
        · intro c hc
          obtain ⟨d, hd, rfl⟩ := List.mem_map.1 hc
          have hd' := List.fst_mem_of_mem_zipIdx hd
          refine ⟨_, hVopen, hV0, ?_⟩
          rcases List.mem_cons.1 hd' with h | h
          · rw [h]; exact a0
          · exact b1 _ h
        · filter_upwards [hVopen.mem_nhds hV0] with y hy
          refine ⟨?_, ?_⟩
          · have hexp := isExpansion_consec (f := fun s => eval φ (Function.update y i s) e) (a := 0) (o := o)
              (lineFun_analytic (φ := φ) he hy) (Eventually.of_forall fun s => by simp [lineFun]) (o.toNat + 1)
              (by push_cast; rw [Int.toNat_of_nonneg (by omega)]; ring) ((e0 :: cs).map (fun c => eval φ y c))
              (by rw [hvals y hy]; simp) (by
                intro k hk
                rw [hvals y hy, List.getD_eq_getElem?_getD, List.getElem?_map, List.getElem?_range hk]; rfl)
            rw [consec, List.zipIdx_map, List.map_map] at hexp
            rw [List.map_map]
            simpa [Function.comp_def] using hexp
          · intro c hc s
            obtain ⟨d, hd, rfl⟩ := List.mem_map.1 hc
            have hd' := List.fst_mem_of_mem_zipIdx hd
            have hys : Function.update (Function.update y i s) i 0 ∈ U := by
              rw [Function.update_idem]; exact hy
            have e1 := hvals y hy
            have e2 := hvals (Function.update y i s) hys
            have e3 : lineFun φ e i (Function.update y i s) = lineFun φ e i y := by
              funext t; simp [lineFun]
            rw [e3, ← e1] at e2
            exact List.map_inj_left.1 e2 d.1 hd'

end taylor
end Expansion
end SecDec
