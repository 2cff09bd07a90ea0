import Verif.Proof.ExpMulti
/-
C22: Laurent and Taylor expansions are correct and complete.
-/
set_option linter.unusedSectionVars false
namespace SecDec
open Expansion Filter Topology
variable {n : Nat} {F : Type} [Field F] [DecidableEq F]

/-- With one variable, the result consists of consecutive powers of the expansion variable, and is the
Laurent expansion up to the requested order, at all values `y` of the other variables where the lowest
power in no inverse factor changes. -/
theorem C22_one_variable (φ : F →+* ℂ) (P : RatProd n F) (hP : P.Valid) (i : Fin n) (o : ℤ)
    (r : Nest n (RatProd n F)) (h : expandSingular P [(i, o)] = .ok r) :
    ∃ (k : ℤ) (cs : List (RatProd n F)),
      r = .node (cs.zipIdx.map (fun c => (Function.update (fun _ => 0) i ((c.2 : ℤ) + k), .leaf c.1))) ∧
      ∀ y, (∀ f ∈ P.factors, f.1 = true → RegularAt φ f.2 i y) →
        IsExpansion (fun s => P.value φ (Function.update y i s)) o
          (cs.zipIdx.map (fun c => ((c.2 : ℤ) + k, c.1.value φ y))) := by
  unfold expandSingular expandAndFlatten at h
  obtain ⟨r0, hr, h⟩ := ok_bind h
  simp only [recursiveExpansion] at hr
  obtain ⟨p, hp, hr⟩ := ok_bind hr
  simp only [Except.ok.injEq] at hr
  simp only [List.length_singleton, if_true, Except.ok.injEq] at h
  obtain ⟨k, h1, h2, -⟩ := singStep_spec (φ := φ) P hP i o
  by_cases ho : o < k
  · rw [(h1 ho).1] at hp; simp at hp
  · obtain ⟨p', c0, cs, e1, e2, -, e4, -⟩ := h2 (by omega)
    rw [hp] at e1
    simp only [Except.ok.injEq] at e1
    subst e1
    refine ⟨k, c0 :: cs, ?_, ?_⟩
    · rw [← h, ← hr, e2, List.map_map]; rfl
    · intro y hy
      have := e4 y hy
      rw [consec, List.zipIdx_map, List.map_map] at this
      exact this

/-- `OrderError` is raised exactly if the requested order is below the leading one, and there is no other
error: let `y` be values where no factor degenerates, and let `s^k` be the leading behaviour there. -/
theorem C22_order_error_exact (φ : F →+* ℂ) (P : RatProd n F) (hP : P.Valid) (i : Fin n) (o k : ℤ)
    (y : Fin n → ℂ) (hy : ∀ f ∈ P.factors, RegularAt φ f.2 i y) (c : ℂ) (hc : c ≠ 0)
    (hk : Tendsto (fun s => P.value φ (Function.update y i s) / s ^ k) (𝓝[≠] 0) (𝓝 c)) :
    (expandSingular P [(i, o)] = .error .order ↔ o < k) ∧
    ((∃ r, expandSingular P [(i, o)] = .ok r) ↔ k ≤ o) := by
  obtain ⟨k', h1, h2, h3⟩ := singStep_spec (φ := φ) P hP i o
  obtain ⟨c', hc', hk'⟩ := h3 y hy
  have hkk : k = k' := by
    have key : ∀ (a b : ℤ) (u v : ℂ), v ≠ 0 →
        Tendsto (fun s => P.value φ (Function.update y i s) / s ^ a) (𝓝[≠] 0) (𝓝 u) →
        Tendsto (fun s => P.value φ (Function.update y i s) / s ^ b) (𝓝[≠] 0) (𝓝 v) → a ≤ b := by
      intro a b u v hv ha hb
      by_contra hlt
      have h0 := ha.mul (tendsto_zpow_zero (a := a - b) (by omega))
      rw [mul_zero] at h0
      refine hv (tendsto_nhds_unique hb (h0.congr' ?_))
      filter_upwards [self_mem_nhdsWithin] with s hs
      rw [zpow_sub₀ hs]
      have := zpow_ne_zero a hs
      field_simp
    exact le_antisymm (key _ _ _ _ hc' hk hk') (key _ _ _ _ hc hk' hk)
  subst hkk
  have e1 : ∀ p, singStep P i o = .ok p → ∃ r, expandSingular P [(i, o)] = .ok r := by
    intro p hp
    refine ⟨.node (p.terms.map (fun t => (t.1, .leaf t.2))), ?_⟩
    simp [expandSingular, expandAndFlatten, recursiveExpansion, hp, Bind.bind, Except.bind]
  have e2 : singStep P i o = .error .order → expandSingular P [(i, o)] = .error .order := by
    intro hp
    simp [expandSingular, expandAndFlatten, recursiveExpansion, hp, Bind.bind, Except.bind]
  by_cases ho : o < k
  · have := e2 (h1 ho).1
    refine ⟨⟨fun _ => ho, fun _ => this⟩, ⟨?_, fun h => absurd h (by omega)⟩⟩
    rintro ⟨r, hr⟩
    rw [this] at hr; simp at hr
  · obtain ⟨p, _, _, hp, -⟩ := h2 (by omega)
    obtain ⟨r, hr⟩ := e1 p hp
    refine ⟨⟨fun h => ?_, fun h => absurd h ho⟩, ⟨fun _ => by omega, fun _ => ⟨r, hr⟩⟩⟩
    rw [hr] at h; simp at h

/-- With one variable, whenever `OrderError` is raised there really is no term up to the requested
order. -/
theorem C22_order_error_no_terms (φ : F →+* ℂ) (P : RatProd n F) (hP : P.Valid) (i : Fin n) (o : ℤ)
    (h : expandSingular P [(i, o)] = .error .order) (y : Fin n → ℂ)
    (hy : ∀ f ∈ P.factors, f.1 = true → RegularAt φ f.2 i y) :
    IsExpansion (fun s => P.value φ (Function.update y i s)) o [] := by
  obtain ⟨k, h1, h2, -⟩ := singStep_spec (φ := φ) P hP i o
  by_cases ho : o < k
  · exact (h1 ho).2 y hy
  · exfalso
    obtain ⟨p, _, _, hp, -⟩ := h2 (by omega)
    simp [expandSingular, expandAndFlatten, recursiveExpansion, hp, Bind.bind, Except.bind] at h

/-- The first coefficient is the leading one: it does not vanish. -/
theorem C22_leading_coefficient (φ : F →+* ℂ) (P : RatProd n F) (hP : P.Valid) (i : Fin n) (o : ℤ)
    (r : Nest n (RatProd n F)) (h : expandSingular P [(i, o)] = .ok r) :
    ∃ (e : Expo n) (c : RatProd n F) (rest : List (Expo n × Nest n (RatProd n F))),
      r = .node ((e, .leaf c) :: rest) ∧
      ∀ y, (∀ f ∈ P.factors, RegularAt φ f.2 i y) → c.value φ y ≠ 0 := by
  unfold expandSingular expandAndFlatten at h
  obtain ⟨r0, hr, h⟩ := ok_bind h
  simp only [recursiveExpansion] at hr
  obtain ⟨p, hp, hr⟩ := ok_bind hr
  simp only [Except.ok.injEq] at hr
  simp only [List.length_singleton, if_true, Except.ok.injEq] at h
  obtain ⟨k, h1, h2, -⟩ := singStep_spec (φ := φ) P hP i o
  by_cases ho : o < k
  · rw [(h1 ho).1] at hp; simp at hp
  · obtain ⟨p', c0, cs, e1, e2, -, -, e5⟩ := h2 (by omega)
    rw [hp] at e1
    simp only [Except.ok.injEq] at e1
    subst e1
    rw [List.zipIdx_cons, List.map_cons] at e2
    rw [← h, ← hr, e2, List.map_cons]
    exact ⟨_, c0, _, rfl, e5⟩

/-- With several variables, the flattened result is the iterated expansion, at generic values of the other
variables. -/
theorem C22_several_variables (φ : F →+* ℂ) (P : RatProd n F) (hP : P.Valid) (l : List (Fin n × ℤ))
    (r : Nest n (RatProd n F)) (h : expandSingular P l = .ok r) :
    ∃ L : List (Expo n × RatProd n F), r = .node (L.map (fun t => (t.1, .leaf t.2))) ∧
      Expands (generic n) l (P.value φ) (L.map (fun t => (t.1, t.2.value φ))) := by
  obtain ⟨L, h1, -, h3⟩ := expandAndFlatten_ok (singStep_stepOk (φ := φ)) hP h
  exact ⟨L, h1, h3⟩

/-- The values at which the theorems for one variable hold are generic: every polynomial which is not zero
is regular on a dense open set, and dense open sets are not empty. -/
theorem C22_generic (φ : F →+* ℂ) (p : Poly n F) (hp : ∀ t ∈ p.terms, ∀ j, 0 ≤ t.1 j) (e : Expo n)
    (h : p.coeffOf e ≠ 0) (i : Fin n) :
    (∃ G : Set (Fin n → ℂ), IsOpen G ∧ Dense G ∧ ∀ y ∈ G, RegularAt φ p i y) ∧ (generic n).NeBot :=
  ⟨generic_regular (φ := φ) hp h i, generic_neBot⟩

/-- An expansion up to a given order is unique: in particular the one returned is complete. -/
theorem C22_expansion_unique (f : ℂ → ℂ) (o : ℤ) (l l' : List (ℤ × ℂ)) (h : IsExpansion f o l)
    (h' : IsExpansion f o l') (k : ℤ) :
    ((l.filter (fun t => t.1 = k)).map Prod.snd).sum = ((l'.filter (fun t => t.1 = k)).map Prod.snd).sum :=
  isExpansion_unique h h' k

/-- For every list of variables the expansion succeeds for suitable orders (so the previous theorems are
not vacuous); this holds for finitely many products at once. -/
theorem C22_succeeds (φ : F →+* ℂ) (is : List (Fin n)) (his : is ≠ []) (Ps : List (RatProd n F))
    (hP : ∀ P ∈ Ps, P.Valid) :
    ∃ os : List ℤ, os.length = is.length ∧ ∀ P ∈ Ps, ∃ r, expandSingular P (is.zip os) = .ok r := by
  have key : ∀ (is : List (Fin n)), is ≠ [] → ∀ (Ps : List (RatProd n F)), (∀ P ∈ Ps, P.Valid) →
      ∃ os : List ℤ, os.length = is.length ∧
        ∀ P ∈ Ps, ∃ ts, recursiveExpansion singStep (is.zip os) P = .ok (.node ts) := by
    intro is
    induction is with
    | nil => intro h; exact absurd rfl h
    | cons i is ih =>
      intro _ Ps hP
      -- an order which is high enough for all products
      obtain ⟨o, ho⟩ : ∃ o : ℤ, ∀ P ∈ Ps, ∃ p, singStep P i o = .ok p ∧ ∀ t ∈ p.terms, t.2.Valid := by
        have hk : ∃ o : ℤ, ∀ P ∈ Ps, ∀ o' ≥ o, ∃ p, singStep P i o' = .ok p ∧ ∀ t ∈ p.terms, t.2.Valid := by
          clear ih
          induction Ps with
          | nil => exact ⟨0, by simp⟩
          | cons P Ps ihP =>
            obtain ⟨o1, h1⟩ := ihP (fun P h => hP P (by simp [h]))
            have hex : ∃ k : ℤ, ∀ o' ≥ k, ∃ p, singStep P i o' = .ok p ∧ ∀ t ∈ p.terms, t.2.Valid := by
              obtain ⟨a, b, ha, hb, -⟩ := setup (φ := φ) P (hP P (by simp)) i
              refine ⟨a - b, fun o' ho' => ?_⟩
              have hnot : singStep P i o' ≠ .error .order := by
                unfold singStep
                simp only [ha, hb]
                rw [if_neg (by omega)]
                simp
              obtain ⟨k, h1, h2, -⟩ := singStep_spec (φ := φ) P (hP P (by simp)) i o'
              by_cases hok : o' < k
              · exact absurd (h1 hok).1 hnot
              · obtain ⟨p, c0, cs, e1, e2, e3, -⟩ := h2 (by omega)
                refine ⟨p, e1, ?_⟩
                intro t ht
                rw [e2] at ht
                obtain ⟨c, hc, rfl⟩ := List.mem_map.1 ht
                exact (e3 c.1 (List.fst_mem_of_mem_zipIdx hc)).1
            obtain ⟨k, hk⟩ := hex
            refine ⟨max k o1, ?_⟩
            intro Q hQ o' ho'
            rcases List.mem_cons.1 hQ with rfl | h
            · exact hk o' (le_trans (le_max_left _ _) ho')
            · exact h1 Q h o' (le_trans (le_max_right _ _) ho')
        obtain ⟨o, ho⟩ := hk
        exact ⟨o, fun P h => ho P h o le_rfl⟩
      cases is with
      | nil =>
        refine ⟨[o], rfl, ?_⟩
        intro P hPm
        obtain ⟨p, hp, -⟩ := ho P hPm
        exact ⟨p.terms.map (fun t => (t.1, .leaf t.2)), by
          simp [recursiveExpansion, hp, Bind.bind, Except.bind]⟩
      | cons j is =>
        -- all coefficients of all products
        let Qs := Ps.flatMap (fun P => match singStep P i o with
          | .ok p => p.terms.map (·.2)
          | .error _ => [])
        have hQ : ∀ Q ∈ Qs, Q.Valid := by
          intro Q hQ
          simp only [Qs, List.mem_flatMap] at hQ
          obtain ⟨P, hPm, hQ⟩ := hQ
          obtain ⟨p, hp, hv⟩ := ho P hPm
          rw [hp] at hQ
          obtain ⟨t, ht, rfl⟩ := List.mem_map.1 hQ
          exact hv t ht
        obtain ⟨os, hlen, hos⟩ := ih (by simp) Qs hQ
        cases os with
        | nil => simp at hlen
        | cons o2 os =>
          refine ⟨o :: o2 :: os, by simpa using hlen, ?_⟩
          intro P hPm
          obtain ⟨p, hp, hv⟩ := ho P hPm
          have hall : ∀ t ∈ p.terms, ∃ ts, recursiveExpansion singStep ((j :: is).zip (o2 :: os)) t.2 = .ok (.node ts) := by
            intro t ht
            refine hos t.2 ?_
            simp only [Qs, List.mem_flatMap]
            exact ⟨P, hPm, by rw [hp]; exact List.mem_map_of_mem ht⟩
          have hm : ∃ ts, p.terms.mapM (fun t => (do
              let r ← recursiveExpansion singStep ((j :: is).zip (o2 :: os)) t.2
              .ok (t.1, r) : Except Err (Expo n × Nest n (RatProd n F)))) = .ok ts := by
            clear hp hv
            generalize p.terms = l at hall
            induction l with
            | nil => exact ⟨[], rfl⟩
            | cons t l ihl =>
              obtain ⟨ts, hts⟩ := ihl (fun u hu => hall u (by simp [hu]))
              obtain ⟨us, hus⟩ := hall t (by simp)
              exact ⟨_, by rw [List.mapM_cons, hus, hts]; rfl⟩
          obtain ⟨ts, hts⟩ := hm
          refine ⟨ts, ?_⟩
          simp only [List.zip_cons_cons, recursiveExpansion, hp]
          simp only [List.zip_cons_cons] at hts
          exact (congrArg (fun x : Except Err (List (Expo n × Nest n (RatProd n F))) => x >>= fun ts =>
            (.ok (.node ts) : Except Err (Nest n (RatProd n F)))) hts).trans rfl
  obtain ⟨os, h1, h2⟩ := key is his Ps hP
  refine ⟨os, h1, fun P hPm => ?_⟩
  obtain ⟨ts, hts⟩ := h2 P hPm
  by_cases hl : (is.zip os).length = 1
  · exact ⟨.node ts, by unfold expandSingular expandAndFlatten; rw [hts]; show (if _ then _ else _) = _; rw [if_pos hl]⟩
  · exact ⟨.node (flatten ((is.zip os).length - 1) ts), by
      unfold expandSingular expandAndFlatten; rw [hts]; show (if _ then _ else _) = _; rw [if_neg hl]⟩

/-- `expand_Taylor` of an expression which is meaningful in a neighbourhood of zero is the iterated
Taylor expansion. -/
theorem C22_taylor (φ : F →+* ℂ) (e : Expr n F) (U : Set (Fin n → ℂ)) (hU : IsOpen U) (h0 : (0 : Fin n → ℂ) ∈ U)
    (he : Expr.Adm (Expr.Mode.free φ) φ U e) (fuel : Nat) (l : List (Fin n × ℤ)) (r : Nest n (Expr n F))
    (h : expandTaylor fuel e l = .ok r) :
    ∃ L : List (Expo n × Expr n F), r = .node (L.map (fun t => (t.1, .leaf t.2))) ∧
      Expands (𝓝 0) l (fun x => Expr.eval φ x e) (L.map (fun t => (t.1, fun x => Expr.eval φ x t.2))) := by
  obtain ⟨L, h1, -, h3⟩ := expandAndFlatten_ok (taylorStep_stepOk (φ := φ) fuel) ⟨U, hU, h0, he⟩ h
  exact ⟨L, h1, h3⟩

/-! ### Concrete cases -/

/-- `(1 + x₁) / (x₀ (2 + x₀ + x₁))`. -/
def exProd : RatProd 2 ℚ :=
  ⟨[(false, ⟨[(![0, 0], 1), (![0, 1], 1)]⟩), (true, ⟨[(![1, 0], 1)]⟩),
    (true, ⟨[(![0, 0], 2), (![1, 0], 1), (![0, 1], 1)]⟩)]⟩

theorem exProd_valid : exProd.Valid := by
  refine ⟨?_, ?_⟩
  · intro f hf t ht j
    simp only [exProd, List.mem_cons, List.not_mem_nil, or_false] at hf
    rcases hf with rfl | rfl | rfl <;> simp at ht
    · rcases ht with rfl | rfl <;> fin_cases j <;> simp
    · subst ht; fin_cases j <;> simp
    · rcases ht with rfl | rfl | rfl <;> fin_cases j <;> simp
  · intro f hf hft
    simp only [exProd, List.mem_cons, List.not_mem_nil, or_false] at hf
    rcases hf with rfl | rfl | rfl
    · simp at hft
    · exact ⟨![1, 0], by decide +kernel⟩
    · exact ⟨![0, 0], by decide +kernel⟩

example : ∃ os : List ℤ, os.length = 2 ∧ ∀ P ∈ [exProd], ∃ r, expandSingular P ([0, 1].zip os) = .ok r :=
  C22_succeeds (algebraMap ℚ ℂ) [0, 1] (by simp) [exProd] (by simpa using exProd_valid)

/-- `1/(1 + x₀ + x₁)` is meaningful near zero. -/
example : Expr.Adm (Expr.Mode.free (algebraMap ℚ ℂ)) (algebraMap ℚ ℂ) {x : Fin 2 → ℂ | 1 + x 0 + x 1 ≠ 0}
    (.epoly [(![0, 0], .num 1), (![1, 0], .num 1), (![0, 1], .num 1)] (.num (-1))) ∧
    IsOpen {x : Fin 2 → ℂ | 1 + x 0 + x 1 ≠ 0} ∧ (0 : Fin 2 → ℂ) ∈ {x : Fin 2 → ℂ | 1 + x 0 + x 1 ≠ 0} := by
  refine ⟨?_, isOpen_ne_fun (by fun_prop) continuous_const, by simp⟩
  refine Expr.Adm.epoly _ _ (Expr.Adm.poly _ ?_ ?_ ?_) (Expr.Adm.num _) (Expr.Flat.num _) ?_ (Or.inr ⟨-1, -1, rfl, by simp, ?_⟩)
  · intro t ht x _ j _
    simp at ht
    rcases ht with rfl | rfl | rfl <;> fin_cases j <;> simp
  · intro t ht
    simp at ht
    rcases ht with rfl | rfl | rfl <;> exact Expr.Adm.num _
  · intro t ht
    simp at ht
    rcases ht with rfl | rfl | rfl <;> exact ⟨_, rfl⟩
  · refine Or.inl fun h => ?_
    have := (h (![1, 0], .num 1) (by simp)).1
    have := congrFun this 0
    simp at this
  · intro x hx
    have : Expr.eval (algebraMap ℚ ℂ) x (.poly [(![0, 0], .num 1), (![1, 0], .num 1), (![0, 1], .num 1)]) = 1 + x 0 + x 1 := by
      simp [Expr.eval_poly, Expr.eval_num, Poly.mono, Fin.prod_univ_two, add_assoc]
    rw [this]; exact hx

/-! ### A defect with several variables -/

/-- `1 + x₀ x₁²`. -/
def spurious : RatProd 2 ℚ := ⟨[(false, ⟨[(![0, 0], 1), (![1, 2], 1)]⟩)]⟩

theorem spurious_valid : spurious.Valid := by
  refine ⟨?_, ?_⟩
  · intro f hf t ht j
    simp only [spurious, List.mem_singleton] at hf
    subst hf
    simp at ht
    rcases ht with rfl | rfl <;> fin_cases j <;> simp
  · intro f hf hft
    simp only [spurious, List.mem_singleton] at hf
    subst hf
    simp at hft

theorem spurious_value (x : Fin 2 → ℂ) : spurious.value (algebraMap ℚ ℂ) x = 1 + x 0 * x 1 ^ 2 := by
  simp [spurious, RatProd.value, polyValue, Poly.mono, Fin.prod_univ_two]

theorem mapM_error {ε α β : Type} {f : α → Except ε β} {e : ε} : ∀ {l : List α},
    (∀ a ∈ l, (∃ b, f a = .ok b) ∨ f a = .error e) → (∃ a ∈ l, f a = .error e) → l.mapM f = .error e := by
  intro l
  induction l with
  | nil => rintro _ ⟨a, ha, _⟩; simp at ha
  | cons a l ih =>
    intro h1 ⟨b, hb, hbe⟩
    rw [List.mapM_cons]
    rcases h1 a (by simp) with ⟨c, hc⟩ | hc
    · rcases List.mem_cons.1 hb with rfl | hb'
      · rw [hc] at hbe; simp at hbe
      · rw [hc, ih (fun a ha => h1 a (by simp [ha])) ⟨b, hb', hbe⟩]; rfl
    · rw [hc]; rfl

/-- **Defect.**  With several variables `OrderError` is raised too often: expanding `1 + x₀ x₁²` to first
order in `x₀` and in `x₁` fails, because the coefficient `x₁²` of `x₀` starts beyond first order in `x₁`,
although the requested expansion exists (it is just `1`). -/
theorem C22_spurious_order_error :
    expandSingular spurious [(0, 1), (1, 1)] = .error .order ∧
    Expands (generic 2) [(0, 1), (1, 1)] (spurious.value (algebraMap ℚ ℂ)) [((fun _ => 0), fun _ => 1)] := by
  set φ := algebraMap ℚ ℂ with hφ
  have hexp : ∀ y : Fin 2 → ℂ, IsExpansion (fun s => spurious.value φ (Function.update y 0 s)) 1 [(0, 1), (1, y 1 ^ 2)] := by
    intro y
    refine ⟨by simp, by simp, ?_⟩
    refine (Asymptotics.isBigO_zero _ _).congr_left fun s => ?_
    simp only [hφ, spurious_value]; simp
    try ring
  refine ⟨?_, ?_⟩
  · obtain ⟨k, h1, h2, -⟩ := singStep_spec (φ := φ) spurious spurious_valid 0 1
    have hreg : ∀ y : Fin 2 → ℂ, ∀ f ∈ spurious.factors, f.1 = true → RegularAt φ f.2 0 y := by
      intro y f hf hft
      simp only [spurious, List.mem_singleton] at hf
      subst hf; simp at hft
    by_cases hk : (1 : ℤ) < k
    · simp [expandSingular, expandAndFlatten, recursiveExpansion, (h1 hk).1, Bind.bind, Except.bind]
    · obtain ⟨p, c0, cs, e1, e2, e3, e4, -⟩ := h2 (by omega)
      have hval : ∀ y : Fin 2 → ℂ, ((c0 :: cs).map (fun c => c.value φ y)).getD (1 - k).toNat 0 = y 1 ^ 2 := by
        intro y
        have h := isExpansion_unique (e4 y (hreg y)) (hexp y) 1
        have hr : coeffAt [((0 : ℤ), (1 : ℂ)), (1, y 1 ^ 2)] 1 = y 1 ^ 2 := by simp [coeffAt]
        rw [hr] at h
        rw [← h, coeffAt_consec_nat k _ (1 - k).toNat 1 (by rw [Int.toNat_of_nonneg (by omega)]; ring)]
      have hm : (1 - k).toNat < (c0 :: cs).length := by
        by_contra hlt
        have := hval (fun _ => 1)
        rw [List.getD_eq_getElem?_getD, List.getElem?_eq_none (by push Not at hlt; rw [List.length_map]; exact hlt)] at this
        simp at this
      set c := (c0 :: cs)[(1 - k).toNat] with hc
      have hcm : c ∈ c0 :: cs := List.getElem_mem hm
      have hcv : ∀ y : Fin 2 → ℂ, c.value φ y = y 1 ^ 2 := by
        intro y
        rw [← hval y, List.getD_eq_getElem?_getD, List.getElem?_map, List.getElem?_eq_getElem hm]; rfl
      have hcValid := (e3 c hcm).1
      -- the second step fails for this coefficient
      have hfail : singStep c 1 1 = .error .order := by
        obtain ⟨k', g1, g2, g3⟩ := singStep_spec (φ := φ) c hcValid 1 1
        by_cases hk' : (1 : ℤ) < k'
        · exact (g1 hk').1
        · exfalso
          have hgen : ∀ᶠ y in generic 2, ∀ f ∈ c.factors, RegularAt φ f.2 1 y := by
            have hone : ∀ f ∈ c.factors, ∃ e, f.2.coeffOf e ≠ 0 := by
              intro f hf
              by_cases hft : f.1 = true
              · exact hcValid.2 f hf hft
              · have hv := hcv (fun _ => 1)
                refine exists_coeff (φ := φ) (x := fun _ => 1) ?_
                intro h0
                rw [RatProd.value, List.prod_eq_zero (by
                  refine List.mem_map.2 ⟨f, hf, ?_⟩
                  rw [if_neg hft, polyValue_eq, h0])] at hv
                simp at hv
            have hnn := hcValid.1
            clear_value c
            obtain ⟨l⟩ := c
            simp only at hone hnn ⊢
            clear hc hcm hcv hcValid g1 g2 g3
            induction l with
            | nil => simp
            | cons f l ih =>
              obtain ⟨e, he⟩ := hone f (by simp)
              filter_upwards [generic_regular (φ := φ) (hnn f (by simp)) he 1,
                ih (fun f hf => hone f (by simp [hf])) (fun f hf => hnn f (by simp [hf]))] with y hy1 hy2 g hg
              rcases List.mem_cons.1 hg with rfl | h
              · exact hy1
              · exact hy2 g h
          have := generic_neBot (n := 2)
          obtain ⟨y, hy⟩ := hgen.exists
          obtain ⟨d, hd, ht⟩ := g3 y hy
          refine hd (tendsto_nhds_unique ht ?_)
          refine (tendsto_zpow_zero (a := 2 - k') (by omega)).congr' ?_
          filter_upwards [self_mem_nhdsWithin] with s hs
          rw [hcv, zpow_sub₀ hs]; simp
          try rfl
      -- hence the whole expansion fails
      have hmap : p.terms.mapM (fun t => (do
          let r ← recursiveExpansion singStep [((1 : Fin 2), (1 : ℤ))] t.2
          .ok (t.1, r) : Except Err (Expo 2 × Nest 2 (RatProd 2 ℚ)))) = .error .order := by
        refine mapM_error ?_ ?_
        · intro t ht
          rw [e2] at ht
          obtain ⟨d, hd, rfl⟩ := List.mem_map.1 ht
          obtain ⟨k', g1, g2, -⟩ := singStep_spec (φ := φ) d.1 (e3 d.1 (List.fst_mem_of_mem_zipIdx hd)).1 1 1
          by_cases hk' : (1 : ℤ) < k'
          · right; simp [recursiveExpansion, (g1 hk').1, Bind.bind, Except.bind]
          · left
            obtain ⟨q, _, _, hq, -⟩ := g2 (by omega)
            exact ⟨(Function.update (fun _ => 0) 0 ((d.2 : ℤ) + k), .node (q.terms.map (fun t => (t.1, .leaf t.2)))), by
              simp [recursiveExpansion, hq, Bind.bind, Except.bind]⟩
        · refine ⟨(Function.update (fun _ => 0) 0 (((1 - k).toNat : ℤ) + k), c), ?_, ?_⟩
          · rw [e2]
            refine List.mem_map.2 ⟨(c, (1 - k).toNat), ?_, rfl⟩
            rw [List.mk_mem_zipIdx_iff_getElem?, List.getElem?_eq_getElem hm]
          · simp [recursiveExpansion, hfail, Bind.bind, Except.bind]
      have hrec : recursiveExpansion singStep [((0 : Fin 2), (1 : ℤ)), (1, 1)] spurious = .error .order := by
        simp only [recursiveExpansion, e1]
        simp only [recursiveExpansion] at hmap
        exact congrArg (fun x : Except Err (List (Expo 2 × Nest 2 (RatProd 2 ℚ))) => x >>= fun ts =>
            (.ok (.node ts) : Except Err (Nest 2 (RatProd 2 ℚ)))) hmap
      simp [expandSingular, expandAndFlatten, hrec, Bind.bind, Except.bind]
  · refine ⟨[(0, fun _ => 1), (1, fun y => y 1 ^ 2)], [[((fun _ => 0), fun _ => 1)], []], ?_, ?_, ?_⟩
    · refine Eventually.of_forall fun y => ⟨hexp y, ?_⟩
      intro c hc s
      simp at hc
      rcases hc with rfl | rfl <;> simp
    · refine List.Forall₂.cons ?_ (List.Forall₂.cons ?_ List.Forall₂.nil)
      · refine ⟨[(0, fun _ => 1)], [[((fun _ => 0), fun _ => 1)]], ?_, List.Forall₂.cons rfl List.Forall₂.nil, ?_⟩
        · refine Eventually.of_forall fun y => ⟨⟨by simp, by simp, ?_⟩, by simp⟩
          exact (Asymptotics.isBigO_zero _ _).congr_left fun s => by simp
        · simp; funext j; simp
      · refine ⟨[], [], ?_, List.Forall₂.nil, rfl⟩
        refine Eventually.of_forall fun y => ⟨⟨by simp, by simp, ?_⟩, by simp⟩
        refine (Asymptotics.isBigO_refl (fun s : ℂ => s ^ (1 + 1 : ℤ)) _).congr_left fun s => ?_
        simp
        try rfl
    · simp; funext j; simp

end SecDec
