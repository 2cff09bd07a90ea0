import Verif.Spec.Convert
/-
C74: conversion of sympy expressions to the data types of pySecDec.
-/
set_option linter.unusedSectionVars false
set_option linter.unusedVariables false
namespace SecDec
namespace Convert
variable {n : ℕ} {Sym : Type} {fromExpr : SExpr Sym → Option (List ((Fin n → ℤ) × SExpr Sym))}

theorem convert_poly {e : SExpr Sym} {st : Seen n Sym} {ts : List ((Fin n → ℤ) × SExpr Sym)} (h : parse fromExpr e = some ts) : convert fromExpr e st = some (.poly ts, st) := by
  unfold convert; rw [h]

theorem nonempty_some {l : List (Conv n Sym)} {k : List (Conv n Sym) → Conv n Sym} {c : Conv n Sym} (h : nonempty l k = some c) : l ≠ [] ∧ c = k l := by
  unfold nonempty at h
  cases l with
  | nil => simp at h
  | cons a l =>
    simp only [List.isEmpty_cons, Bool.false_eq_true, if_false, Option.some.injEq] at h
    exact ⟨by simp, h.symm⟩

/-- The cases of a successful conversion. -/
theorem convert_cases {e : SExpr Sym} {st st' : Seen n Sym} {c : Conv n Sym} (h : convert fromExpr e st = some (c, st')) :
    (∃ ts, parse fromExpr e = some ts ∧ c = .poly ts ∧ st' = st) ∨
    parse fromExpr e = none ∧ (
    (∃ args cs, e = .mul args ∧ convertList fromExpr args st = some (cs, st') ∧ cs ≠ [] ∧ c = .prod cs) ∨
    (∃ args cs, e = .add args ∧ convertList fromExpr args st = some (cs, st') ∧ cs ≠ [] ∧ c = .sum cs) ∨
    (∃ b x cx ts, e = .pow b x ∧ convert fromExpr x st = some (cx, st') ∧ parse fromExpr b = some ts ∧ c = .epoly ts cx) ∨
    (∃ b x cx cb st1, e = .pow b x ∧ convert fromExpr x st = some (cx, st1) ∧ parse fromExpr b = none ∧ convert fromExpr b st1 = some (cb, st') ∧ c = .pow cb cx) ∨
    (∃ a ts, e = .log a ∧ parse fromExpr a = some ts ∧ c = .lpoly ts ∧ st' = st) ∨
    (∃ a ca, e = .log a ∧ parse fromExpr a = none ∧ convert fromExpr a st = some (ca, st') ∧ c = .log ca) ∨
    (∃ a ca, e = .exp a ∧ convert fromExpr a st = some (ca, st') ∧ c = .exp ca) ∨
    (∃ name args cs st1, e = .func name args ∧ convertList fromExpr args st = some (cs, st1) ∧ cs ≠ [] ∧ c = .func name cs ∧ st' = follow e c st1)) := by
  unfold convert at h
  split at h
  · rename_i ts hp
    simp only [Option.some.injEq, Prod.mk.injEq] at h
    exact Or.inl ⟨ts, hp, h.1.symm, h.2.symm⟩
  · rename_i hp
    refine Or.inr ⟨hp, ?_⟩
    cases e with
    | num _ => simp at h
    | sym _ => simp at h
    | other _ _ => simp at h
    | mul args =>
      dsimp only at h
      obtain ⟨r, h1, h⟩ := Option.bind_eq_some_iff.mp h
      obtain ⟨c', h2, h⟩ := Option.map_eq_some_iff.mp h
      obtain ⟨hne, rfl⟩ := nonempty_some h2
      simp only [Prod.mk.injEq] at h
      exact Or.inl ⟨args, r.1, rfl, by rw [h1, ← h.2], hne, h.1.symm⟩
    | add args =>
      dsimp only at h
      obtain ⟨r, h1, h⟩ := Option.bind_eq_some_iff.mp h
      obtain ⟨c', h2, h⟩ := Option.map_eq_some_iff.mp h
      obtain ⟨hne, rfl⟩ := nonempty_some h2
      simp only [Prod.mk.injEq] at h
      exact Or.inr (Or.inl ⟨args, r.1, rfl, by rw [h1, ← h.2], hne, h.1.symm⟩)
    | pow b x =>
      dsimp only at h
      obtain ⟨r, h1, h⟩ := Option.bind_eq_some_iff.mp h
      split at h
      · rename_i ts hb
        simp only [Option.some.injEq, Prod.mk.injEq] at h
        exact Or.inr (Or.inr (Or.inl ⟨b, x, r.1, ts, rfl, by rw [h1, ← h.2], hb, h.1.symm⟩))
      · rename_i hb
        obtain ⟨rb, h2, h⟩ := Option.map_eq_some_iff.mp h
        simp only [Prod.mk.injEq] at h
        exact Or.inr (Or.inr (Or.inr (Or.inl ⟨b, x, r.1, rb.1, r.2, rfl, h1, hb, by rw [h2, ← h.2], h.1.symm⟩)))
    | log a =>
      dsimp only at h
      split at h
      · rename_i ts ha
        simp only [Option.some.injEq, Prod.mk.injEq] at h
        exact Or.inr (Or.inr (Or.inr (Or.inr (Or.inl ⟨a, ts, rfl, ha, h.1.symm, h.2.symm⟩))))
      · rename_i ha
        obtain ⟨r, h2, h⟩ := Option.map_eq_some_iff.mp h
        simp only [Prod.mk.injEq] at h
        exact Or.inr (Or.inr (Or.inr (Or.inr (Or.inr (Or.inl ⟨a, r.1, rfl, ha, by rw [h2, ← h.2], h.1.symm⟩)))))
    | exp a =>
      dsimp only at h
      obtain ⟨r, h2, h⟩ := Option.map_eq_some_iff.mp h
      simp only [Prod.mk.injEq] at h
      exact Or.inr (Or.inr (Or.inr (Or.inr (Or.inr (Or.inr (Or.inl ⟨a, r.1, rfl, by rw [h2, ← h.2], h.1.symm⟩))))))
    | func name args =>
      dsimp only at h
      obtain ⟨r, h1, h⟩ := Option.bind_eq_some_iff.mp h
      obtain ⟨c', h2, h⟩ := Option.map_eq_some_iff.mp h
      obtain ⟨hne, rfl⟩ := nonempty_some h2
      simp only [Prod.mk.injEq] at h
      exact Or.inr (Or.inr (Or.inr (Or.inr (Or.inr (Or.inr (Or.inr ⟨name, args, r.1, r.2, rfl, h1, hne, h.1.symm, by rw [← h.2, ← h.1]⟩))))))

theorem parse_some {e : SExpr Sym} {ts : List ((Fin n → ℤ) × SExpr Sym)} (h : parse fromExpr e = some ts) : fromExpr e = some ts := by
  unfold parse at h
  split at h
  · simp at h
  · exact h

theorem convertList_cases {l : List (SExpr Sym)} {st st' : Seen n Sym} {cs : List (Conv n Sym)} (h : convertList fromExpr l st = some (cs, st')) :
    (l = [] ∧ cs = [] ∧ st' = st) ∨ ∃ e l' c cs' st1, l = e :: l' ∧ convert fromExpr e st = some (c, st1) ∧ convertList fromExpr l' st1 = some (cs', st') ∧ cs = c :: cs' := by
  cases l with
  | nil =>
    unfold convertList at h
    simp only [Option.some.injEq, Prod.mk.injEq] at h
    exact Or.inl ⟨rfl, h.1.symm, h.2.symm⟩
  | cons e l =>
    unfold convertList at h
    obtain ⟨r, h1, h⟩ := Option.bind_eq_some_iff.mp h
    obtain ⟨rs, h2, h⟩ := Option.map_eq_some_iff.mp h
    simp only [Prod.mk.injEq] at h
    exact Or.inr ⟨e, l, r.1, rs.1, r.2, rfl, h1, by rw [h2, ← h.2], h.1.symm⟩

/-- Induction over sympy expressions. -/
theorem SExpr.induct {P : SExpr Sym → Prop} (num : ∀ c, P (.num c)) (sym : ∀ s, P (.sym s)) (add : ∀ l, (∀ e ∈ l, P e) → P (.add l)) (mul : ∀ l, (∀ e ∈ l, P e) → P (.mul l))
    (pow : ∀ b e, P b → P e → P (.pow b e)) (log : ∀ a, P a → P (.log a)) (exp : ∀ a, P a → P (.exp a)) (func : ∀ f l, (∀ e ∈ l, P e) → P (.func f l))
    (other : ∀ f l, (∀ e ∈ l, P e) → P (.other f l)) : ∀ e, P e := by
  intro e
  refine SExpr.rec (motive_1 := P) (motive_2 := fun l => ∀ e ∈ l, P e) num sym add mul pow log exp func other (by simp) ?_ e
  intro a l ha hl e he
  rcases List.mem_cons.mp he with rfl | h
  · exact ha
  · exact hl e h

theorem list_eval {env env' : Env Sym} {x : Fin n → ℂ} {l : List (SExpr Sym)}
    (ih : ∀ e ∈ l, ∀ (st st' : Seen n Sym) c, convert fromExpr e st = some (c, st') → c.eval env x = e.eval env')
    {st st' : Seen n Sym} {cs : List (Conv n Sym)} (h : convertList fromExpr l st = some (cs, st')) :
    Conv.evalList env x cs = SExpr.evalList env' l := by
  induction l generalizing st cs with
  | nil =>
    rcases convertList_cases h with ⟨-, rfl, -⟩ | ⟨_, _, _, _, _, h0, _⟩
    · simp [Conv.evalList, SExpr.evalList]
    · exact absurd h0 (by simp)
  | cons e l ihl =>
    rcases convertList_cases h with ⟨h0, -⟩ | ⟨e', l', c, cs', st1, h0, h1, h2, rfl⟩
    · exact absurd h0 (by simp)
    · obtain ⟨rfl, rfl⟩ := List.cons.inj h0
      rw [Conv.evalList, SExpr.evalList, ih e (by simp) _ _ _ h1, ihl (fun a ha => ih a (List.mem_cons_of_mem _ ha)) h2]

/-- **C74.** The converted expression has, as a function of the variables `polysymbols`, the value of the given expression: for all values of the other symbols and of the functions, and
all nonzero values of the variables. The values that the symbols in the coefficients of the result have for the variables do not matter. -/
theorem C74_value {gens : Fin n → Sym} (hF : Faithful gens fromExpr) {e : SExpr Sym} {c : Conv n Sym} {fs : List (Conv n Sym)} (h : expression fromExpr e = some (c, fs))
    (env : Env Sym) (x : Fin n → ℂ) (hx : ∀ i, x i ≠ 0) : c.eval env x = e.eval (env.at gens x) := by
  have key : ∀ e : SExpr Sym, ∀ (st st' : Seen n Sym) (c : Conv n Sym), convert fromExpr e st = some (c, st') → c.eval env x = e.eval (env.at gens x) := by
    intro e
    induction e using SExpr.induct with
    | num a =>
      intro st st' c h
      rcases convert_cases h with ⟨ts, h1, rfl, -⟩ | ⟨-, h⟩
      · rw [Conv.eval]; exact hF _ _ (parse_some h1) env x hx
      · simp at h
    | sym a =>
      intro st st' c h
      rcases convert_cases h with ⟨ts, h1, rfl, -⟩ | ⟨-, h⟩
      · rw [Conv.eval]; exact hF _ _ (parse_some h1) env x hx
      · simp at h
    | other f l _ =>
      intro st st' c h
      rcases convert_cases h with ⟨ts, h1, rfl, -⟩ | ⟨-, h⟩
      · rw [Conv.eval]; exact hF _ _ (parse_some h1) env x hx
      · simp at h
    | mul l ih =>
      intro st st' c h
      rcases convert_cases h with ⟨ts, h1, rfl, -⟩ | ⟨-, h⟩
      · rw [Conv.eval]; exact hF _ _ (parse_some h1) env x hx
      · simp only [reduceCtorEq, false_and, exists_false, or_false, false_or, SExpr.mul.injEq] at h
        obtain ⟨l', cs, rfl, h1, -, rfl⟩ := h
        rw [Conv.eval, SExpr.eval, list_eval ih h1]
    | add l ih =>
      intro st st' c h
      rcases convert_cases h with ⟨ts, h1, rfl, -⟩ | ⟨-, h⟩
      · rw [Conv.eval]; exact hF _ _ (parse_some h1) env x hx
      · simp only [reduceCtorEq, false_and, exists_false, or_false, false_or, SExpr.add.injEq] at h
        obtain ⟨l', cs, rfl, h1, -, rfl⟩ := h
        rw [Conv.eval, SExpr.eval, list_eval ih h1]
    | pow b p ihb ihp =>
      intro st st' c h
      rcases convert_cases h with ⟨ts, h1, rfl, -⟩ | ⟨-, h⟩
      · rw [Conv.eval]; exact hF _ _ (parse_some h1) env x hx
      · simp only [reduceCtorEq, false_and, exists_false, or_false, false_or, SExpr.pow.injEq] at h
        rcases h with ⟨b', x', cx, ts, ⟨rfl, rfl⟩, h1, h2, rfl⟩ | ⟨b', x', cx, cb, st1, ⟨rfl, rfl⟩, h1, h2, h3, rfl⟩
        · rw [Conv.eval, SExpr.eval, hF _ _ (parse_some h2) env x hx, ihp _ _ _ h1]
        · rw [Conv.eval, SExpr.eval, ihb _ _ _ h3, ihp _ _ _ h1]
    | log a ih =>
      intro st st' c h
      rcases convert_cases h with ⟨ts, h1, rfl, -⟩ | ⟨-, h⟩
      · rw [Conv.eval]; exact hF _ _ (parse_some h1) env x hx
      · simp only [reduceCtorEq, false_and, exists_false, or_false, false_or, SExpr.log.injEq] at h
        rcases h with ⟨a', ts, rfl, h1, rfl, -⟩ | ⟨a', ca, rfl, h1, h2, rfl⟩
        · rw [Conv.eval, SExpr.eval, hF _ _ (parse_some h1) env x hx]
        · rw [Conv.eval, SExpr.eval, ih _ _ _ h2]
    | exp a ih =>
      intro st st' c h
      rcases convert_cases h with ⟨ts, h1, rfl, -⟩ | ⟨-, h⟩
      · rw [Conv.eval]; exact hF _ _ (parse_some h1) env x hx
      · simp only [reduceCtorEq, false_and, exists_false, or_false, false_or, SExpr.exp.injEq] at h
        obtain ⟨a', ca, rfl, h2, rfl⟩ := h
        rw [Conv.eval, SExpr.eval, ih _ _ _ h2]
    | func f l ih =>
      intro st st' c h
      rcases convert_cases h with ⟨ts, h1, rfl, -⟩ | ⟨-, h⟩
      · rw [Conv.eval]; exact hF _ _ (parse_some h1) env x hx
      · simp only [reduceCtorEq, false_and, exists_false, or_false, false_or, SExpr.func.injEq] at h
        obtain ⟨f', l', cs, st1, ⟨rfl, rfl⟩, h1, -, rfl, -⟩ := h
        rw [Conv.eval, SExpr.eval, list_eval ih h1]
        rfl
  unfold expression at h
  obtain ⟨r, h1, h2⟩ := Option.map_eq_some_iff.mp h
  simp only [Prod.mk.injEq] at h2
  rw [← h2.1]
  exact key e _ _ _ h1

theorem plainList_iff {l : List (SExpr Sym)} : SExpr.PlainList l ↔ ∀ e ∈ l, e.Plain := by
  induction l with
  | nil => simp [SExpr.PlainList]
  | cons a l ih => simp [SExpr.PlainList, ih]

theorem list_succeeds {l : List (SExpr Sym)} (ih : ∀ e ∈ l, ∀ st : Seen n Sym, ∃ r, convert fromExpr e st = some r) (st : Seen n Sym) :
    ∃ r, convertList fromExpr l st = some r ∧ r.1.length = l.length := by
  induction l generalizing st with
  | nil => exact ⟨_, by rw [convertList], rfl⟩
  | cons e l ihl =>
    obtain ⟨r, hr⟩ := ih e (by simp) st
    obtain ⟨rs, hrs, hl⟩ := ihl (fun a ha => ih a (List.mem_cons_of_mem _ ha)) r.2
    exact ⟨(r.1 :: rs.1, rs.2), by rw [convertList, hr, Option.bind_some, hrs, Option.map_some], by simp [hl]⟩

theorem nonempty_of {l : List (Conv n Sym)} {k : List (Conv n Sym) → Conv n Sym} {m : ℕ} (h : l.length = m) (hm : m ≠ 0) : nonempty l k = some (k l) := by
  unfold nonempty
  rw [if_neg]
  rw [List.isEmpty_iff_length_eq_zero]
  omega

/-- **C74.** The conversion does not fail for expressions built from numbers, symbols, sums, products, powers, logarithms, exponentials and functions, provided that at least one variable
is given. -/
theorem C74_succeeds (hn : n ≠ 0) (hL : AcceptsLeaves fromExpr) {e : SExpr Sym} (he : e.Plain) : ∃ c fs, expression fromExpr e = some (c, fs) := by
  have hp : ∀ e : SExpr Sym, parse fromExpr e = fromExpr e := fun e => if_neg hn
  have key : ∀ e : SExpr Sym, e.Plain → ∀ st : Seen n Sym, ∃ r, convert fromExpr e st = some r := by
    intro e
    induction e using SExpr.induct with
    | num a =>
      intro _ st
      obtain ⟨ts, hts⟩ := Option.ne_none_iff_exists'.mp (hL.1 a)
      exact ⟨_, convert_poly (by rw [hp, hts])⟩
    | sym a =>
      intro _ st
      obtain ⟨ts, hts⟩ := Option.ne_none_iff_exists'.mp (hL.2 a)
      exact ⟨_, convert_poly (by rw [hp, hts])⟩
    | other f l _ => intro h; exact absurd h (by simp [SExpr.Plain])
    | mul l ih =>
      intro h st
      rw [SExpr.Plain, plainList_iff] at h
      obtain ⟨r, hr, hl⟩ := list_succeeds (fun e he => ih e he (h.2 e he)) st
      rw [convert]
      cases parse fromExpr (.mul l) with
      | some ts => exact ⟨_, rfl⟩
      | none => exact ⟨_, by dsimp only; rw [hr, Option.bind_some, nonempty_of hl (by simpa using h.1), Option.map_some]⟩
    | add l ih =>
      intro h st
      rw [SExpr.Plain, plainList_iff] at h
      obtain ⟨r, hr, hl⟩ := list_succeeds (fun e he => ih e he (h.2 e he)) st
      rw [convert]
      cases parse fromExpr (.add l) with
      | some ts => exact ⟨_, rfl⟩
      | none => exact ⟨_, by dsimp only; rw [hr, Option.bind_some, nonempty_of hl (by simpa using h.1), Option.map_some]⟩
    | func f l ih =>
      intro h st
      rw [SExpr.Plain, plainList_iff] at h
      obtain ⟨r, hr, hl⟩ := list_succeeds (fun e he => ih e he (h.2 e he)) st
      rw [convert]
      cases parse fromExpr (.func f l) with
      | some ts => exact ⟨_, rfl⟩
      | none => exact ⟨_, by dsimp only; rw [hr, Option.bind_some, nonempty_of hl (by simpa using h.1), Option.map_some]⟩
    | pow b p ihb ihp =>
      intro h st
      rw [SExpr.Plain] at h
      obtain ⟨r, hr⟩ := ihp h.2 st
      obtain ⟨rb, hrb⟩ := ihb h.1 r.2
      rw [convert]
      cases parse fromExpr (.pow b p) with
      | some ts => exact ⟨_, rfl⟩
      | none =>
        dsimp only
        rw [hr, Option.bind_some]
        cases parse fromExpr b with
        | some ts => exact ⟨_, rfl⟩
        | none => exact ⟨_, by dsimp only; rw [hrb, Option.map_some]⟩
    | log a ih =>
      intro h st
      rw [SExpr.Plain] at h
      obtain ⟨r, hr⟩ := ih h st
      rw [convert]
      cases parse fromExpr (.log a) with
      | some ts => exact ⟨_, rfl⟩
      | none =>
        dsimp only
        cases parse fromExpr a with
        | some ts => exact ⟨_, rfl⟩
        | none => exact ⟨_, by dsimp only; rw [hr, Option.map_some]⟩
    | exp a ih =>
      intro h st
      rw [SExpr.Plain] at h
      obtain ⟨r, hr⟩ := ih h st
      rw [convert]
      cases parse fromExpr (.exp a) with
      | some ts => exact ⟨_, rfl⟩
      | none => exact ⟨_, by dsimp only; rw [hr, Option.map_some]⟩
  obtain ⟨r, hr⟩ := key e he { calls := [], functions := [] }
  exact ⟨r.1, r.2.functions, by unfold expression; rw [hr, Option.map_some]⟩

theorem list_indep {l : List (SExpr Sym)} (ih : ∀ e ∈ l, ∀ (st st' : Seen n Sym) c, convert fromExpr e st = some (c, st') → ∀ s, ∃ s', convert fromExpr e s = some (c, s'))
    {st st' : Seen n Sym} {cs : List (Conv n Sym)} (h : convertList fromExpr l st = some (cs, st')) (s : Seen n Sym) : ∃ s', convertList fromExpr l s = some (cs, s') := by
  induction l generalizing st cs s with
  | nil =>
    rcases convertList_cases h with ⟨-, rfl, -⟩ | ⟨_, _, _, _, _, h0, _⟩
    · exact ⟨s, by rw [convertList]⟩
    · exact absurd h0 (by simp)
  | cons e l ihl =>
    rcases convertList_cases h with ⟨h0, -⟩ | ⟨e', l', c, cs', st1, h0, h1, h2, rfl⟩
    · exact absurd h0 (by simp)
    · obtain ⟨rfl, rfl⟩ := List.cons.inj h0
      obtain ⟨s1, k1⟩ := ih e (by simp) _ _ _ h1 s
      obtain ⟨s2, k2⟩ := ihl (fun a ha => ih a (List.mem_cons_of_mem _ ha)) h2 s1
      exact ⟨s2, by rw [convertList, k1, Option.bind_some, k2, Option.map_some]⟩

/-- The converted expression does not depend on what has been converted before. -/
theorem convert_indep (e : SExpr Sym) : ∀ (st st' : Seen n Sym) c, convert fromExpr e st = some (c, st') → ∀ s, ∃ s', convert fromExpr e s = some (c, s') := by
  induction e using SExpr.induct with
  | num a =>
    intro st st' c h s
    rcases convert_cases h with ⟨ts, h1, rfl, -⟩ | ⟨-, h⟩
    · exact ⟨s, convert_poly h1⟩
    · simp at h
  | sym a =>
    intro st st' c h s
    rcases convert_cases h with ⟨ts, h1, rfl, -⟩ | ⟨-, h⟩
    · exact ⟨s, convert_poly h1⟩
    · simp at h
  | other f l _ =>
    intro st st' c h s
    rcases convert_cases h with ⟨ts, h1, rfl, -⟩ | ⟨-, h⟩
    · exact ⟨s, convert_poly h1⟩
    · simp at h
  | mul l ih =>
    intro st st' c h s
    rcases convert_cases h with ⟨ts, h1, rfl, -⟩ | ⟨h0, h⟩
    · exact ⟨s, convert_poly h1⟩
    · simp only [reduceCtorEq, false_and, exists_false, or_false, false_or, SExpr.mul.injEq] at h
      obtain ⟨l', cs, rfl, h1, hne, rfl⟩ := h
      obtain ⟨s', k⟩ := list_indep ih h1 s
      exact ⟨s', by rw [convert, h0]; dsimp only; rw [k, Option.bind_some, nonempty_of rfl (by simpa using hne), Option.map_some]⟩
  | add l ih =>
    intro st st' c h s
    rcases convert_cases h with ⟨ts, h1, rfl, -⟩ | ⟨h0, h⟩
    · exact ⟨s, convert_poly h1⟩
    · simp only [reduceCtorEq, false_and, exists_false, or_false, false_or, SExpr.add.injEq] at h
      obtain ⟨l', cs, rfl, h1, hne, rfl⟩ := h
      obtain ⟨s', k⟩ := list_indep ih h1 s
      exact ⟨s', by rw [convert, h0]; dsimp only; rw [k, Option.bind_some, nonempty_of rfl (by simpa using hne), Option.map_some]⟩
  | pow b p ihb ihp =>
    intro st st' c h s
    rcases convert_cases h with ⟨ts, h1, rfl, -⟩ | ⟨h0, h⟩
    · exact ⟨s, convert_poly h1⟩
    · simp only [reduceCtorEq, false_and, exists_false, or_false, false_or, SExpr.pow.injEq] at h
      rcases h with ⟨b', x', cx, ts, ⟨rfl, rfl⟩, h1, h2, rfl⟩ | ⟨b', x', cx, cb, st1, ⟨rfl, rfl⟩, h1, h2, h3, rfl⟩
      · obtain ⟨s', k⟩ := ihp _ _ _ h1 s
        exact ⟨s', by rw [convert, h0]; dsimp only; rw [k, Option.bind_some, h2]⟩
      · obtain ⟨s', k⟩ := ihp _ _ _ h1 s
        obtain ⟨s2, k2⟩ := ihb _ _ _ h3 s'
        exact ⟨s2, by rw [convert, h0]; dsimp only; rw [k, Option.bind_some, h2]; dsimp only; rw [k2, Option.map_some]⟩
  | log a ih =>
    intro st st' c h s
    rcases convert_cases h with ⟨ts, h1, rfl, -⟩ | ⟨h0, h⟩
    · exact ⟨s, convert_poly h1⟩
    · simp only [reduceCtorEq, false_and, exists_false, or_false, false_or, SExpr.log.injEq] at h
      rcases h with ⟨a', ts, rfl, h1, rfl, -⟩ | ⟨a', ca, rfl, h1, h2, rfl⟩
      · exact ⟨s, by rw [convert, h0]; dsimp only; rw [h1]⟩
      · obtain ⟨s', k⟩ := ih _ _ _ h2 s
        exact ⟨s', by rw [convert, h0]; dsimp only; rw [h1]; dsimp only; rw [k, Option.map_some]⟩
  | exp a ih =>
    intro st st' c h s
    rcases convert_cases h with ⟨ts, h1, rfl, -⟩ | ⟨h0, h⟩
    · exact ⟨s, convert_poly h1⟩
    · simp only [reduceCtorEq, false_and, exists_false, or_false, false_or, SExpr.exp.injEq] at h
      obtain ⟨a', ca, rfl, h2, rfl⟩ := h
      obtain ⟨s', k⟩ := ih _ _ _ h2 s
      exact ⟨s', by rw [convert, h0]; dsimp only; rw [k, Option.map_some]⟩
  | func f l ih =>
    intro st st' c h s
    rcases convert_cases h with ⟨ts, h1, rfl, -⟩ | ⟨h0, h⟩
    · exact ⟨s, convert_poly h1⟩
    · simp only [reduceCtorEq, false_and, exists_false, or_false, false_or, SExpr.func.injEq] at h
      obtain ⟨f', l', cs, st1, ⟨rfl, rfl⟩, h1, hne, rfl, -⟩ := h
      obtain ⟨s', k⟩ := list_indep ih h1 s
      exact ⟨_, by rw [convert, h0]; dsimp only; rw [k, Option.bind_some, nonempty_of rfl (by simpa using hne), Option.map_some]⟩

/-- The noted functions are the conversions of different calls. -/
def Noted (fromExpr : SExpr Sym → Option (List ((Fin n → ℤ) × SExpr Sym))) (st : Seen n Sym) : Prop :=
  st.calls.Nodup ∧ List.Forall₂ (fun call f => ∃ name args, call = SExpr.func name args ∧ ∃ s s' : Seen n Sym, convert fromExpr call s = some (f, s')) st.calls st.functions

/-- What a conversion does to the list of noted functions; `fs` are the functions in the result. -/
def Notes (fromExpr : SExpr Sym → Option (List ((Fin n → ℤ) × SExpr Sym))) (st st' : Seen n Sym) (fs : List (Conv n Sym)) : Prop :=
  Noted fromExpr st → Noted fromExpr st' ∧ ∀ f, f ∈ st'.functions ↔ f ∈ st.functions ∨ f ∈ fs

theorem notes_refl (st : Seen n Sym) : Notes fromExpr st st [] := fun h => ⟨h, fun f => by simp⟩

theorem notes_trans {st st1 st2 : Seen n Sym} {a b : List (Conv n Sym)} (h1 : Notes fromExpr st st1 a) (h2 : Notes fromExpr st1 st2 b) : Notes fromExpr st st2 (a ++ b) := by
  intro h
  obtain ⟨k1, m1⟩ := h1 h
  obtain ⟨k2, m2⟩ := h2 k1
  exact ⟨k2, fun f => by rw [m2, m1, List.mem_append, or_assoc]⟩

theorem notes_comm {st st1 : Seen n Sym} {a b : List (Conv n Sym)} (h : Notes fromExpr st st1 a) (hab : ∀ f, f ∈ a ↔ f ∈ b) : Notes fromExpr st st1 b := fun k => by
  obtain ⟨k1, m1⟩ := h k
  exact ⟨k1, fun f => by rw [m1, hab]⟩

theorem notes_list {l : List (SExpr Sym)} (ih : ∀ e ∈ l, ∀ (st st' : Seen n Sym) c, convert fromExpr e st = some (c, st') → Notes fromExpr st st' c.functions)
    {st st' : Seen n Sym} {cs : List (Conv n Sym)} (h : convertList fromExpr l st = some (cs, st')) : Notes fromExpr st st' (Conv.functionsList cs) := by
  induction l generalizing st cs with
  | nil =>
    rcases convertList_cases h with ⟨-, rfl, rfl⟩ | ⟨_, _, _, _, _, h0, _⟩
    · rw [Conv.functionsList]; exact notes_refl _
    · exact absurd h0 (by simp)
  | cons e l ihl =>
    rcases convertList_cases h with ⟨h0, -⟩ | ⟨e', l', c, cs', st1, h0, h1, h2, rfl⟩
    · exact absurd h0 (by simp)
    · obtain ⟨rfl, rfl⟩ := List.cons.inj h0
      rw [Conv.functionsList]
      exact notes_trans (ih e (by simp) _ _ _ h1) (ihl (fun a ha => ih a (List.mem_cons_of_mem _ ha)) h2)

theorem notes_follow {e : SExpr Sym} {name : String} {args : List (SExpr Sym)} (he : e = .func name args) {c : Conv n Sym} {s s' : Seen n Sym}
    (hc : convert fromExpr e s = some (c, s')) (st : Seen n Sym) : Notes fromExpr st (follow e c st) [c] := by
  rintro ⟨h1, h2⟩
  unfold follow
  split
  · rename_i hmem
    refine ⟨⟨h1, h2⟩, fun f => ⟨Or.inl, ?_⟩⟩
    rintro (h | h)
    · exact h
    · rw [List.mem_singleton] at h
      subst h
      obtain ⟨i, hi⟩ := List.mem_iff_getElem?.mp hmem
      obtain ⟨hlt, hget⟩ := List.getElem?_eq_some_iff.mp hi
      have hlt' : i < st.functions.length := h2.length_eq ▸ hlt
      obtain ⟨_, _, -, t, t', ht⟩ := h2.get hlt hlt'
      simp only [List.get_eq_getElem] at ht
      rw [hget] at ht
      obtain ⟨t2, ht2⟩ := convert_indep _ _ _ _ ht s
      rw [hc, Option.some.injEq, Prod.mk.injEq] at ht2
      rw [ht2.1]
      exact List.getElem_mem hlt'
  · rename_i hmem
    refine ⟨⟨?_, ?_⟩, fun f => by simp⟩
    · rw [List.nodup_append]
      refine ⟨h1, by simp, ?_⟩
      intro a ha b hb
      rw [List.mem_singleton] at hb
      subst hb
      rintro rfl
      exact hmem ha
    · exact List.rel_append h2 (.cons ⟨name, args, he, s, s', hc⟩ .nil)

theorem convert_notes (e : SExpr Sym) : ∀ (st st' : Seen n Sym) c, convert fromExpr e st = some (c, st') → Notes fromExpr st st' c.functions := by
  induction e using SExpr.induct with
  | num a =>
    intro st st' c h
    rcases convert_cases h with ⟨ts, h1, rfl, rfl⟩ | ⟨-, h⟩
    · rw [Conv.functions]; exact notes_refl _
    · simp at h
  | sym a =>
    intro st st' c h
    rcases convert_cases h with ⟨ts, h1, rfl, rfl⟩ | ⟨-, h⟩
    · rw [Conv.functions]; exact notes_refl _
    · simp at h
  | other f l _ =>
    intro st st' c h
    rcases convert_cases h with ⟨ts, h1, rfl, rfl⟩ | ⟨-, h⟩
    · rw [Conv.functions]; exact notes_refl _
    · simp at h
  | mul l ih =>
    intro st st' c h
    rcases convert_cases h with ⟨ts, h1, rfl, rfl⟩ | ⟨h0, h⟩
    · rw [Conv.functions]; exact notes_refl _
    · simp only [reduceCtorEq, false_and, exists_false, or_false, false_or, SExpr.mul.injEq] at h
      obtain ⟨l', cs, rfl, h1, hne, rfl⟩ := h
      rw [Conv.functions]
      exact notes_list ih h1
  | add l ih =>
    intro st st' c h
    rcases convert_cases h with ⟨ts, h1, rfl, rfl⟩ | ⟨h0, h⟩
    · rw [Conv.functions]; exact notes_refl _
    · simp only [reduceCtorEq, false_and, exists_false, or_false, false_or, SExpr.add.injEq] at h
      obtain ⟨l', cs, rfl, h1, hne, rfl⟩ := h
      rw [Conv.functions]
      exact notes_list ih h1
  | pow b p ihb ihp =>
    intro st st' c h
    rcases convert_cases h with ⟨ts, h1, rfl, rfl⟩ | ⟨h0, h⟩
    · rw [Conv.functions]; exact notes_refl _
    · simp only [reduceCtorEq, false_and, exists_false, or_false, false_or, SExpr.pow.injEq] at h
      rcases h with ⟨b', x', cx, ts, ⟨rfl, rfl⟩, h1, h2, rfl⟩ | ⟨b', x', cx, cb, st1, ⟨rfl, rfl⟩, h1, h2, h3, rfl⟩
      · rw [Conv.functions]; exact ihp _ _ _ h1
      · rw [Conv.functions]
        exact notes_comm (notes_trans (ihp _ _ _ h1) (ihb _ _ _ h3)) fun f => by rw [List.mem_append, List.mem_append, or_comm]
  | log a ih =>
    intro st st' c h
    rcases convert_cases h with ⟨ts, h1, rfl, rfl⟩ | ⟨h0, h⟩
    · rw [Conv.functions]; exact notes_refl _
    · simp only [reduceCtorEq, false_and, exists_false, or_false, false_or, SExpr.log.injEq] at h
      rcases h with ⟨a', ts, rfl, h1, rfl, rfl⟩ | ⟨a', ca, rfl, h1, h2, rfl⟩
      · rw [Conv.functions]; exact notes_refl _
      · rw [Conv.functions]; exact ih _ _ _ h2
  | exp a ih =>
    intro st st' c h
    rcases convert_cases h with ⟨ts, h1, rfl, rfl⟩ | ⟨h0, h⟩
    · rw [Conv.functions]; exact notes_refl _
    · simp only [reduceCtorEq, false_and, exists_false, or_false, false_or, SExpr.exp.injEq] at h
      obtain ⟨a', ca, rfl, h2, rfl⟩ := h
      rw [Conv.functions]; exact ih _ _ _ h2
  | func f l ih =>
    intro st st' c h
    rcases convert_cases h with ⟨ts, h1, rfl, rfl⟩ | ⟨h0, h'⟩
    · rw [Conv.functions]; exact notes_refl _
    · simp only [reduceCtorEq, false_and, exists_false, or_false, false_or, SExpr.func.injEq] at h'
      obtain ⟨f', l', cs, st1, ⟨rfl, rfl⟩, h1, hne, rfl, rfl⟩ := h'
      rw [Conv.functions]
      exact notes_comm (notes_trans (notes_list ih h1) (notes_follow rfl h st1)) fun g => by simp [or_comm]

/-- **C74.** With `follow_functions`, the returned functions are exactly those that occur in the converted expression, and they are the conversions of pairwise different function calls. -/
theorem C74_functions {e : SExpr Sym} {c : Conv n Sym} {fs : List (Conv n Sym)} (h : expression fromExpr e = some (c, fs)) :
    (∀ f, f ∈ fs ↔ f ∈ c.functions) ∧
    ∃ calls : List (SExpr Sym), calls.Nodup ∧ List.Forall₂ (fun call f => ∃ name args, call = SExpr.func name args ∧ ∃ gs, expression fromExpr call = some (f, gs)) calls fs := by
  unfold expression at h
  obtain ⟨r, h1, h2⟩ := Option.map_eq_some_iff.mp h
  simp only [Prod.mk.injEq] at h2
  obtain ⟨rfl, rfl⟩ := h2
  obtain ⟨⟨k1, k2⟩, k3⟩ := convert_notes e _ _ _ h1 ⟨List.nodup_nil, .nil⟩
  refine ⟨fun f => by rw [k3]; simp, r.2.calls, k1, k2.imp ?_⟩
  rintro call f ⟨name, args, hc, s, s', hs⟩
  obtain ⟨s2, h2⟩ := convert_indep _ _ _ _ hs { calls := [], functions := [] }
  exact ⟨name, args, hc, s2.functions, by unfold expression; rw [h2, Option.map_some]⟩

/-- **C74.** Without variables, nothing can be converted: every expression leads to an exception. -/
theorem C74_no_variables {fromExpr : SExpr Sym → Option (List ((Fin 0 → ℤ) × SExpr Sym))} (e : SExpr Sym) : expression fromExpr e = none := by
  have hp : ∀ e : SExpr Sym, parse fromExpr e = none := fun e => if_pos rfl
  have hl : ∀ (l : List (SExpr Sym)), (∀ e ∈ l, ∀ st : Seen 0 Sym, convert fromExpr e st = none) → ∀ (st : Seen 0 Sym) r, convertList fromExpr l st = some r → r.1 = [] := by
    intro l ih st r h
    rcases convertList_cases (cs := r.1) (st' := r.2) h with ⟨-, h0, -⟩ | ⟨e', l', c, cs', st1, rfl, h1, -, -⟩
    · exact h0
    · rw [ih e' (by simp)] at h1
      exact absurd h1 (by simp)
  have key : ∀ e : SExpr Sym, ∀ st : Seen 0 Sym, convert fromExpr e st = none := by
    intro e
    induction e using SExpr.induct with
    | num a => intro st; rw [convert, hp]
    | sym a => intro st; rw [convert, hp]
    | other f l _ => intro st; rw [convert, hp]
    | mul l ih =>
      intro st; rw [convert, hp]; dsimp only
      cases hc : convertList fromExpr l st with
      | none => rfl
      | some r => rw [Option.bind_some, hl l ih st r hc]; rfl
    | add l ih =>
      intro st; rw [convert, hp]; dsimp only
      cases hc : convertList fromExpr l st with
      | none => rfl
      | some r => rw [Option.bind_some, hl l ih st r hc]; rfl
    | func f l ih =>
      intro st; rw [convert, hp]; dsimp only
      cases hc : convertList fromExpr l st with
      | none => rfl
      | some r => rw [Option.bind_some, hl l ih st r hc]; rfl
    | pow b p ihb ihp => intro st; rw [convert, hp]; dsimp only; rw [ihp]; rfl
    | log a ih => intro st; rw [convert, hp]; dsimp only; rw [hp]; dsimp only; rw [ih]; rfl
    | exp a ih => intro st; rw [convert, hp]; dsimp only; rw [ih]; rfl
  unfold expression
  rw [key]
  rfl

/-! ### a concrete parser meets the hypotheses -/

open Classical in
/-- A number or a symbol as a polynomial. -/
noncomputable def leafOf (gens : Fin n → Sym) : SExpr Sym → Option (List ((Fin n → ℤ) × SExpr Sym))
  | .num c => some [(0, .num c)]
  | .sym s => if h : ∃ i, gens i = s then some [(Pi.single h.choose 1, .num 1)] else some [(0, .sym s)]
  | _ => none

/-- The terms of a sum of numbers and symbols. -/
noncomputable def leavesOf (gens : Fin n → Sym) : List (SExpr Sym) → Option (List ((Fin n → ℤ) × SExpr Sym))
  | [] => some []
  | e :: l => (leafOf gens e).bind fun a => (leavesOf gens l).map fun b => a ++ b

/-- A parser for numbers, symbols and sums of these. -/
noncomputable def linearOf (gens : Fin n → Sym) : SExpr Sym → Option (List ((Fin n → ℤ) × SExpr Sym))
  | .add l => leavesOf gens l
  | e => leafOf gens e

theorem leafOf_faithful {gens : Fin n → Sym} (hg : Function.Injective gens) : Faithful gens (leafOf gens) := by
  intro e ts h env x hx
  cases e with
  | num c =>
    simp only [leafOf, Option.some.injEq] at h
    subst h
    simp [polyValue, SExpr.eval]
  | sym s =>
    simp only [leafOf] at h
    split at h
    · rename_i hs
      simp only [Option.some.injEq] at h
      subst h
      have e1 : (env.at gens x).sym s = x hs.choose := by
        conv_lhs => rw [← hs.choose_spec]
        exact hg.extend_apply x env.sym hs.choose
      rw [SExpr.eval, e1]
      simp only [polyValue, List.map_cons, List.map_nil, List.sum_cons, List.sum_nil, add_zero, SExpr.eval, Rat.cast_one, one_mul]
      rw [Finset.prod_eq_single hs.choose]
      · simp
      · intro b _ hb
        simp [Pi.single_eq_of_ne hb]
      · simp
    · rename_i hs
      simp only [Option.some.injEq] at h
      subst h
      have e1 : (env.at gens x).sym s = env.sym s := Function.extend_apply' _ _ _ hs
      rw [SExpr.eval, e1]
      simp [polyValue, SExpr.eval]
  | _ => simp [leafOf] at h

theorem linearOf_faithful {gens : Fin n → Sym} (hg : Function.Injective gens) : Faithful gens (linearOf gens) := by
  intro e ts h env x hx
  cases e with
  | add l =>
    simp only [linearOf] at h
    rw [SExpr.eval]
    induction l generalizing ts with
    | nil =>
      simp only [leavesOf, Option.some.injEq] at h
      subst h
      simp [polyValue, SExpr.evalList]
    | cons e l ih =>
      rw [leavesOf] at h
      obtain ⟨a, ha, h⟩ := Option.bind_eq_some_iff.mp h
      obtain ⟨b, hb, rfl⟩ := Option.map_eq_some_iff.mp h
      have h1 := leafOf_faithful hg e a ha env x hx
      have h2 := ih b hb
      unfold polyValue at h1 h2 ⊢
      rw [List.map_append, List.sum_append, h1, h2, SExpr.evalList, List.sum_cons]
  | num c => exact leafOf_faithful hg (.num c) ts h env x hx
  | sym c => exact leafOf_faithful hg (.sym c) ts h env x hx
  | _ => simp [linearOf, leafOf] at h

theorem linearOf_leaves (gens : Fin n → Sym) : AcceptsLeaves (linearOf gens) := by
  refine ⟨fun c => by simp [linearOf, leafOf], fun s => ?_⟩
  simp only [linearOf, leafOf]
  split <;> simp

/-- `(x + eps)**eps * f(x, log(x)) * f(x, log(x))` in the variable `x`: the conversion succeeds and has the right value. -/
example : ∃ c fs, expression (linearOf (n := 1) fun _ => "x")
      (.mul [.pow (.add [.sym "x", .sym "eps"]) (.sym "eps"), .func "f" [.sym "x", .log (.sym "x")], .func "f" [.sym "x", .log (.sym "x")]]) = some (c, fs) ∧
    ∀ (env : Env String) (x : Fin 1 → ℂ), (∀ i, x i ≠ 0) →
      c.eval env x = (x 0 + env.sym "eps") ^ env.sym "eps" * (env.func "f" [x 0, Complex.log (x 0)] * env.func "f" [x 0, Complex.log (x 0)]) := by
  have hg : Function.Injective (fun _ : Fin 1 => "x") := Function.injective_of_subsingleton _
  obtain ⟨c, fs, h⟩ := C74_succeeds (fromExpr := linearOf (n := 1) fun _ => "x") (by decide) (linearOf_leaves _)
    (e := .mul [.pow (.add [.sym "x", .sym "eps"]) (.sym "eps"), .func "f" [.sym "x", .log (.sym "x")], .func "f" [.sym "x", .log (.sym "x")]])
    (by simp [SExpr.Plain, SExpr.PlainList])
  refine ⟨c, fs, h, fun env x hx => ?_⟩
  rw [C74_value (linearOf_faithful hg) h env x hx]
  have e1 : (env.at (fun _ : Fin 1 => "x") x).sym "x" = x 0 := hg.extend_apply x env.sym 0
  have e2 : (env.at (fun _ : Fin 1 => "x") x).sym "eps" = env.sym "eps" := Function.extend_apply' _ _ _ (by simp)
  simp only [SExpr.eval, SExpr.evalList, e1, e2, List.sum_cons, List.sum_nil, List.prod_cons, List.prod_nil, add_zero, mul_one]
  rfl

end Convert
end SecDec
