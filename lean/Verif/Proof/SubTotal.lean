import Verif.Proof.ExprTotalD
import Verif.Proof.SubPartsErr
import Verif.Model.Expansion
/-
Termination of `integrate_pole_part`, `integrate_by_parts` and `expand_Taylor`.
-/
set_option linter.unusedSectionVars false
namespace SecDec
namespace Expr

/-- The version of `EvC` with errors. -/
def EvE {ε α : Type*} (bad : ε) (f : ℕ → Except ε α) (P : α → Prop) : Prop :=
  EvC f fun r => r ≠ .error bad ∧ ∀ a, r = .ok a → P a

theorem EvE.stops {ε α : Type*} {bad : ε} {f : ℕ → Except ε α} {P : α → Prop} (h : EvE bad f P) :
    ∃ r, Stops bad f r ∧ ∀ a, r = .ok a → P a := by
  obtain ⟨r, ⟨h1, h2⟩, h3⟩ := h
  exact ⟨r, ⟨h1, h3⟩, h2⟩

theorem EvE.ok {ε α : Type*} {bad : ε} {P : α → Prop} (a : α) (h : P a) : EvE bad (fun _ => .ok a) P :=
  .const _ ⟨by simp, by simpa using h⟩

theorem EvE.err {ε α : Type*} {bad : ε} {P : α → Prop} (e : ε) (h : e ≠ bad) : EvE bad (fun _ => (.error e : Except ε α)) P :=
  .const _ ⟨by simpa using h, by simp⟩

theorem EvE.bind {ε α β : Type*} {bad : ε} {f : ℕ → Except ε α} {P : α → Prop} {Q : β → Prop} {g : ℕ → α → Except ε β}
    (h : EvE bad f P) (hg : ∀ a, P a → EvE bad (fun k => g k a) Q) : EvE bad (fun k => (f k).bind (g k)) Q := by
  refine EvC.bind (g := fun k r => Except.bind r (g k)) h fun r hr => ?_
  cases r with
  | error e => exact .const _ ⟨by simpa [Except.bind] using hr.1, by simp [Except.bind]⟩
  | ok a => exact hg a (hr.2 a rfl)

theorem EvE.shift {ε α : Type*} {bad : ε} {f g : ℕ → Except ε α} {P : α → Prop} (h : EvE bad f P) (hg : ∀ k, g (k + 1) = f k) :
    EvE bad g P := EvC.shift h hg

theorem EvE.congr {ε α : Type*} {bad : ε} {f g : ℕ → Except ε α} {P : α → Prop} (h : EvE bad f P) (N : ℕ)
    (hg : ∀ k, N ≤ k → g k = f k) : EvE bad g P := by
  obtain ⟨a, ha, M, hM⟩ := h
  exact ⟨a, ha, max N M, fun k hk => by rw [hg k (by omega)]; exact hM k (by omega)⟩

theorem EvE.mono {ε α : Type*} {bad : ε} {f : ℕ → Except ε α} {P Q : α → Prop} (h : EvE bad f P) (hPQ : ∀ a, P a → Q a) : EvE bad f Q := by
  obtain ⟨a, ha, M, hM⟩ := h
  exact ⟨a, ⟨ha.1, fun b hb => hPQ b (ha.2 b hb)⟩, M, hM⟩

theorem EvE.mapM {ε α β : Type*} {bad : ε} {f : ℕ → α → Except ε β} {P : β → Prop} (l : List α)
    (h : ∀ a ∈ l, EvE bad (fun k => f k a) P) : EvE bad (fun k => l.mapM (f k)) (fun l' => ∀ b ∈ l', P b) := by
  induction l with
  | nil => exact EvE.ok [] (by simp)
  | cons a l ih =>
    have := EvE.bind (Q := fun l' => ∀ b ∈ l', P b) (h a (by simp)) fun b hb =>
      EvE.bind (g := fun _ bs => .ok (b :: bs)) (ih fun x hx => h x (by simp [hx])) fun bs hbs => .ok (b :: bs) (by simpa using ⟨hb, hbs⟩)
    refine EvE.congr this 0 fun k _ => ?_
    rw [List.mapM_cons]; rfl

end Expr

namespace Subtraction
open Expr

variable {n : Nat} {F : Type} [Field F] [DecidableEq F]

theorem lift_ev {α : Type} {f : ℕ → Option α} {P : α → Prop} (h : EvO f P) : EvE Err.outOfFuel (fun k => lift (f k)) P := by
  refine EvC.map h lift ?_
  rintro _ ⟨a, rfl, ha⟩
  exact ⟨by simp [lift], by simpa [lift] using ha⟩

/-- `cal_I` and the exponent of the poles are complete. -/
structure CP (P : PolyProd n F) : Prop where
  ne : P.calI ≠ []
  calI : ∀ e ∈ P.calI, Complete e
  regExp : Complete P.regExp

theorem CP.prod {P : PolyProd n F} (h : CP P) : Complete (.prod P.calI) := .prod _ h.ne h.calI

theorem complete_ofPoly (p : Poly n F) : Complete (ofPoly p) := by
  refine .poly _ fun t ht => ?_
  obtain ⟨s, _, rfl⟩ := List.mem_map.1 ht
  exact .num _

theorem CP.single {monos : List (Monomial n F)} {b : Poly n F} {r e : Expr n F} (hr : Complete r) (he : Complete e) :
    CP (⟨monos, b, r, [e]⟩ : PolyProd n F) := ⟨by simp, by simpa using he, hr⟩

theorem poleTerm_ev (P : PolyProd n F) (hP : CP P) (j : Fin n) (full : Poly n F) (a : F) (p : ℕ) (pf : F) (d : Expr n F) (hd : Complete d) :
    EvE Err.outOfFuel (fun k => poleTerm k P j full a p pf d) CP := by
  by_cases h : a + (p : F) + 1 = 0
  · simp only [poleTerm, h, if_true]
    exact .ok _ (.single hP.regExp hd)
  · simp only [poleTerm, h, if_false]
    refine EvE.bind (lift_ev (simplify_ev (e := .prod [d, .pow (ofPoly ((full.addScalar ((p : F) + 1)).mulScalar pf)) P.regExp]) ?_))
      fun e he => .ok _ (.single hP.regExp he)
    exact complete_prod2 hd (.pow _ _ (complete_ofPoly _) hP.regExp)

theorem poleLoop_ev (P : PolyProd n F) (hP : CP P) (j : Fin n) (full : Poly n F) (a : F) (count : ℕ) :
    ∀ (p : ℕ) (pf : F) (d : Expr n F), Complete d →
      EvE Err.outOfFuel (fun k => poleLoop k P j full a count p pf d) (fun r => (∀ Q ∈ r.1, CP Q) ∧ ∀ e ∈ r.2, Complete e) := by
  induction count with
  | zero => intro p pf d _; exact .ok _ (by simp)
  | succ count ih =>
    intro p pf d hd
    have h1 : EvO (fun k => if p = 0 then some d else Expr.derive k d j) Complete := by
      by_cases hp : p = 0
      · simp only [hp, if_true]; exact .pure _ hd
      · simp only [hp, if_false]; exact derive_ev j _ d (le_refl _) hd
    refine EvE.bind (lift_ev h1) fun d' hd' => ?_
    refine EvE.bind (lift_ev (replace_ev 0 (fun _ => 0) j _ d' (le_refl _) hd')) fun dp0 hdp => ?_
    refine EvE.bind (poleTerm_ev P hP j full a p _ dp0 hdp) fun term ht => ?_
    refine EvE.bind (ih (p + 1) _ d' hd') fun rest hr => .ok _ ⟨?_, ?_⟩
    · simpa using ⟨ht, hr.1⟩
    · simp only [List.mem_cons, forall_eq_or_imp]
      refine ⟨complete_prod2 (.poly _ ?_) hdp, hr.2⟩
      simpa using .num _

theorem poleSingle_ev (val : F → Option ℚ) (P : PolyProd n F) (hP : CP P) (j : Fin n) :
    EvE Err.outOfFuel (fun k => poleSingle k val P j) (fun l => ∀ Q ∈ l, CP Q) := by
  simp only [poleSingle]
  cases val (ect j P.monos) with
  | none => exact .err _ (by simp)
  | some q =>
    dsimp only
    split
    · exact .err _ (by simp)
    split
    · exact .ok _ (by simpa using hP)
    refine EvE.bind (poleLoop_ev P hP j _ _ _ 0 1 _ hP.prod) fun r hr => ?_
    refine EvE.bind (lift_ev (simplify_ev (e := .sum (.prod P.calI :: r.2)) (.sum _ (by simp) ?_))) fun s hs => .ok _ ?_
    · simpa using ⟨hP.prod, hr.2⟩
    · simp only [List.mem_append, List.mem_singleton]
      rintro Q (h | rfl)
      · exact hr.1 Q h
      · exact .single hP.regExp hs

theorem extendAll_ev {I : PolyProd n F → Prop} {f : ℕ → PolyProd n F → Except Err (List (PolyProd n F))} (l : List (PolyProd n F))
    (h : ∀ P ∈ l, EvE Err.outOfFuel (fun k => f k P) (fun l => ∀ Q ∈ l, I Q)) :
    EvE Err.outOfFuel (fun k => extendAll (f k) l) (fun l => ∀ Q ∈ l, I Q) := by
  induction l with
  | nil => exact .ok _ (by simp)
  | cons P l ih =>
    refine EvE.bind (h P (by simp)) fun a ha => ?_
    refine EvE.bind (ih fun Q hQ => h Q (by simp [hQ])) fun b hb => .ok _ ?_
    intro Q hQ
    rcases List.mem_append.1 hQ with h | h
    · exact ha Q h
    · exact hb Q h

theorem poleLoopIdx_ev (val : F → Option ℚ) (js : List (Fin n)) : ∀ (l : List (PolyProd n F)), (∀ P ∈ l, CP P) →
    EvE Err.outOfFuel (fun k => poleLoopIdx k val js l) (fun l => ∀ Q ∈ l, CP Q) := by
  induction js with
  | nil => intro l hl; exact .ok _ hl
  | cons j js ih =>
    intro l hl
    exact EvE.bind (extendAll_ev (f := fun k P => poleSingle k val P j) l fun P hP => poleSingle_ev val P (hl P hP) j) fun l' hl' => ih l' hl'

end Subtraction

namespace Subtraction
open Expr
variable {N R : Nat} {F : Type} [Field F] [DecidableEq F] {φ : F →+* ℂ}

theorem ibpSingle_ev_aux {val : F → Option ℚ} (hv : ∀ c q, val c = some q → val (c + 1) = some (q + 1)) {goal : ℚ} {j : Fin N} (k : ℕ) :
    ∀ (P : PolyProd (N + R) F), CP P → MW φ P → (∀ q, val (powerCoeff P j (fun _ => 0)) = some q → ⌈goal - q⌉ ≤ k) →
      EvE Err.outOfFuel (fun fuel => ibpSingle fuel val goal (Fin.castAdd R j) (k + 1) P) (fun l => ∀ Q ∈ l, CP Q ∧ MW φ Q) := by
  induction k with
  | zero =>
    intro P hP hM hq
    rw [← ect_eq_powerCoeff] at hq
    simp only [ibpSingle]
    cases hval : val (ect (Fin.castAdd R j) P.monos) with
    | none => exact .err _ (by simp)
    | some q =>
      dsimp only
      split
      · exact .err _ (by simp)
      have hg : goal ≤ q := by
        have := Int.ceil_le.1 (hq q hval)
        push_cast at this; linarith
      simp only [if_pos hg]
      exact .ok _ (by simpa using ⟨hP, hM⟩)
  | succ k ih =>
    intro P hP hM hq
    have hq' := hq
    rw [← ect_eq_powerCoeff] at hq
    rw [show (fun fuel => ibpSingle fuel val goal (Fin.castAdd R j) (k + 1 + 1) P) = _ from by ext fuel; rw [ibpSingle]]
    dsimp only
    cases hval : val (ect (Fin.castAdd R j) P.monos) with
    | none => exact .err _ (by simp)
    | some q =>
      dsimp only
      split
      · exact .err _ (by simp)
      split
      · exact .ok _ (by simpa using ⟨hP, hM⟩)
      refine EvE.bind (lift_ev (replace_ev 1 (fun _ => 1) (Fin.castAdd R j) _ _ (le_refl _) hP.prod)) fun c1 hc1 => ?_
      refine EvE.bind (lift_ev (simplify_ev hc1)) fun c1s hc1s => ?_
      refine EvE.bind (lift_ev (derive_ev (Fin.castAdd R j) _ _ (le_refl _) hP.prod)) fun d hd => ?_
      refine EvE.bind (lift_ev (simplify_ev (complete_prod2 (complete_const (-1)) hd))) fun ds hds => ?_
      have hI := hM.incr (T := (⟨increasePower (Fin.castAdd R j) P.monos, P.regBase.mul ((fullExponent (Fin.castAdd R j) P.monos).addScalar 1), P.regExp, [ds]⟩ : PolyProd (N + R) F)) (j := j) rfl
      refine EvE.bind (ih _ (.single hP.regExp hds) hI.mw ?_) fun rest hrest => .ok _ ?_
      · intro q' hq''
        rw [powerCoeff_incr hI, if_pos ⟨rfl, rfl⟩, ← ect_eq_powerCoeff, hv _ _ hval] at hq''
        simp only [Option.some.injEq] at hq''
        subst hq''
        have := hq q hval
        rw [show goal - (q + 1) = (goal - q) - 1 by ring, Int.ceil_sub_one]
        push_cast at this; omega
      · simp only [List.mem_cons, forall_eq_or_imp]
        exact ⟨⟨.single hP.regExp hc1s, hM.setOne rfl⟩, hrest⟩

theorem ibpSingle_ev {val : F → Option ℚ} (hv : ∀ c q, val c = some q → val (c + 1) = some (q + 1)) {goal : ℚ} {j : Fin N}
    (P : PolyProd (N + R) F) (hP : CP P) (hM : MW φ P) :
      EvE Err.outOfFuel (fun fuel => ibpSingle fuel val goal (Fin.castAdd R j) fuel P) (fun l => ∀ Q ∈ l, CP Q ∧ MW φ Q) := by
  cases hq : val (powerCoeff P j (fun _ => 0)) with
  | none =>
    refine (ibpSingle_ev_aux (φ := φ) (goal := goal) (j := j) hv 0 P hP hM (by intro q' h; rw [hq] at h; simp at h)).congr 1 fun k hk => ?_
    obtain ⟨m, rfl⟩ : ∃ m, k = m + 1 := ⟨k - 1, by omega⟩
    rw [← ect_eq_powerCoeff] at hq
    simp only [ibpSingle, hq]
  | some q =>
    have h0 : ⌈goal - q⌉ ≤ ⌈goal - q⌉.toNat := Int.self_le_toNat _
    refine (ibpSingle_ev_aux (φ := φ) (goal := goal) (j := j) hv ⌈goal - q⌉.toNat P hP hM ?_).congr (⌈goal - q⌉.toNat + 1) fun k hk => ?_
    · intro q' hq'; rw [hq] at hq'; simp only [Option.some.injEq] at hq'; subst hq'; exact h0
    · obtain ⟨m, hm⟩ : ∃ m, k = ⌈goal - q⌉.toNat + 1 + m := ⟨k - (⌈goal - q⌉.toNat + 1), by omega⟩
      have := ibpSingle_steps (fuel := k) (goal := goal) (j := j) hv ⌈goal - q⌉.toNat P q hM hq h0 m
      rw [← hm] at this
      exact this

theorem ibpLoopIdx_ev {val : F → Option ℚ} (hv : ∀ c q, val c = some q → val (c + 1) = some (q + 1)) (gs : List (ℚ × Fin N)) :
    ∀ (l : List (PolyProd (N + R) F)), (∀ P ∈ l, CP P ∧ MW φ P) →
      EvE Err.outOfFuel (fun k => ibpLoopIdx k val (castGoals gs) l) (fun l => ∀ Q ∈ l, CP Q ∧ MW φ Q) := by
  induction gs with
  | nil => intro l hl; exact .ok _ hl
  | cons g gs ih =>
    intro l hl
    exact EvE.bind (extendAll_ev (f := fun k P => ibpSingle k val g.1 (Fin.castAdd R g.2) k P) l
      fun P hP => ibpSingle_ev hv P (hl P hP).1 (hl P hP).2) fun l' hl' => ih l' hl'

end Subtraction

namespace Expansion
open Expr
variable {n : Nat} {F : Type} [Field F] [DecidableEq F]

theorem taylorLoop_ev (index : Fin n) (count : ℕ) : ∀ (k : ℕ) (fact : F) (e : Expr n F), Complete e →
    EvE Err.outOfFuel (fun fuel => taylorLoop fuel index count k fact e) (fun l => ∀ c ∈ l, Complete c) := by
  induction count with
  | zero => intro k fact e _; exact .ok _ (by simp)
  | succ count ih =>
    intro k fact e he
    obtain ⟨_, ⟨e1, rfl, h1⟩, N1, hN1⟩ := simplify_ev he
    obtain ⟨_, ⟨e2, rfl, h2⟩, N2, hN2⟩ := derive_ev index _ e1 (le_refl _) h1
    obtain ⟨_, ⟨e3, rfl, h3⟩, N3, hN3⟩ := replace_ev 0 (fun _ => 0) index _ e2 (le_refl _) h2
    obtain ⟨e4, h4, N4, hN4⟩ := mulExpr_ev' h3 (.num (fact / ((k : F) + 1)))
    obtain ⟨r, ⟨hr, hr'⟩, N5, hN5⟩ := ih (k + 1) (fact / ((k : F) + 1)) e2 h2
    refine EvE.congr (f := fun _ => r.bind fun rest => .ok (e4 :: rest)) ?_ (N1 + N2 + N3 + N4 + N5) fun fuel hf => ?_
    · refine EvE.bind (f := fun _ => r) (.const _ ⟨hr, hr'⟩) fun rest hrest => .ok _ (by simpa using ⟨h4, hrest⟩)
    · beta_reduce at hN1 hN2 hN3 hN4 hN5
      rw [taylorLoop]
      rw [hN1 fuel (by omega)]; dsimp only
      rw [hN2 fuel (by omega)]; dsimp only
      rw [hN3 fuel (by omega)]; dsimp only
      rw [hN4 fuel (by omega), hN5 fuel (by omega)]
      cases r <;> rfl

theorem taylorStep_ev (e : Expr n F) (he : Complete e) (index : Fin n) (order : Int) :
    EvE Err.outOfFuel (fun fuel => taylorStep fuel e index order) (fun p => ∀ t ∈ p.terms, Complete t.2) := by
  by_cases ho : order < 0
  · simp only [taylorStep, ho, if_true]; exact .err _ (by simp)
  obtain ⟨_, ⟨e0, rfl, h0⟩, N0, hN0⟩ := replace_ev 0 (fun _ => 0) index _ e (le_refl _) he
  obtain ⟨r, ⟨hr, hr'⟩, N1, hN1⟩ := taylorLoop_ev index order.toNat 0 1 e he
  refine EvE.congr (f := fun _ => r.bind fun cs => .ok ⟨(e0 :: cs).zipIdx.map
    (fun c => (Function.update (fun _ => 0) index (c.2 : Int), c.1))⟩) ?_ (N0 + N1) fun fuel hf => ?_
  · refine EvE.bind (f := fun _ => r) (.const _ ⟨hr, hr'⟩) fun cs hcs => .ok _ ?_
    intro t ht
    obtain ⟨c, hc, rfl⟩ := List.mem_map.1 ht
    have := List.fst_mem_of_mem_zipIdx hc
    rcases List.mem_cons.1 this with h | h
    · rw [h]; exact h0
    · exact hcs _ h
  · beta_reduce at hN0 hN1
    rw [taylorStep, if_neg ho, hN0 fuel (by omega)]; dsimp only
    rw [hN1 fuel (by omega)]
    cases r <;> rfl

theorem recursiveExpansion_ev {C : Type} {I : C → Prop} {step : ℕ → C → Fin n → Int → Except Err (Poly n C)}
    (hs : ∀ c i o, I c → EvE Err.outOfFuel (fun k => step k c i o) (fun p => ∀ t ∈ p.terms, I t.2)) (l : List (Fin n × Int)) :
    ∀ c, I c → EvE Err.outOfFuel (fun k => recursiveExpansion (step k) l c) (fun _ => True) := by
  induction l with
  | nil => intro c _; exact .err _ (by simp)
  | cons a l ih =>
    intro c hc
    cases l with
    | nil => exact EvE.bind (hs c a.1 a.2 hc) fun p _ => .ok _ trivial
    | cons b l =>
      refine EvE.bind (hs c a.1 a.2 hc) fun p hp => ?_
      refine EvE.bind (P := fun _ => True) ((EvE.mapM (P := fun _ => True) p.terms fun t ht => ?_).mono fun _ _ => trivial) fun ts _ => .ok _ trivial
      exact EvE.bind (ih t.2 (hp t ht)) fun r _ => .ok _ trivial

theorem expandTaylor_ev (e : Expr n F) (he : Complete e) (l : List (Fin n × Int)) :
    EvE Err.outOfFuel (fun fuel => expandTaylor fuel e l) (fun _ => True) := by
  refine EvE.bind (recursiveExpansion_ev (I := Complete) (fun c i o hc => taylorStep_ev c hc i o) l e he) fun r _ => ?_
  split
  · exact .ok _ trivial
  · cases r with
    | leaf c => exact .ok _ trivial
    | node ts => exact .ok _ trivial

end Expansion
end SecDec

namespace SecDec.Expansion
open Expr
variable {n : Nat} {F : Type} [Field F] [DecidableEq F]

theorem taylorLoop_err {fuel : ℕ} {index : Fin n} (count : ℕ) : ∀ {k : ℕ} {fact : F} {e : Expr n F} {err : Err},
    taylorLoop fuel index count k fact e = .error err → err = .outOfFuel := by
  induction count with
  | zero => intro k fact e err h; simp [taylorLoop] at h
  | succ count ih =>
    intro k fact e err h
    rw [taylorLoop] at h
    split at h
    · simpa using h.symm
    · split at h
      · simpa using h.symm
      · split at h
        · simpa using h.symm
        · split at h
          · rename_i err' h'
            simp only [Except.error.injEq] at h
            subst h; exact ih h'
          · simp at h

theorem taylorStep_err {fuel : ℕ} {e : Expr n F} {index : Fin n} {order : Int} {err : Err} (ho : 0 ≤ order)
    (h : taylorStep fuel e index order = .error err) : err = .outOfFuel := by
  rw [taylorStep, if_neg (by omega)] at h
  split at h
  · simpa using h.symm
  · split at h
    · rename_i err' h'
      simp only [Except.error.injEq] at h
      subst h; exact taylorLoop_err _ h'
    · simp at h

theorem mapM_err {ε α β : Type} {f : α → Except ε β} {e : ε} (l : List α) (h : l.mapM f = .error e) : ∃ a ∈ l, f a = .error e := by
  induction l with
  | nil => simp [pure, Except.pure] at h
  | cons a l ih =>
    rw [List.mapM_cons] at h
    cases ha : f a with
    | error e' => rw [ha] at h; simp [Bind.bind, Except.bind] at h; subst h; exact ⟨a, by simp, ha⟩
    | ok b =>
      rw [ha] at h
      cases hl : l.mapM f with
      | error e' =>
        rw [hl] at h; simp [Bind.bind, Except.bind] at h; subst h
        obtain ⟨x, hx, hx'⟩ := ih hl
        exact ⟨x, by simp [hx], hx'⟩
      | ok bs => rw [hl] at h; simp [Bind.bind, Except.bind, pure, Except.pure] at h

theorem recursiveExpansion_err {C : Type} {step : C → Fin n → Int → Except Err (Poly n C)} (l : List (Fin n × Int))
    (hs : ∀ c, ∀ a ∈ l, ∀ err, step c a.1 a.2 = .error err → err = .outOfFuel) (hl : l ≠ []) :
    ∀ {c : C} {err : Err}, recursiveExpansion step l c = .error err → err = .outOfFuel := by
  induction l with
  | nil => exact absurd rfl hl
  | cons a l ih =>
    intro c err h
    cases l with
    | nil =>
      rw [recursiveExpansion] at h
      cases h1 : step c a.1 a.2 with
      | error e' => rw [h1] at h; simp [Bind.bind, Except.bind] at h; subst h; exact hs c a (by simp) _ h1
      | ok p => rw [h1] at h; simp [Bind.bind, Except.bind] at h
    | cons b l =>
      rw [recursiveExpansion] at h
      cases h1 : step c a.1 a.2 with
      | error e' => rw [h1] at h; simp [Bind.bind, Except.bind] at h; subst h; exact hs c a (by simp) _ h1
      | ok p =>
        rw [h1] at h
        have h' : (p.terms.mapM (fun t : Expo n × C => (recursiveExpansion step (b :: l) t.2).bind fun r => .ok (t.1, r))) = .error err := by
          cases h2 : (p.terms.mapM (fun t : Expo n × C => (recursiveExpansion step (b :: l) t.2).bind fun r => .ok (t.1, r))) with
          | error e' =>
            simp only [Bind.bind, Except.bind] at h h2
            rw [h2] at h; simpa using h
          | ok ts =>
            simp only [Bind.bind, Except.bind] at h h2
            rw [h2] at h; simp at h
        obtain ⟨t, ht, ht'⟩ := mapM_err _ h'
        cases h3 : recursiveExpansion step (b :: l) t.2 with
        | error e' =>
          rw [h3] at ht'; simp [Except.bind] at ht'; subst ht'
          exact ih (fun c x hx => hs c x (by simp [List.mem_cons.1 hx])) (by simp) h3
        | ok r => rw [h3] at ht'; simp [Except.bind] at ht'

theorem expandTaylor_err {fuel : ℕ} {e : Expr n F} {l : List (Fin n × Int)} {err : Err} (hl : l ≠ []) (ho : ∀ a ∈ l, 0 ≤ a.2)
    (h : expandTaylor fuel e l = .error err) : err = .outOfFuel := by
  rw [expandTaylor, expandAndFlatten] at h
  cases h1 : recursiveExpansion (taylorStep fuel) l e with
  | error e' =>
    rw [h1] at h; simp [Bind.bind, Except.bind] at h; subst h
    exact recursiveExpansion_err l (fun c a ha err h => taylorStep_err (ho a ha) h) hl h1
  | ok r =>
    rw [h1] at h
    simp only [Bind.bind, Except.bind] at h
    split at h
    · simp at h
    · split at h <;> simp at h

end SecDec.Expansion
