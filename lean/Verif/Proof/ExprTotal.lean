import Verif.Proof.ExprLoop
import Verif.Spec.ExprTotal
import Mathlib.Algebra.Order.BigOperators.Group.List
/-
Termination of `simplify`: a weight that no simplification increases and every repetition of the loops of `Sum.simplify` and
`Product.simplify` decreases.
-/
namespace SecDec
namespace Expr
variable {n : Nat} {F : Type} [CommRing F] [DecidableEq F]

private theorem size_snd {α β : Type} [SizeOf α] [SizeOf β] {l : List (α × β)} {t : α × β} (h : t ∈ l) :
    sizeOf t.2 < 1 + sizeOf l := by
  have h1 := List.sizeOf_lt_of_mem h
  have h2 : sizeOf t = 1 + sizeOf t.1 + sizeOf t.2 := by cases t; simp
  omega

private theorem size_mem {α : Type} [SizeOf α] {l : List α} {t : α} (h : t ∈ l) :
    sizeOf t < 1 + sizeOf l := by
  have h1 := List.sizeOf_lt_of_mem h
  omega

/-- The weight. -/
def wt : Expr n F → ℕ
  | .num _ => 0
  | .poly ts => max (ts.map (fun t => 6 + wt t.2)).sum 6 - 2
  | .epoly ts e => 5 + (max (ts.map (fun t => 6 + wt t.2)).sum 6 - 2) + wt e
  | .lpoly ts => 5 + (max (ts.map (fun t => 6 + wt t.2)).sum 6 - 2)
  | .sum l => 1 + (l.map wt).sum
  | .prod l => 1 + (l.map wt).sum
  | .prule terms => 5 + (terms.map (fun t => 1 + (t.2.map wt).sum)).sum
  | .pow b e => 6 + wt b + wt e
  | .log a => 5 + wt a
  | .exp a => 5 + wt a
termination_by e => sizeOf e
decreasing_by
  all_goals simp_wf
  all_goals try omega
  · rename_i h; exact size_snd h
  · rename_i h; have := size_snd h; omega
  · rename_i h; exact size_snd h
  · rename_i h; exact size_mem h
  · rename_i h; exact size_mem h
  · rename_i h1 _ h2; have := size_snd h1; have := size_mem h2; omega

/-- weight of a list of terms -/
def wT (ts : Terms n F) : ℕ := (ts.map (fun t => 6 + wt t.2)).sum
def wL (l : List (Expr n F)) : ℕ := (l.map wt).sum

theorem wt_num (c : F) : wt (.num c : Expr n F) = 0 := by rw [wt]
theorem wt_poly (ts : Terms n F) : wt (.poly ts) = max (wT ts) 6 - 2 := by rw [wt]; rfl
theorem wt_epoly (ts : Terms n F) (e : Expr n F) : wt (.epoly ts e) = 5 + (max (wT ts) 6 - 2) + wt e := by rw [wt]; rfl
theorem wt_lpoly (ts : Terms n F) : wt (.lpoly ts) = 5 + (max (wT ts) 6 - 2) := by rw [wt]; rfl
theorem wt_sum (l : List (Expr n F)) : wt (.sum l) = 1 + wL l := by rw [wt]; rfl
theorem wt_prod (l : List (Expr n F)) : wt (.prod l) = 1 + wL l := by rw [wt]; rfl
theorem wt_prule (l : List (Int × List (Expr n F))) : wt (.prule l) = 5 + (l.map (fun t => 1 + wL t.2)).sum := by rw [wt]; rfl
theorem wt_pow (b e : Expr n F) : wt (.pow b e) = 6 + wt b + wt e := by rw [wt]
theorem wt_log (a : Expr n F) : wt (.log a) = 5 + wt a := by rw [wt]
theorem wt_exp (a : Expr n F) : wt (.exp a) = 5 + wt a := by rw [wt]
theorem wt_const (c : F) : wt (const c : Expr n F) = 4 := by simp [const, wt_poly, wT, wt_num]

theorem wT_cons (t : Expo n × Expr n F) (ts : Terms n F) : wT (t :: ts) = 6 + wt t.2 + wT ts := by simp [wT]
theorem wT_append (ts us : Terms n F) : wT (ts ++ us) = wT ts + wT us := by simp [wT]
theorem wL_cons (t : Expr n F) (ts : List (Expr n F)) : wL (t :: ts) = wt t + wL ts := by simp [wL]
theorem wL_append (ts us : List (Expr n F)) : wL (ts ++ us) = wL ts + wL us := by simp [wL]
theorem wL_nil : wL ([] : List (Expr n F)) = 0 := rfl
theorem wT_nil : wT ([] : Terms n F) = 0 := rfl

theorem wT_mem {ts : Terms n F} {t : Expo n × Expr n F} (h : t ∈ ts) : 6 + wt t.2 ≤ wT ts :=
  List.single_le_sum (by simp) _ (List.mem_map.2 ⟨t, h, rfl⟩)
theorem wL_mem {l : List (Expr n F)} {t : Expr n F} (h : t ∈ l) : wt t ≤ wL l :=
  List.single_le_sum (by simp) _ (List.mem_map.2 ⟨t, h, rfl⟩)

theorem wT_perm {ts us : Terms n F} (h : ts.Perm us) : wT ts = wT us := (h.map _).sum_eq

/-- Nesting of polynomials inside coefficients is at most `d` deep. -/
def Dep : ℕ → Expr n F → Prop
  | 0, .poly _ => False
  | d + 1, .poly ts => ∀ t ∈ ts, Dep d t.2
  | _, _ => True

theorem dep_poly (d : ℕ) (ts : Terms n F) : Dep (d + 1) (.poly ts) ↔ ∀ t ∈ ts, Dep d t.2 := by rw [Dep]
theorem dep_of_not_poly (d : ℕ) {e : Expr n F} (h : ∀ ts, e ≠ .poly ts) : Dep d e := by
  cases d <;> cases e <;> first | exact absurd rfl (h _) | (simp [Dep])
theorem dep_num (d : ℕ) (c : F) : Dep d (.num c : Expr n F) := dep_of_not_poly d (by simp)
theorem dep_sum (d : ℕ) (l : List (Expr n F)) : Dep d (.sum l) := dep_of_not_poly d (by simp)
theorem dep_zero_poly (ts : Terms n F) : ¬ Dep 0 (.poly ts) := by simp [Dep]

theorem Dep.mono {d : ℕ} : ∀ {e : Expr n F} {d' : ℕ}, d ≤ d' → Dep d e → Dep d' e := by
  induction d with
  | zero =>
    intro e d' _ he
    refine dep_of_not_poly _ ?_
    rintro ts rfl
    exact dep_zero_poly _ he
  | succ d ih =>
    intro e d' hd he
    by_cases hp : ∃ ts, e = .poly ts
    · obtain ⟨ts, rfl⟩ := hp
      obtain ⟨d', rfl⟩ : ∃ k, d' = k + 1 := ⟨d' - 1, by omega⟩
      rw [dep_poly] at he ⊢
      exact fun t ht => ih (by omega) (he t ht)
    · exact dep_of_not_poly _ fun ts h => hp ⟨ts, h⟩

theorem dep_wt : ∀ (d : ℕ) (e : Expr n F), wt e ≤ d → Dep d e := by
  intro d
  induction d with
  | zero =>
    intro e he
    refine dep_of_not_poly _ ?_
    rintro ts rfl
    rw [wt_poly] at he; omega
  | succ d ih =>
    intro e he
    by_cases hp : ∃ ts, e = .poly ts
    · obtain ⟨ts, rfl⟩ := hp
      rw [dep_poly]
      intro t ht
      have := wT_mem ht
      rw [wt_poly] at he
      exact ih _ (by omega)
    · exact dep_of_not_poly _ fun ts h => hp ⟨ts, h⟩

/-! ### The merge loop -/

theorem mrec_closed {add : Expr n F → Expr n F → Expr n F} {P : Expr n F → Prop} (hadd : ∀ a b, P a → P b → P (add a b)) :
    ∀ (R : Terms n F) (p : Expo n × Expr n F), P p.2 → (∀ t ∈ R, P t.2) → ∀ t ∈ mrec add p R, P t.2 := by
  intro R
  induction R with
  | nil => intro p hp _ t ht; simp only [mrec, List.mem_singleton] at ht; subst ht; exact hp
  | cons r R ih =>
    intro p hp hR
    have hr := hR r (by simp)
    have hR' : ∀ t ∈ R, P t.2 := fun t ht => hR t (by simp [ht])
    rw [mrec]
    split
    · exact ih p hp hR'
    · split
      · exact ih _ (hadd _ _ hr hp) hR'
      · intro t ht
        rcases List.mem_cons.1 ht with rfl | ht
        · exact hp
        · exact ih r hr hR' t ht

theorem mergeSorted_closed {add : Expr n F → Expr n F → Expr n F} {P : Expr n F → Prop} (h0 : P (.num 0))
    (hadd : ∀ a b, P a → P b → P (add a b)) (ts : Terms n F) (h : ∀ t ∈ ts, P t.2) : ∀ t ∈ mergeSorted add ts, P t.2 := by
  cases ts with
  | nil => intro t ht; rw [mergeSorted_nil, List.mem_singleton] at ht; subst ht; exact h0
  | cons p R =>
    rw [mergeSorted_cons]
    split
    · intro t ht; rw [List.mem_singleton] at ht; subst ht; exact h0
    · intro t ht
      exact mrec_closed hadd R p (h p (by simp)) (fun t ht => h t (by simp [ht])) t (List.mem_of_mem_filter ht)

theorem mrec_congr {add add' : Expr n F → Expr n F → Expr n F} {P : Expr n F → Prop} (hadd : ∀ a b, P a → P b → P (add a b))
    (he : ∀ a b, P a → P b → add a b = add' a b) :
    ∀ (R : Terms n F) (p : Expo n × Expr n F), P p.2 → (∀ t ∈ R, P t.2) → mrec add p R = mrec add' p R := by
  intro R
  induction R with
  | nil => intro p hp _; rfl
  | cons r R ih =>
    intro p hp hR
    have hr := hR r (by simp)
    have hR' : ∀ t ∈ R, P t.2 := fun t ht => hR t (by simp [ht])
    rw [mrec, mrec, ih p hp hR', ih r hr hR', ih (r.1, add r.2 p.2) (hadd _ _ hr hp) hR', he _ _ hr hp]

theorem mergeSorted_congr {add add' : Expr n F → Expr n F → Expr n F} {P : Expr n F → Prop}
    (hadd : ∀ a b, P a → P b → P (add a b)) (he : ∀ a b, P a → P b → add a b = add' a b) (ts : Terms n F)
    (h : ∀ t ∈ ts, P t.2) : mergeSorted add ts = mergeSorted add' ts := by
  cases ts with
  | nil => rfl
  | cons p R => rw [mergeSorted_cons, mergeSorted_cons,
      mrec_congr hadd he R p (h p (by simp)) (fun t ht => h t (by simp [ht]))]

theorem wT_nzT (ts : Terms n F) : wT (nzT ts) ≤ wT ts := by
  induction ts with
  | nil => simp [nzT]
  | cons t ts ih =>
    simp only [nzT, List.filter_cons] at ih ⊢
    split
    · rw [wT_cons, wT_cons]; omega
    · rw [wT_cons]; omega

theorem mrec_wt {add : Expr n F → Expr n F → Expr n F} (hadd : ∀ a b, wt (add a b) ≤ wt a + wt b + 6) :
    ∀ (R : Terms n F) (p : Expo n × Expr n F), wT (mrec add p R) ≤ 6 + wt p.2 + wT R := by
  intro R
  induction R with
  | nil => intro p; rw [mrec, wT_cons]
  | cons r R ih =>
    intro p
    rw [mrec, wT_cons]
    split
    · have := ih p; omega
    · split
      · have := ih (r.1, add r.2 p.2)
        have := hadd r.2 p.2
        dsimp only at *
        omega
      · rw [wT_cons]
        have := ih r; omega

theorem mergeSorted_wt {add : Expr n F → Expr n F → Expr n F} (hadd : ∀ a b, wt (add a b) ≤ wt a + wt b + 6)
    (ts : Terms n F) : wT (mergeSorted add ts) ≤ max (wT ts) 6 := by
  cases ts with
  | nil => rw [mergeSorted_nil, wT_cons, wt_num, wT_nil]; omega
  | cons p R =>
    rw [mergeSorted_cons]
    split
    · rw [wT_cons, wt_num, wT_nil]; omega
    · have h1 := wT_nzT (mrec add p R)
      have h2 := mrec_wt hadd R p
      rw [wT_cons]; omega

theorem mem_sortTerms {ts : Terms n F} {t : Expo n × Expr n F} : t ∈ sortTerms ts ↔ t ∈ ts := (sortTerms_perm ts).mem_iff

/-! ### Addition of coefficients -/

theorem caddWith_closed {add : Expr n F → Expr n F → Expr n F} {P Q : Expr n F → Prop}
    (hnum : ∀ c, P (.num c)) (hQ0 : ∀ c, Q (.num c)) (hpoly : ∀ ts, P (.poly ts) ↔ ∀ t ∈ ts, Q t.2)
    (hsum : ∀ a b, P a → P b → P (.sum [a, b]))
    (hadd : ∀ a b, Q a → Q b → Q (add a b)) (a b : Expr n F) (ha : P a) (hb : P b) : P (caddWith add a b) := by
  have hw : ∀ e : Expr n F, P e → P (wrap e) := by
    intro e he
    unfold wrap
    split
    · rw [const, hpoly]; intro t ht; rw [List.mem_singleton] at ht; subst ht; exact hQ0 _
    · exact he
  have hm : ∀ ts : Terms n F, (∀ t ∈ ts, Q t.2) → P (.poly (mergeSorted add (sortTerms ts))) := by
    intro ts h
    rw [hpoly]
    exact mergeSorted_closed (hQ0 0) hadd _ fun t ht => h t (mem_sortTerms.1 ht)
  unfold caddWith
  split
  · exact hnum _
  · refine hm _ fun t ht => ?_
    rcases List.mem_append.1 ht with h | h
    · exact (hpoly _).1 ha t h
    · exact (hpoly _).1 hb t h
  · refine hm _ fun t ht => ?_
    rcases List.mem_cons.1 ht with rfl | h
    · exact hQ0 _
    · exact (hpoly _).1 ha t h
  · refine hm _ fun t ht => ?_
    rcases List.mem_cons.1 ht with rfl | h
    · exact hQ0 _
    · exact (hpoly _).1 hb t h
  · exact hsum _ _ (hw _ ha) (hw _ hb)

theorem complete_poly_iff (ts : Terms n F) : Complete (.poly ts) ↔ ∀ t ∈ ts, Complete t.2 :=
  ⟨fun h => by cases h; assumption, Complete.poly ts⟩

theorem complete_const (c : F) : Complete (const c : Expr n F) := by
  rw [const, complete_poly_iff]; intro t ht; rw [List.mem_singleton] at ht; subst ht; exact .num c

theorem complete_wrap {e : Expr n F} (h : Complete e) : Complete (wrap e) := by
  unfold wrap
  split
  · exact complete_const _
  · exact h

theorem complete_sum2 {a b : Expr n F} (ha : Complete a) (hb : Complete b) : Complete (.sum [a, b]) :=
  .sum _ (by simp) (by simp [ha, hb])
theorem complete_prod2 {a b : Expr n F} (ha : Complete a) (hb : Complete b) : Complete (.prod [a, b]) :=
  .prod _ (by simp) (by simp [ha, hb])

theorem caddBase_complete (a b : Expr n F) (ha : Complete a) (hb : Complete b) : Complete (caddBase a b) := by
  unfold caddBase
  split
  · exact .num _
  · exact complete_sum2 (complete_wrap ha) (complete_wrap hb)

theorem cadd_complete (f : ℕ) : ∀ a b : Expr n F, Complete a → Complete b → Complete (cadd f a b) := by
  induction f with
  | zero =>
    intro a b ha hb
    rw [cadd]
    exact caddWith_closed (P := Complete) (Q := Complete) .num .num complete_poly_iff (fun _ _ => complete_sum2)
      caddBase_complete a b ha hb
  | succ f ih =>
    intro a b ha hb
    rw [cadd]
    exact caddWith_closed (P := Complete) (Q := Complete) .num .num complete_poly_iff (fun _ _ => complete_sum2) ih a b ha hb

theorem caddBase_dep (d : ℕ) (a b : Expr n F) : Dep d (caddBase a b) := by
  unfold caddBase
  split
  · exact dep_num _ _
  · exact dep_sum _ _

theorem caddWith_dep {add : Expr n F → Expr n F → Expr n F} (hadd : ∀ d a b, Dep d a → Dep d b → Dep d (add a b))
    (d : ℕ) (a b : Expr n F) (ha : Dep d a) (hb : Dep d b) : Dep d (caddWith add a b) := by
  cases d with
  | zero =>
    refine dep_of_not_poly 0 ?_
    intro ts h
    unfold caddWith at h
    split at h
    · cases h
    · exact dep_zero_poly _ ha
    · exact dep_zero_poly _ ha
    · exact dep_zero_poly _ hb
    · cases h
  | succ d =>
    exact caddWith_closed (P := Dep (d + 1)) (Q := Dep d) (dep_num _) (dep_num _) (dep_poly d) (fun _ _ _ _ => dep_sum _ _)
      (hadd d) a b ha hb

theorem cadd_dep (f : ℕ) : ∀ d (a b : Expr n F), Dep d a → Dep d b → Dep d (cadd f a b) := by
  induction f with
  | zero => exact fun d a b ha hb => by rw [cadd]; exact caddWith_dep (fun d a b _ _ => caddBase_dep d a b) d a b ha hb
  | succ f ih => exact fun d a b ha hb => by rw [cadd]; exact caddWith_dep ih d a b ha hb

/-- `add` and `add'` agree on coefficients without deep nesting, hence so do the additions made from them. -/
theorem caddWith_congr {add add' : Expr n F → Expr n F → Expr n F} (d : ℕ)
    (hadd : ∀ a b, Dep d a → Dep d b → Dep d (add a b))
    (he : ∀ a b, Dep d a → Dep d b → add a b = add' a b) (a b : Expr n F) (ha : Dep (d + 1) a) (hb : Dep (d + 1) b) :
    caddWith add a b = caddWith add' a b := by
  have hm : ∀ ts : Terms n F, (∀ t ∈ ts, Dep d t.2) →
      (.poly (mergeSorted add (sortTerms ts)) : Expr n F) = .poly (mergeSorted add' (sortTerms ts)) := by
    intro ts h
    rw [mergeSorted_congr hadd he _ fun t ht => h t (mem_sortTerms.1 ht)]
  unfold caddWith
  split
  · rfl
  · refine hm _ fun t ht => ?_
    rcases List.mem_append.1 ht with h | h
    · exact (dep_poly d _).1 ha t h
    · exact (dep_poly d _).1 hb t h
  · refine hm _ fun t ht => ?_
    rcases List.mem_cons.1 ht with rfl | h
    · exact dep_num _ _
    · exact (dep_poly d _).1 ha t h
  · refine hm _ fun t ht => ?_
    rcases List.mem_cons.1 ht with rfl | h
    · exact dep_num _ _
    · exact (dep_poly d _).1 hb t h
  · rfl

theorem caddWith_zero {add add' : Expr n F → Expr n F → Expr n F} (a b : Expr n F) (ha : Dep 0 a) (hb : Dep 0 b) :
    caddWith add a b = caddWith add' a b := by
  unfold caddWith
  split
  · rfl
  · exact absurd ha (dep_zero_poly _)
  · exact absurd ha (dep_zero_poly _)
  · exact absurd hb (dep_zero_poly _)
  · rfl

theorem cadd_stable (d : ℕ) : ∀ (f : ℕ) (a b : Expr n F), d ≤ f → Dep d a → Dep d b → cadd f a b = cadd d a b := by
  induction d with
  | zero =>
    intro f a b _ ha hb
    cases f with
    | zero => rfl
    | succ f => rw [cadd, cadd]; exact caddWith_zero a b ha hb
  | succ d ih =>
    intro f a b hf ha hb
    obtain ⟨f, rfl⟩ : ∃ k, f = k + 1 := ⟨f - 1, by omega⟩
    rw [cadd, cadd]
    exact caddWith_congr d (fun a b => cadd_dep f d a b) (fun a b ha hb => ih f a b (by omega) ha hb) a b ha hb

theorem merge_stable (d f : ℕ) (hf : d ≤ f) (ts : Terms n F) (h : ∀ t ∈ ts, Dep d t.2) :
    mergeSorted (cadd f) ts = mergeSorted (cadd d) ts :=
  mergeSorted_congr (P := Dep d) (fun a b => cadd_dep f d a b) (fun a b ha hb => cadd_stable d f a b hf ha hb) ts h

theorem wt_wrap (e : Expr n F) : wt (wrap e) ≤ wt e + 4 := by
  unfold wrap
  split
  · rw [wt_const]; omega
  · omega

theorem wt_wrap2 (a b : Expr n F) (h : ∀ c d, ¬ (a = .num c ∧ b = .num d)) : wt (wrap a) + wt (wrap b) ≤ wt a + wt b + 4 := by
  cases a with
  | num c =>
    cases b with
    | num d => exact absurd ⟨rfl, rfl⟩ (h c d)
    | _ => simp only [wrap, wt_const]; omega
  | _ => rw [show ∀ e : Expr n F, (∀ c, e ≠ .num c) → wrap e = e from fun e he => by cases e <;> first | rfl | exact absurd rfl (he _)]
         · have := wt_wrap b; omega
         · simp

theorem caddWith_wt {add : Expr n F → Expr n F → Expr n F} (hadd : ∀ a b, wt (add a b) ≤ wt a + wt b + 6) (a b : Expr n F) :
    wt (caddWith add a b) ≤ wt a + wt b + 6 := by
  have hm : ∀ ts : Terms n F, wt (.poly (mergeSorted add (sortTerms ts)) : Expr n F) ≤ max (wT ts) 6 - 2 := by
    intro ts
    have := mergeSorted_wt hadd (sortTerms ts)
    rw [wT_perm (sortTerms_perm ts)] at this
    rw [wt_poly]; omega
  unfold caddWith
  split
  · rw [wt_num]; omega
  · rename_i ts us
    have := hm (ts ++ us)
    rw [wT_append] at this
    rw [wt_poly ts, wt_poly us]; omega
  · rename_i ts c
    have := hm (((fun _ => 0), .num c) :: ts)
    rw [wT_cons, wt_num] at this
    rw [wt_poly ts]; omega
  · rename_i c ts
    have := hm (((fun _ => 0), .num c) :: ts)
    rw [wT_cons, wt_num] at this
    rw [wt_poly ts]; omega
  · rename_i h1 _ _ _
    rw [wt_sum, wL_cons, wL_cons, wL_nil]
    have := wt_wrap2 a b (fun c d h => h1 c d h.1 h.2)
    omega

theorem caddBase_wt (a b : Expr n F) : wt (caddBase a b) ≤ wt a + wt b + 6 := by
  unfold caddBase
  split
  · rw [wt_num]; omega
  · rename_i h1
    rw [wt_sum, wL_cons, wL_cons, wL_nil]
    have := wt_wrap2 a b (fun c d h => h1 c d h.1 h.2)
    omega

theorem cadd_wt (f : ℕ) : ∀ a b : Expr n F, wt (cadd f a b) ≤ wt a + wt b + 6 := by
  induction f with
  | zero => intro a b; rw [cadd]; exact caddWith_wt caddBase_wt a b
  | succ f ih => intro a b; rw [cadd]; exact caddWith_wt ih a b

/-! ### simplify -/

/-- All sufficiently large bounds give the same result, which satisfies `P`. -/
def Ev {α : Type*} (f : ℕ → Option α) (P : α → Prop) : Prop := ∃ a, P a ∧ Terminates f a

/-- `simplify` of `e` needs at most `2 * wt e + 1` levels. -/
def Tot (e : Expr n F) : Prop :=
  ∃ e', wt e' ≤ wt e ∧ Complete e' ∧ ∀ fuel, 2 * wt e + 1 ≤ fuel → simplify fuel e = some e'

theorem forall2_right {α β : Type*} {P : α → β → Prop} {l : List α} {l' : List β} (h : List.Forall₂ P l l') :
    ∀ b ∈ l', ∃ a ∈ l, P a b := by
  induction h with
  | nil => simp
  | cons h _ ih =>
    intro b hb
    rcases List.mem_cons.1 hb with rfl | hb
    · exact ⟨_, by simp, h⟩
    · obtain ⟨a, ha, hp⟩ := ih b hb
      exact ⟨a, by simp [ha], hp⟩

theorem mapM_total {α β : Type*} (f : ℕ → α → Option β) (P : α → β → Prop) (N : ℕ) (l : List α)
    (h : ∀ a ∈ l, ∃ b, P a b ∧ ∀ fuel, N ≤ fuel → f fuel a = some b) :
    ∃ l', List.Forall₂ P l l' ∧ ∀ fuel, N ≤ fuel → l.mapM (f fuel) = some l' := by
  induction l with
  | nil => exact ⟨[], .nil, fun _ _ => rfl⟩
  | cons a l ih =>
    obtain ⟨b, hb, h1⟩ := h a (by simp)
    obtain ⟨l', hl, h2⟩ := ih fun x hx => h x (by simp [hx])
    refine ⟨b :: l', .cons hb hl, fun fuel hf => ?_⟩
    rw [List.mapM_cons, h1 fuel hf, h2 fuel hf]; rfl

theorem unwrapCoeff_wt {e : Expr n F} (h : Complete e) : Complete (unwrapCoeff e) ∧ wt (unwrapCoeff e) ≤ wt e := by
  unfold unwrapCoeff
  split
  · rename_i t
    split
    · refine ⟨(complete_poly_iff _).1 h t (by simp), ?_⟩
      rw [wt_poly, wT_cons]; omega
    · exact ⟨h, le_refl _⟩
  · exact ⟨h, le_refl _⟩

theorem unwrapExponent_wt {e : Expr n F} (h : Complete e) : Complete (unwrapExponent e) ∧ wt (unwrapExponent e) ≤ wt e := by
  unfold unwrapExponent
  split
  · rename_i t ts
    split
    · refine ⟨(complete_poly_iff _).1 h t (by simp), ?_⟩
      rw [wt_poly, wT_cons]; omega
    · exact ⟨h, le_refl _⟩
  · exact ⟨h, le_refl _⟩

theorem terms_total (ts : Terms n F) (hts : ∀ t ∈ ts, Complete t.2) (h : ∀ t ∈ ts, Tot t.2) :
    ∃ ts' : Terms n F, wT ts' ≤ max (wT ts) 6 ∧ (∀ t ∈ ts', Complete t.2) ∧
      ∀ fuel, 2 * (max (wT ts) 6 - 2) ≤ fuel → simplifyTerms fuel ts = some ts' := by
  obtain ⟨ts2, hf, h2⟩ := mapM_total
    (fun fuel (t : Expo n × Expr n F) => if t.2.isNum then some t else (simplify fuel t.2).map (fun s => (t.1, unwrapCoeff s)))
    (fun t t' => Complete t'.2 ∧ wt t'.2 ≤ wt t.2) (2 * (max (wT ts) 6 - 2) - 1) (sortTerms ts) (by
      intro t ht
      rw [mem_sortTerms] at ht
      have hw := wT_mem ht
      by_cases hn : t.2.isNum = true
      · exact ⟨t, ⟨hts t ht, le_refl _⟩, fun fuel _ => by simp [hn]⟩
      · obtain ⟨s, h1, h2, h3⟩ := h t ht
        obtain ⟨h4, h5⟩ := unwrapCoeff_wt h2
        exact ⟨(t.1, unwrapCoeff s), ⟨h4, h5.trans h1⟩, fun fuel hfu => by simp [hn, h3 fuel (by omega)]⟩)
  have hC : ∀ t ∈ ts2, Complete t.2 := by
    intro t ht
    obtain ⟨a, -, hp⟩ := forall2_right hf t ht
    exact hp.1
  have hW : wT ts2 ≤ wT ts := by
    rw [← wT_perm (sortTerms_perm ts)]
    clear h2 hC
    generalize sortTerms ts = us at hf
    induction hf with
    | nil => simp
    | cons h _ ih => rw [wT_cons, wT_cons]; have := h.2; omega
  have hD : ∀ t ∈ ts2, Dep (max (wT ts) 6 - 2) t.2 := by
    intro t ht
    have := wT_mem ht
    exact dep_wt _ _ (by omega)
  refine ⟨mergeSorted (cadd (max (wT ts) 6 - 2)) ts2, ?_, ?_, ?_⟩
  · have := mergeSorted_wt (cadd_wt (max (wT ts) 6 - 2)) ts2; omega
  · exact mergeSorted_closed (.num 0) (cadd_complete _) ts2 hC
  · intro fuel hfu
    obtain ⟨fuel, rfl⟩ : ∃ k, fuel = k + 1 := ⟨fuel - 1, by omega⟩
    rw [simplifyTerms]
    have h2' := h2 fuel (by omega)
    simp only [h2', Option.bind_eq_bind, Option.bind_some]
    rw [merge_stable (max (wT ts) 6 - 2) fuel (by omega) ts2 hD]

theorem sumPass_wt (l : List (Expr n F)) : ∀ (zero : Option (Expr n F)), (∀ e ∈ l, Complete e) →
    (∀ e ∈ (sumPass l zero).1, Complete e) ∧
    wL (sumPass l zero).1 + (if (sumPass l zero).2.1 then 1 else 0) ≤ wL l ∧
    ((sumPass l zero).2.2 = zero ∨ ∃ z, (sumPass l zero).2.2 = some z ∧ Complete z ∧ wt z ≤ wL l) ∧
    (l ≠ [] → (sumPass l zero).1 = [] → (sumPass l zero).2.2.isSome) ∧
    (l = [] → (sumPass l zero) = ([], false, zero)) := by
  induction l with
  | nil => intro zero _; simp [sumPass]
  | cons s l ih =>
    intro zero hl
    have hs := hl s (by simp)
    have hl' : ∀ e ∈ l, Complete e := fun e he => hl e (by simp [he])
    have keep : ∀ zero, sumPass (s :: l) zero = (s :: (sumPass l zero).1, (sumPass l zero).2.1, (sumPass l zero).2.2) →
        _ := fun zero h => by
      obtain ⟨h1, h2, h3, -, -⟩ := ih zero hl'
      exact (⟨by rw [h]; simpa using ⟨hs, h1⟩, by rw [h, wL_cons, wL_cons]; dsimp only; omega, by
        rw [h, wL_cons]
        rcases h3 with h3 | ⟨z, h3, h4, h5⟩
        · exact .inl h3
        · exact .inr ⟨z, h3, h4, by omega⟩, by rw [h]; simp, by simp⟩ :
          (∀ e ∈ (sumPass (s :: l) zero).1, Complete e) ∧
          wL (sumPass (s :: l) zero).1 + (if (sumPass (s :: l) zero).2.1 then 1 else 0) ≤ wL (s :: l) ∧
          ((sumPass (s :: l) zero).2.2 = zero ∨ ∃ z, (sumPass (s :: l) zero).2.2 = some z ∧ Complete z ∧ wt z ≤ wL (s :: l)) ∧
          (s :: l ≠ [] → (sumPass (s :: l) zero).1 = [] → (sumPass (s :: l) zero).2.2.isSome) ∧
          (s :: l = [] → (sumPass (s :: l) zero) = ([], false, zero)))
    have drop : ∀ zero, 1 ≤ wt s → sumPass (s :: l) zero = ((sumPass l (some s)).1, true, (sumPass l (some s)).2.2) →
        _ := fun zero hw h => by
      obtain ⟨h1, h2, h3, h4, h5⟩ := ih (some s) hl'
      have hz : ∃ z, (sumPass l (some s)).2.2 = some z ∧ Complete z ∧ wt z ≤ wt s + wL l := by
        rcases h3 with h3 | ⟨z, h3, h4, h5⟩
        · exact ⟨s, h3, hs, by omega⟩
        · exact ⟨z, h3, h4, by omega⟩
      exact (⟨by rw [h]; exact h1, by
            rw [h, wL_cons]; simp only [if_true]
            have : wL (sumPass l (some s)).1 ≤ wL l := by
              refine le_trans ?_ h2; omega
            omega, by rw [h, wL_cons]; exact .inr hz, by
            rw [h]; obtain ⟨z, hz, -⟩ := hz; simp [hz], by simp⟩ :
          (∀ e ∈ (sumPass (s :: l) zero).1, Complete e) ∧
          wL (sumPass (s :: l) zero).1 + (if (sumPass (s :: l) zero).2.1 then 1 else 0) ≤ wL (s :: l) ∧
          ((sumPass (s :: l) zero).2.2 = zero ∨ ∃ z, (sumPass (s :: l) zero).2.2 = some z ∧ Complete z ∧ wt z ≤ wL (s :: l)) ∧
          (s :: l ≠ [] → (sumPass (s :: l) zero).1 = [] → (sumPass (s :: l) zero).2.2.isSome) ∧
          (s :: l = [] → (sumPass (s :: l) zero) = ([], false, zero)))
    cases s with
    | sum l1 =>
      obtain ⟨h1, h2, h3, h4, h5⟩ := ih zero hl'
      cases hs with
      | sum _ hne hall =>
      refine ⟨?_, ?_, ?_, ?_, by simp⟩
      · simp only [sumPass]; intro e he
        rcases List.mem_append.1 he with he | he
        · exact hall e he
        · exact h1 e he
      · simp only [sumPass, if_true, wL_append, wL_cons, wt_sum]
        have : wL (sumPass l zero).1 ≤ wL l := by refine le_trans ?_ h2; omega
        omega
      · simp only [sumPass, wL_cons]
        rcases h3 with h3 | ⟨z, h3, h4, h5⟩
        · exact .inl h3
        · exact .inr ⟨z, h3, h4, by omega⟩
      · simp [sumPass, hne]
    | poly ts =>
      by_cases h0 : allCoeffsZero ts = true
      · exact drop zero (by rw [wt_poly]; omega) (by simp [sumPass, h0])
      · exact keep zero (by simp [sumPass, h0])
    | epoly ts e =>
      by_cases h0 : allCoeffsZero ts = true
      · exact drop zero (by rw [wt_epoly]; omega) (by simp [sumPass, h0])
      · exact keep zero (by simp [sumPass, h0])
    | lpoly ts =>
      by_cases h0 : allCoeffsZero ts = true
      · exact drop zero (by rw [wt_lpoly]; omega) (by simp [sumPass, h0])
      · exact keep zero (by simp [sumPass, h0])
    | num c => exact keep zero (by simp [sumPass])
    | prod l1 => exact keep zero (by simp [sumPass])
    | prule t => exact keep zero (by simp [sumPass])
    | pow b e => exact keep zero (by simp [sumPass])
    | log a => exact keep zero (by simp [sumPass])
    | exp a => exact keep zero (by simp [sumPass])

theorem simp_list (l : List (Expr n F)) (h : ∀ e ∈ l, Tot e) :
    ∃ l', (∀ e ∈ l', Complete e) ∧ wL l' ≤ wL l ∧ l'.length = l.length ∧
      ∀ fuel, 2 * wL l + 1 ≤ fuel → l.mapM (simplify fuel) = some l' := by
  obtain ⟨l', hf, h2⟩ := mapM_total (fun fuel (e : Expr n F) => simplify fuel e)
    (fun e e' => Complete e' ∧ wt e' ≤ wt e) (2 * wL l + 1) l (by
      intro e he
      obtain ⟨e', h1, h3, h4⟩ := h e he
      have := wL_mem he
      exact ⟨e', ⟨h3, h1⟩, fun fuel hfu => h4 fuel (by omega)⟩)
  refine ⟨l', ?_, ?_, hf.length_eq.symm, h2⟩
  · intro t ht
    obtain ⟨a, -, hp⟩ := forall2_right hf t ht
    exact hp.1
  · clear h2 h
    induction hf with
    | nil => simp
    | cons h _ ih => rw [wL_cons, wL_cons]; have := h.2; omega

theorem sumLoop_finish (B : ℕ) (l l' : List (Expr n F)) (zero : Option (Expr n F))
    (h4 : ∀ fuel, 2 * wL l + 1 ≤ fuel → l.mapM (simplify fuel) = some l') {σ : ℕ} (hσ : wL l ≤ σ)
    (p1 : ∀ e ∈ (sumPass l' zero).1, Complete e) (p2 : wL (sumPass l' zero).1 ≤ B)
    (p3 : ∀ z, (sumPass l' zero).2.2 = some z → Complete z ∧ wt z ≤ B)
    (p4 : (sumPass l' zero).1 = [] → (sumPass l' zero).2.2.isSome)
    (hch : (sumPass l' zero).2.1 = false) :
    ∃ e', wt e' ≤ B + 1 ∧ Complete e' ∧ ∀ fuel, 2 * σ + 2 ≤ fuel → sumLoop fuel l zero = some e' := by
  have key : ∃ e', wt e' ≤ B + 1 ∧ Complete e' ∧ sumFinish (sumPass l' zero).1 (sumPass l' zero).2.2 = some e' := by
    unfold sumFinish
    generalize (sumPass l' zero).1 = r at *
    match r with
    | [s] => rw [wL_cons, wL_nil] at p2; exact ⟨s, by omega, p1 s (by simp), rfl⟩
    | [] =>
      obtain ⟨z, hz⟩ := Option.isSome_iff_exists.1 (p4 rfl)
      obtain ⟨q1, q2⟩ := p3 z hz
      exact ⟨z, by omega, q1, hz⟩
    | a :: b :: r => exact ⟨.sum (a :: b :: r), by rw [wt_sum]; omega, .sum _ (by simp) p1, rfl⟩
  obtain ⟨e', q1, q2, q3⟩ := key
  refine ⟨e', q1, q2, fun fuel hf => ?_⟩
  obtain ⟨fuel, rfl⟩ : ∃ k, fuel = k + 1 := ⟨fuel - 1, by omega⟩
  rw [sumLoop, h4 fuel (by omega)]
  simp only [Option.bind_eq_bind, Option.bind_some, hch, Bool.false_eq_true, if_false]
  exact q3

theorem sumLoop_total (B : ℕ) (hB : ∀ e : Expr n F, wt e ≤ B → Complete e → Tot e) :
    ∀ (σ : ℕ) (l : List (Expr n F)) (zero : Option (Expr n F)), wL l ≤ σ → σ ≤ B → (∀ e ∈ l, Complete e) →
      (∀ z, zero = some z → Complete z ∧ wt z ≤ B) → (l ≠ [] ∨ zero.isSome) →
      ∃ e', wt e' ≤ B + 1 ∧ Complete e' ∧ ∀ fuel, 2 * σ + 2 ≤ fuel → sumLoop fuel l zero = some e' := by
  intro σ
  induction σ with
  | zero =>
    intro l zero hl hσ hC hz hne
    obtain ⟨l', h1, h2, h3, h4⟩ := simp_list l fun e he => hB e (by have := wL_mem he; omega) (hC e he)
    obtain ⟨p1, p2, p3, p4, p5⟩ := sumPass_wt l' zero h1
    have hz' : ∀ z, (sumPass l' zero).2.2 = some z → Complete z ∧ wt z ≤ B := by
      intro z hzz
      rcases p3 with p3 | ⟨z', p3, q1, q2⟩
      · exact hz z (by rw [← p3, hzz])
      · rw [p3, Option.some.injEq] at hzz; subst hzz; exact ⟨q1, by omega⟩
    have hch : (sumPass l' zero).2.1 = false := by
      cases hc : (sumPass l' zero).2.1 with
      | false => rfl
      | true => rw [hc, if_pos rfl] at p2; omega
    refine sumLoop_finish B l l' zero h4 (by omega) p1 (by rw [hch] at p2; simp at p2; omega) hz' (fun h => ?_) hch
    by_cases hn : l' = []
    · rw [p5 hn]
      rcases hne with hne | hne
      · rw [hn] at h3; exact absurd (List.length_eq_zero_iff.1 h3.symm) hne
      · exact hne
    · exact p4 hn h
  | succ σ ih =>
    intro l zero hl hσ hC hz hne
    obtain ⟨l', h1, h2, h3, h4⟩ := simp_list l fun e he => hB e (by have := wL_mem he; omega) (hC e he)
    obtain ⟨p1, p2, p3, p4, p5⟩ := sumPass_wt l' zero h1
    have hz' : ∀ z, (sumPass l' zero).2.2 = some z → Complete z ∧ wt z ≤ B := by
      intro z hzz
      rcases p3 with p3 | ⟨z', p3, q1, q2⟩
      · exact hz z (by rw [← p3, hzz])
      · rw [p3, Option.some.injEq] at hzz; subst hzz; exact ⟨q1, by omega⟩
    cases hc : (sumPass l' zero).2.1 with
    | false =>
      refine sumLoop_finish B l l' zero h4 (by omega) p1 (by rw [hc] at p2; simp at p2; omega) hz' (fun h => ?_) hc
      by_cases hn : l' = []
      · rw [p5 hn]
        rcases hne with hne | hne
        · rw [hn] at h3; exact absurd (List.length_eq_zero_iff.1 h3.symm) hne
        · exact hne
      · exact p4 hn h
    | true =>
      rw [hc, if_pos rfl] at p2
      have hl'ne : l' ≠ [] := by
        intro h; rw [p5 h] at hc; cases hc
      obtain ⟨e', q1, q2, q3⟩ := ih (sumPass l' zero).1 (sumPass l' zero).2.2 (by omega) (by omega) p1 hz' (by
        by_cases h : (sumPass l' zero).1 = []
        · exact .inr (p4 hl'ne h)
        · exact .inl h)
      refine ⟨e', q1, q2, fun fuel hf => ?_⟩
      obtain ⟨fuel, rfl⟩ : ∃ k, fuel = k + 1 := ⟨fuel - 1, by omega⟩
      rw [sumLoop, h4 fuel (by omega)]
      simp only [Option.bind_eq_bind, Option.bind_some, hc, if_true]
      exact q3 fuel (by omega)

theorem prodPass_wt (l : List (Expr n F)) : ∀ (st : ProdPass n F), (∀ e ∈ l, Complete e) → (∀ e ∈ st.factors, Complete e) →
    (∀ e ∈ (prodPass l st).factors, Complete e) ∧
    wL (prodPass l st).factors + (if (prodPass l st).changed then 1 else 0) ≤
      wL st.factors + (if st.changed then 1 else 0) + wL l ∧
    ((prodPass l st).one = st.one ∨ ∃ z, (prodPass l st).one = some z ∧ Complete z ∧ wt z ≤ wL l) ∧
    ((st.factors ≠ [] ∨ st.one.isSome ∨ l ≠ []) → (prodPass l st).factors ≠ [] ∨ (prodPass l st).one.isSome) := by
  induction l with
  | nil =>
    intro st _ h
    refine ⟨h, le_refl _, .inl rfl, ?_⟩
    simp [prodPass]
  | cons s l ih =>
    intro st hl hst
    have hs := hl s (by simp)
    have hl' : ∀ e ∈ l, Complete e := fun e he => hl e (by simp [he])
    have keep : prodPass (s :: l) st = prodPass l { st with factors := st.factors ++ [s] } →
        ((∀ e ∈ (prodPass (s :: l) st).factors, Complete e) ∧
        wL (prodPass (s :: l) st).factors + (if (prodPass (s :: l) st).changed then 1 else 0) ≤
          wL st.factors + (if st.changed then 1 else 0) + wL (s :: l) ∧
        ((prodPass (s :: l) st).one = st.one ∨ ∃ z, (prodPass (s :: l) st).one = some z ∧ Complete z ∧ wt z ≤ wL (s :: l)) ∧
        ((st.factors ≠ [] ∨ st.one.isSome ∨ s :: l ≠ []) → (prodPass (s :: l) st).factors ≠ [] ∨ (prodPass (s :: l) st).one.isSome)) := by
      intro h
      obtain ⟨h1, h2, h3, h4⟩ := ih { st with factors := st.factors ++ [s] } hl' (by
        intro e he
        rcases List.mem_append.1 he with he | he
        · exact hst e he
        · rw [List.mem_singleton] at he; subst he; exact hs)
      rw [h]
      refine ⟨h1, ?_, ?_, fun _ => h4 (.inl (by simp))⟩
      · rw [wL_append, wL_cons, wL_nil] at h2; rw [wL_cons]; dsimp only at h2; omega
      · rcases h3 with h3 | ⟨z, h3, h5, h6⟩
        · exact .inl h3
        · exact .inr ⟨z, h3, h5, by rw [wL_cons]; omega⟩
    cases s with
    | prod l1 =>
      cases hs with
      | prod _ hne hall =>
      obtain ⟨h1, h2, h3, h4⟩ := ih { st with factors := st.factors ++ l1, changed := true } hl' (by
        intro e he
        rcases List.mem_append.1 he with he | he
        · exact hst e he
        · exact hall e he)
      have he : prodPass (.prod l1 :: l) st = prodPass l { st with factors := st.factors ++ l1, changed := true } := by
        rw [prodPass]
      rw [he]
      refine ⟨h1, ?_, ?_, fun _ => h4 (.inl (by simp [hne]))⟩
      · rw [wL_append] at h2; rw [wL_cons, wt_prod]; simp only [if_true] at h2; omega
      · rcases h3 with h3 | ⟨z, h3, h5, h6⟩
        · exact .inl h3
        · exact .inr ⟨z, h3, h5, by rw [wL_cons]; omega⟩
    | poly ts =>
      by_cases h1 : (allExposZero ts && allCoeffsOne ts) = true
      · have he : prodPass (.poly ts :: l) st = prodPass l { st with changed := true, one := some (.poly ts) } := by
          rw [prodPass, if_pos h1]
        obtain ⟨q1, q2, q3, q4⟩ := ih { st with changed := true, one := some (.poly ts) } hl' hst
        rw [he]
        refine ⟨q1, ?_, ?_, fun _ => q4 (.inr (.inl rfl))⟩
        · simp only [if_true] at q2
          rw [wL_cons, wt_poly]; omega
        · rcases q3 with q3 | ⟨z, h3, h5, h6⟩
          · exact .inr ⟨_, q3, hs, by rw [wL_cons]; omega⟩
          · exact .inr ⟨z, h3, h5, by rw [wL_cons]; omega⟩
      · by_cases h0 : allCoeffsZero ts = true
        · have he : prodPass (.poly ts :: l) st = { st with factors := [.poly ts] } := by
            rw [prodPass, if_neg h1, if_pos h0]
          rw [he]
          refine ⟨by simpa using hs, ?_, .inl rfl, fun _ => .inl (by simp)⟩
          rw [wL_cons, wL_nil, wL_cons]; dsimp only; omega
        · exact keep (by rw [prodPass, if_neg h1, if_neg h0])
    | num c => exact keep (by simp [prodPass])
    | epoly ts e => exact keep (by simp [prodPass])
    | lpoly ts => exact keep (by simp [prodPass])
    | sum l1 => exact keep (by simp [prodPass])
    | prule t => exact keep (by simp [prodPass])
    | pow b e => exact keep (by simp [prodPass])
    | log a => exact keep (by simp [prodPass])
    | exp a => exact keep (by simp [prodPass])

theorem prodLoop_finish (B : ℕ) (l l' : List (Expr n F)) (one : Option (Expr n F))
    (h4 : ∀ fuel, 2 * wL l + 1 ≤ fuel → l.mapM (simplify fuel) = some l') {σ : ℕ} (hσ : wL l ≤ σ)
    (p1 : ∀ e ∈ (prodPass l' ⟨[], false, one⟩).factors, Complete e) (p2 : wL (prodPass l' ⟨[], false, one⟩).factors ≤ B)
    (p3 : ∀ z, (prodPass l' ⟨[], false, one⟩).one = some z → Complete z ∧ wt z ≤ B)
    (p4 : (prodPass l' ⟨[], false, one⟩).factors ≠ [] ∨ (prodPass l' ⟨[], false, one⟩).one.isSome)
    (hch : (prodPass l' ⟨[], false, one⟩).changed = false) :
    ∃ e', wt e' ≤ B + 1 ∧ Complete e' ∧ ∀ fuel, 2 * σ + 2 ≤ fuel → prodLoop fuel l one = some e' := by
  have key : ∃ e', wt e' ≤ B + 1 ∧ Complete e' ∧
      prodFinish (prodPass l' ⟨[], false, one⟩).factors (prodPass l' ⟨[], false, one⟩).one = some e' := by
    unfold prodFinish
    generalize (prodPass l' ⟨[], false, one⟩).factors = r at *
    match r with
    | [s] => rw [wL_cons, wL_nil] at p2; exact ⟨s, by omega, p1 s (by simp), rfl⟩
    | [] =>
      obtain ⟨z, hz⟩ := Option.isSome_iff_exists.1 (p4.resolve_left (by simp))
      obtain ⟨q1, q2⟩ := p3 z hz
      exact ⟨z, by omega, q1, hz⟩
    | a :: b :: r => exact ⟨.prod (a :: b :: r), by rw [wt_prod]; omega, .prod _ (by simp) p1, rfl⟩
  obtain ⟨e', q1, q2, q3⟩ := key
  refine ⟨e', q1, q2, fun fuel hf => ?_⟩
  obtain ⟨fuel, rfl⟩ : ∃ k, fuel = k + 1 := ⟨fuel - 1, by omega⟩
  rw [prodLoop, h4 fuel (by omega)]
  simp only [Option.bind_eq_bind, Option.bind_some, hch, Bool.false_eq_true, if_false]
  exact q3

theorem prodLoop_total (B : ℕ) (hB : ∀ e : Expr n F, wt e ≤ B → Complete e → Tot e) :
    ∀ (σ : ℕ) (l : List (Expr n F)) (one : Option (Expr n F)), wL l ≤ σ → σ ≤ B → (∀ e ∈ l, Complete e) →
      (∀ z, one = some z → Complete z ∧ wt z ≤ B) → (l ≠ [] ∨ one.isSome) →
      ∃ e', wt e' ≤ B + 1 ∧ Complete e' ∧ ∀ fuel, 2 * σ + 2 ≤ fuel → prodLoop fuel l one = some e' := by
  intro σ
  induction σ with
  | zero =>
    intro l one hl hσ hC hz hne
    obtain ⟨l', h1, h2, h3, h4⟩ := simp_list l fun e he => hB e (by have := wL_mem he; omega) (hC e he)
    obtain ⟨p1, p2, p3, p4⟩ := prodPass_wt l' ⟨[], false, one⟩ h1 (by simp)
    simp only [wL_nil, Bool.false_eq_true, if_false] at p2
    have hz' : ∀ z, (prodPass l' ⟨[], false, one⟩).one = some z → Complete z ∧ wt z ≤ B := by
      intro z hzz
      rcases p3 with p3 | ⟨z', p3, q1, q2⟩
      · exact hz z (by rw [p3] at hzz; exact hzz)
      · rw [p3, Option.some.injEq] at hzz; subst hzz; exact ⟨q1, by omega⟩
    have hch : (prodPass l' ⟨[], false, one⟩).changed = false := by
      cases hc : (prodPass l' ⟨[], false, one⟩).changed with
      | false => rfl
      | true => rw [hc, if_pos rfl] at p2; omega
    refine prodLoop_finish B l l' one h4 (by omega) p1 (by omega) hz' (p4 ?_) hch
    rcases hne with hne | hne
    · exact .inr (.inr fun h => hne (by rw [h] at h3; exact List.length_eq_zero_iff.1 h3.symm))
    · exact .inr (.inl hne)
  | succ σ ih =>
    intro l one hl hσ hC hz hne
    obtain ⟨l', h1, h2, h3, h4⟩ := simp_list l fun e he => hB e (by have := wL_mem he; omega) (hC e he)
    obtain ⟨p1, p2, p3, p4⟩ := prodPass_wt l' ⟨[], false, one⟩ h1 (by simp)
    simp only [wL_nil, Bool.false_eq_true, if_false] at p2
    have hz' : ∀ z, (prodPass l' ⟨[], false, one⟩).one = some z → Complete z ∧ wt z ≤ B := by
      intro z hzz
      rcases p3 with p3 | ⟨z', p3, q1, q2⟩
      · exact hz z (by rw [p3] at hzz; exact hzz)
      · rw [p3, Option.some.injEq] at hzz; subst hzz; exact ⟨q1, by omega⟩
    have hne' : (prodPass l' ⟨[], false, one⟩).factors ≠ [] ∨ (prodPass l' ⟨[], false, one⟩).one.isSome := by
      refine p4 ?_
      rcases hne with hne | hne
      · exact .inr (.inr fun h => hne (by rw [h] at h3; exact List.length_eq_zero_iff.1 h3.symm))
      · exact .inr (.inl hne)
    cases hc : (prodPass l' ⟨[], false, one⟩).changed with
    | false => exact prodLoop_finish B l l' one h4 (by omega) p1 (by omega) hz' hne' hc
    | true =>
      rw [hc, if_pos rfl] at p2
      obtain ⟨e', q1, q2, q3⟩ := ih _ _ (by omega) (by omega) p1 hz' hne'
      refine ⟨e', q1, q2, fun fuel hf => ?_⟩
      obtain ⟨fuel, rfl⟩ : ∃ k, fuel = k + 1 := ⟨fuel - 1, by omega⟩
      rw [prodLoop, h4 fuel (by omega)]
      simp only [Option.bind_eq_bind, Option.bind_some, hc, if_true]
      exact q3 fuel (by omega)

theorem epoly_total (ts : Terms n F) (e : Expr n F) (hts : ∀ t ∈ ts, Complete t.2) (he : Complete e)
    (ht : ∀ t ∈ ts, Tot t.2) (hte : Tot e) : Tot (.epoly ts e) := by
  obtain ⟨ts', h1, h2, h3⟩ := terms_total ts hts ht
  have hexp : ∃ e1, Complete e1 ∧ wt e1 ≤ wt e ∧ ∀ fuel, 2 * wt e + 1 ≤ fuel →
      (if e.isNum then some e else (simplify fuel e).map unwrapExponent : Option (Expr n F)) = some e1 := by
    by_cases hn : e.isNum = true
    · exact ⟨e, he, le_refl _, fun fuel _ => by simp [hn]⟩
    · obtain ⟨s, q1, q2, q3⟩ := hte
      obtain ⟨u1, u2⟩ := unwrapExponent_wt q2
      exact ⟨unwrapExponent s, u1, u2.trans q1, fun fuel hf => by simp [hn, q3 fuel hf]⟩
  obtain ⟨e1, c1, w1, s1⟩ := hexp
  have hred : ∀ fuel, 2 * wt (.epoly ts e) + 1 ≤ fuel + 1 → simplify (fuel + 1) (.epoly ts e) =
      if e1.isNumZero then some (const 1) else if e1.isNumOne then some (.poly ts)
      else if isOneTerms ts' then some (.poly ts') else some (.epoly ts' e1) := by
    intro fuel hf
    rw [wt_epoly] at hf
    rw [simplify, s1 fuel (by omega)]
    simp only [Option.bind_eq_bind, Option.bind_some, h3 fuel (by omega)]
  have hsuc : ∀ fuel, 2 * wt (.epoly ts e) + 1 ≤ fuel → ∃ k, fuel = k + 1 := fun fuel hf => ⟨fuel - 1, by omega⟩
  by_cases z0 : e1.isNumZero = true
  · refine ⟨const 1, by rw [wt_const, wt_epoly]; omega, complete_const _, fun fuel hf => ?_⟩
    obtain ⟨fuel, rfl⟩ := hsuc fuel hf
    rw [hred fuel hf, if_pos z0]
  · by_cases z1 : e1.isNumOne = true
    · refine ⟨.poly ts, by rw [wt_poly, wt_epoly]; omega, .poly _ hts, fun fuel hf => ?_⟩
      obtain ⟨fuel, rfl⟩ := hsuc fuel hf
      rw [hred fuel hf, if_neg z0, if_pos z1]
    · by_cases z2 : isOneTerms ts' = true
      · refine ⟨.poly ts', by rw [wt_poly, wt_epoly]; omega, .poly _ h2, fun fuel hf => ?_⟩
        obtain ⟨fuel, rfl⟩ := hsuc fuel hf
        rw [hred fuel hf, if_neg z0, if_neg z1, if_pos z2]
      · refine ⟨.epoly ts' e1, by rw [wt_epoly, wt_epoly]; omega, .epoly _ _ h2 c1, fun fuel hf => ?_⟩
        obtain ⟨fuel, rfl⟩ := hsuc fuel hf
        rw [hred fuel hf, if_neg z0, if_neg z1, if_neg z2]

/-- `simplify` terminates on every complete expression. -/
theorem tot : ∀ (k : ℕ) (e : Expr n F), wt e ≤ k → Complete e → Tot e := by
  intro k
  induction k with
  | zero =>
    intro e hk he
    cases he with
    | num c => exact ⟨.num c, le_refl _, .num c, fun fuel hf => by
        obtain ⟨fuel, rfl⟩ : ∃ k, fuel = k + 1 := ⟨fuel - 1, by omega⟩
        rw [simplify]⟩
    | poly ts h => rw [wt_poly] at hk; omega
    | epoly ts e h h' => rw [wt_epoly] at hk; omega
    | lpoly ts h => rw [wt_lpoly] at hk; omega
    | sum l h h' => rw [wt_sum] at hk; omega
    | prod l h h' => rw [wt_prod] at hk; omega
    | prule t h h' h'' => rw [wt_prule] at hk; omega
    | pow b e h h' => rw [wt_pow] at hk; omega
    | log a h => rw [wt_log] at hk; omega
    | exp a h => rw [wt_exp] at hk; omega
  | succ k ih =>
    intro e hk he
    have hsuc : ∀ {e : Expr n F} fuel, 2 * wt e + 1 ≤ fuel → ∃ k, fuel = k + 1 := fun fuel hf => ⟨fuel - 1, by omega⟩
    cases he with
    | num c => exact ⟨.num c, le_refl _, .num c, fun fuel hf => by
        obtain ⟨fuel, rfl⟩ := hsuc fuel hf
        rw [simplify]⟩
    | poly ts h =>
      rw [wt_poly] at hk
      obtain ⟨ts', h1, h2, h3⟩ := terms_total ts h fun t ht => ih _ (by have := wT_mem ht; omega) (h t ht)
      refine ⟨.poly ts', by rw [wt_poly, wt_poly]; omega, .poly _ h2, fun fuel hf => ?_⟩
      obtain ⟨fuel, rfl⟩ := hsuc fuel hf
      rw [wt_poly] at hf
      rw [simplify, h3 fuel (by omega)]; rfl
    | epoly ts e h h' =>
      rw [wt_epoly] at hk
      exact epoly_total ts e h h' (fun t ht => ih _ (by have := wT_mem ht; omega) (h t ht)) (ih _ (by omega) h')
    | lpoly ts h =>
      rw [wt_lpoly] at hk
      obtain ⟨ts', h1, h2, h3⟩ := terms_total ts h fun t ht => ih _ (by have := wT_mem ht; omega) (h t ht)
      by_cases z : isOneTerms ts' = true
      · refine ⟨const 0, by rw [wt_const, wt_lpoly]; omega, complete_const _, fun fuel hf => ?_⟩
        obtain ⟨fuel, rfl⟩ := hsuc fuel hf
        rw [wt_lpoly] at hf
        rw [simplify, h3 fuel (by omega)]; simp [z]
      · refine ⟨.lpoly ts', by rw [wt_lpoly, wt_lpoly]; omega, .lpoly _ h2, fun fuel hf => ?_⟩
        obtain ⟨fuel, rfl⟩ := hsuc fuel hf
        rw [wt_lpoly] at hf
        rw [simplify, h3 fuel (by omega)]; simp [z]
    | sum l hne h =>
      rw [wt_sum] at hk
      obtain ⟨e', h1, h2, h3⟩ := sumLoop_total (wL l) (fun e he hc => ih e (by omega) hc) (wL l) l none (le_refl _) (le_refl _) h
        (by simp) (.inl hne)
      refine ⟨e', by rw [wt_sum]; omega, h2, fun fuel hf => ?_⟩
      obtain ⟨fuel, rfl⟩ := hsuc fuel hf
      rw [wt_sum] at hf
      rw [simplify, h3 fuel (by omega)]
    | prod l hne h =>
      rw [wt_prod] at hk
      obtain ⟨e', h1, h2, h3⟩ := prodLoop_total (wL l) (fun e he hc => ih e (by omega) hc) (wL l) l none (le_refl _) (le_refl _) h
        (by simp) (.inl hne)
      refine ⟨e', by rw [wt_prod]; omega, h2, fun fuel hf => ?_⟩
      obtain ⟨fuel, rfl⟩ := hsuc fuel hf
      rw [wt_prod] at hf
      rw [simplify, h3 fuel (by omega)]
    | prule terms h h' h'' =>
      have hw : ∀ p : Int × List (Expr n F) → Bool, ((terms.filter p).map (fun t => 1 + wL t.2)).sum ≤ (terms.map (fun t => 1 + wL t.2)).sum :=
        fun p => (List.filter_sublist.map _).sum_le_sum (by simp)
      by_cases z : (terms.filter (fun t => !decide (t.1 = 0) && !(t.2.any isZeroPoly))).length = 0
      · refine ⟨const 0, by rw [wt_const, wt_prule]; omega, complete_const _, fun fuel hf => ?_⟩
        obtain ⟨fuel, rfl⟩ := hsuc fuel hf
        rw [simplify]; simp only [z, if_true]
      · refine ⟨.prule (terms.filter (fun t => !decide (t.1 = 0) && !(t.2.any isZeroPoly))), ?_, ?_, fun fuel hf => ?_⟩
        · rw [wt_prule, wt_prule]; have := hw (fun t => !decide (t.1 = 0) && !(t.2.any isZeroPoly)); omega
        · refine .prule _ (fun h => z (by rw [h]; rfl)) (fun t ht => h' t (List.mem_of_mem_filter ht))
            (fun t ht => h'' t (List.mem_of_mem_filter ht))
        · obtain ⟨fuel, rfl⟩ := hsuc fuel hf
          rw [simplify]; simp only [z, if_false]
    | pow b e hb he =>
      rw [wt_pow] at hk
      obtain ⟨b', b1, b2, b3⟩ := ih b (by omega) hb
      by_cases hp : ∃ ts, b' = .poly ts
      · obtain ⟨ts, rfl⟩ := hp
        have hw : wt (.epoly ts e) ≤ wt (.pow b e) - 1 := by
          rw [wt_poly] at b1; rw [wt_epoly, wt_pow]; omega
        obtain ⟨e', e1, e2, e3⟩ := ih (.epoly ts e) (by rw [wt_pow] at hw; omega) (.epoly _ _ ((complete_poly_iff _).1 b2) he)
        refine ⟨e', by omega, e2, fun fuel hf => ?_⟩
        obtain ⟨fuel, rfl⟩ := hsuc fuel hf
        rw [wt_pow] at hf hw
        rw [simplify, b3 fuel (by omega)]
        simp only [Option.bind_eq_bind, Option.bind_some]
        exact e3 fuel (by omega)
      · obtain ⟨e', e1, e2, e3⟩ := ih e (by omega) he
        have hred : ∀ fuel, 2 * wt (.pow b e) + 1 ≤ fuel + 1 → simplify (fuel + 1) (.pow b e) =
            match e' with
            | .poly us => if allCoeffsZero us then some (const 1) else if isOneTerms us then some b' else some (.pow b' (.poly us))
            | e' => some (.pow b' e') := by
          intro fuel hf
          rw [wt_pow] at hf
          rw [simplify, b3 fuel (by omega)]
          simp only [Option.bind_eq_bind, Option.bind_some]
          rw [e3 fuel (by omega)]
          cases b' <;> first | exact absurd ⟨_, rfl⟩ hp | (cases e' <;> simp)
        have hother : (∀ us, e' ≠ .poly us) → Tot (.pow b e) := by
          intro hn
          refine ⟨.pow b' e', by rw [wt_pow, wt_pow]; omega, .pow _ _ b2 e2, fun fuel hf => ?_⟩
          obtain ⟨fuel, rfl⟩ := hsuc fuel hf
          rw [hred fuel hf]
          cases e' <;> first | rfl | exact absurd rfl (hn _)
        by_cases hq : ∃ us, e' = .poly us
        · obtain ⟨us, rfl⟩ := hq
          by_cases z0 : allCoeffsZero us = true
          · refine ⟨const 1, by rw [wt_const, wt_pow]; omega, complete_const _, fun fuel hf => ?_⟩
            obtain ⟨fuel, rfl⟩ := hsuc fuel hf
            rw [hred fuel hf]; simp [z0]
          · by_cases z1 : isOneTerms us = true
            · refine ⟨b', by rw [wt_pow]; omega, b2, fun fuel hf => ?_⟩
              obtain ⟨fuel, rfl⟩ := hsuc fuel hf
              rw [hred fuel hf]; simp [z0, z1]
            · refine ⟨.pow b' (.poly us), by rw [wt_pow, wt_pow]; omega, .pow _ _ b2 e2, fun fuel hf => ?_⟩
              obtain ⟨fuel, rfl⟩ := hsuc fuel hf
              rw [hred fuel hf]; simp [z0, z1]
        · exact hother fun us h => hq ⟨us, h⟩
    | log a ha =>
      rw [wt_log] at hk
      obtain ⟨a', b1, b2, b3⟩ := ih a (by omega) ha
      by_cases hz : ∃ ts, a' = .poly ts ∧ isOneTerms ts = true
      · obtain ⟨ts, rfl, z⟩ := hz
        refine ⟨const 0, by rw [wt_const, wt_log]; omega, complete_const _, fun fuel hf => ?_⟩
        obtain ⟨fuel, rfl⟩ := hsuc fuel hf
        rw [wt_log] at hf
        rw [simplify, b3 fuel (by omega)]; simp [z]
      · refine ⟨.log a', by rw [wt_log, wt_log]; omega, .log _ b2, fun fuel hf => ?_⟩
        obtain ⟨fuel, rfl⟩ := hsuc fuel hf
        rw [wt_log] at hf
        rw [simplify, b3 fuel (by omega)]
        cases a' <;> try rfl
        rename_i ts
        have : isOneTerms ts ≠ true := fun h => hz ⟨ts, rfl, h⟩
        simp [this]
    | exp a ha =>
      rw [wt_exp] at hk
      obtain ⟨a', b1, b2, b3⟩ := ih a (by omega) ha
      by_cases hz : ∃ ts, a' = .poly ts ∧ isZeroTerms ts = true
      · obtain ⟨ts, rfl, z⟩ := hz
        refine ⟨const 1, by rw [wt_const, wt_exp]; omega, complete_const _, fun fuel hf => ?_⟩
        obtain ⟨fuel, rfl⟩ := hsuc fuel hf
        rw [wt_exp] at hf
        rw [simplify, b3 fuel (by omega)]; simp [z]
      · refine ⟨.exp a', by rw [wt_exp, wt_exp]; omega, .exp _ b2, fun fuel hf => ?_⟩
        obtain ⟨fuel, rfl⟩ := hsuc fuel hf
        rw [wt_exp] at hf
        rw [simplify, b3 fuel (by omega)]
        cases a' <;> try rfl
        rename_i ts
        have : isZeroTerms ts ≠ true := fun h => hz ⟨ts, rfl, h⟩
        simp [this]

end Expr
end SecDec
