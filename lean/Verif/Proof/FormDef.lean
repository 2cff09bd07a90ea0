import Verif.Spec.FormDef
import Verif.Proof.FuncNames
import Verif.Proof.ExprTotal
import Verif.Proof.ExprMerge
/-
Names and values of the definitions.
-/
set_option linter.unusedSectionVars false
namespace SecDec
namespace FormDef
open Expr
variable {n : Nat} {F : Type} [CommRing F] [DecidableEq F]

/-- The name of the part with the path `p`. -/
def nm (name : Name) : List ℕ → Name
  | [] => name
  | i :: p => nm (part name i) p

abbrev pre : Name := "SecDecInternalfDUMMY".toList
abbrev dg (i : ℕ) : Name := (toString i).toList

theorem part_eq (name : Name) (i : ℕ) : part name i = pre ++ name ++ ("Part".toList ++ dg i) := by
  unfold part nextLevel; simp only [List.append_assoc]

theorem nm_snoc (name : Name) (p : List ℕ) (i : ℕ) : nm name (p ++ [i]) = part (nm name p) i := by
  induction p generalizing name with
  | nil => rfl
  | cons j p ih => exact ih (part name j)

theorem dg_digit {k : ℕ} {c : Char} (h : c ∈ dg k) : c.isDigit = true := Func.digs_digit h

/-- The last part of the name determines the index. -/
theorem suffix_inj {a b : Name} {i j : ℕ} (h : a ++ ("Part".toList ++ dg i) = b ++ ("Part".toList ++ dg j)) : a = b ∧ i = j := by
  have key : ∀ (a : Name) (i : ℕ), ((a ++ ("Part".toList ++ dg i)).reverse.takeWhile (fun c => c.isDigit)) = (dg i).reverse := by
    intro a i
    have e : (a ++ ("Part".toList ++ dg i)).reverse = (dg i).reverse ++ ('t' :: 'r' :: 'a' :: 'P' :: a.reverse) := by simp
    rw [e, List.takeWhile_append_of_pos (by intro c hc; exact dg_digit (List.mem_reverse.1 hc))]
    simp only [List.takeWhile_cons]
    rw [if_neg (by decide)]; simp
  have h1 : dg i = dg j := by
    have := key a i
    rw [h, key b j] at this
    exact (List.reverse_injective this).symm
  have h2 := Func.digs_inj h1
  subst h2
  exact ⟨List.append_cancel_right h, rfl⟩

theorem part_inj {a b : Name} {i j : ℕ} (h : part a i = part b j) : a = b ∧ i = j := by
  rw [part_eq, part_eq] at h
  obtain ⟨h1, h2⟩ := suffix_inj h
  exact ⟨List.append_cancel_left h1, h2⟩

theorem part_length (a : Name) (i : ℕ) : a.length < (part a i).length := by
  rw [part_eq, List.length_append, List.length_append, List.length_append, show "Part".toList.length = 4 from rfl]; omega

theorem nm_length (name : Name) (p : List ℕ) : name.length ≤ (nm name p).length := by
  induction p generalizing name with
  | nil => exact le_rfl
  | cons i p ih => exact (part_length name i).le.trans (ih _)

/-- Different paths have different names. -/
theorem nm_inj {name : Name} : ∀ {p q : List ℕ}, nm name p = nm name q → p = q := by
  intro p
  induction p using List.reverseRecOn with
  | nil =>
    intro q h
    rcases List.eq_nil_or_concat q with rfl | ⟨q', j, rfl⟩
    · rfl
    · exfalso
      rw [List.concat_eq_append, nm_snoc] at h
      have h1 := part_length (nm name q') j
      have h2 := nm_length name q'
      rw [← h] at h1
      simp only [nm] at h1
      omega
  | append_singleton p i ih =>
    intro q h
    rcases List.eq_nil_or_concat q with rfl | ⟨q', j, rfl⟩
    · exfalso
      rw [nm_snoc] at h
      have h1 := part_length (nm name p) i
      have h2 := nm_length name p
      rw [h] at h1
      simp only [nm] at h1
      omega
    · rw [List.concat_eq_append, nm_snoc, nm_snoc] at h
      obtain ⟨h1, rfl⟩ := part_inj h
      rw [ih h1, List.concat_eq_append]

/-! ### The lines -/

/-- All names are names of parts. -/
def Under (name : Name) (ls : List (Line n F)) : Prop := ∀ l ∈ ls, ∃ p, l.name = nm name p

/-- What is claimed for one call of the recursion. -/
structure Good (len : Expr n F → ℕ) (limit : ℕ) (name : Name) (e : Expr n F) (ls : List (Line n F)) : Prop where
  under : Under name ls
  nodup : (ls.map Line.name).Nodup
  first : name ∈ ls.map Line.name
  resolved : Resolved ls
  short : ∀ l ∈ ls, ∀ e', l.rhs = .whole e' → len e' ≤ limit ∨ ¬ Splittable e'
  value : ∀ (φ : F →+* ℂ) x env, substituted φ x env ls name = Expr.eval φ x e

theorem substituted_append (φ : F →+* ℂ) (x : Fin n → ℂ) (env : Name → ℂ) (a b : List (Line n F)) :
    substituted φ x env (a ++ b) = substituted φ x (substituted φ x env b) a := by
  induction a with
  | nil => rfl
  | cons l a ih => simp only [List.cons_append, substituted, ih]

theorem substituted_other (φ : F →+* ℂ) (x : Fin n → ℂ) (env : Name → ℂ) (a : List (Line n F)) {m : Name} (h : m ∉ a.map Line.name) :
    substituted φ x env a m = env m := by
  induction a with
  | nil => rfl
  | cons l a ih =>
    simp only [List.map_cons, List.mem_cons, not_or] at h
    simp only [substituted, Function.update_of_ne h.1, ih h.2]

theorem resolved_append {a b : List (Line n F)} (ha : Resolved a) (hb : Resolved b) : Resolved (a ++ b) := by
  induction a with
  | nil => exact hb
  | cons l a ih =>
    refine ⟨fun m hm => ?_, ih ha.2⟩
    have := ha.1 m hm
    show m ∈ (a ++ b).map Line.name
    rw [List.map_append]
    exact List.mem_append_left _ this

/-- What is claimed for the loop over the parts. -/
structure GoodL (len : Expr n F → ℕ) (limit : ℕ) (name : Name) (i : ℕ) (es : List (Expr n F)) (ls : List (Line n F)) : Prop where
  under : ∀ l ∈ ls, ∃ j p, i ≤ j ∧ l.name = nm name (j :: p)
  nodup : (ls.map Line.name).Nodup
  first : ∀ k < es.length, part name (i + k) ∈ ls.map Line.name
  resolved : Resolved ls
  short : ∀ l ∈ ls, ∀ e', l.rhs = .whole e' → len e' ≤ limit ∨ ¬ Splittable e'
  value : ∀ (φ : F →+* ℂ) x env, (List.range es.length).map (fun k => substituted φ x env ls (part name (i + k))) = es.map (Expr.eval φ x)

theorem bind_okE {α β : Type} {x : Except Err α} {f : α → Except Err β} {b : β} (h : (x >>= f) = .ok b) :
    ∃ a, x = .ok a ∧ f a = .ok b := by
  cases x with
  | error e => cases h
  | ok a => exact ⟨a, rfl, h⟩

theorem loop_good {len : Expr n F → ℕ} {limit : ℕ} {rec : Name → Expr n F → Except Err (List (Line n F))} (name : Name) :
    ∀ (es : List (Expr n F)) (i : ℕ) (ls : List (Line n F)), (∀ e ∈ es, ∀ nm' ls, rec nm' e = .ok ls → Good len limit nm' e ls) →
      loop rec name i es = .ok ls → GoodL len limit name i es ls
  | [], i, ls, _, h => by
    simp only [loop, Except.ok.injEq] at h
    subst h
    exact ⟨by simp, by simp, by simp, trivial, by simp, by simp⟩
  | e :: es, i, ls, hr, h => by
    simp only [loop] at h
    obtain ⟨a, h1, h⟩ := bind_okE h
    obtain ⟨b, h2, h⟩ := bind_okE h
    simp only [Except.ok.injEq] at h
    subst h
    have ga := hr e (by simp) _ _ h1
    have gb := loop_good name es (i + 1) b (fun e he => hr e (by simp [he])) h2
    have hdisj : ∀ m ∈ a.map Line.name, m ∉ b.map Line.name := by
      intro m hm hb
      obtain ⟨l, hl, rfl⟩ := List.mem_map.1 hm
      obtain ⟨l', hl', he⟩ := List.mem_map.1 hb
      obtain ⟨p, hp⟩ := ga.under l hl
      obtain ⟨j, q, hj, hq⟩ := gb.under l' hl'
      have : nm name (i :: p) = nm name (j :: q) := by
        rw [← hq, he, hp]; rfl
      have := nm_inj this
      simp only [List.cons.injEq] at this
      omega
    have hdisj' : ∀ k, part name (i + 1 + k) ∉ a.map Line.name := by
      intro k hk
      obtain ⟨l, hl, he⟩ := List.mem_map.1 hk
      obtain ⟨p, hp⟩ := ga.under l hl
      have : nm name (i :: p) = nm name [i + 1 + k] := by
        rw [show nm name (i :: p) = l.name from hp.symm, he]; rfl
      have := nm_inj this
      simp only [List.cons.injEq] at this
      omega
    refine ⟨?_, ?_, ?_, resolved_append ga.resolved gb.resolved, ?_, ?_⟩
    · intro l hl
      rcases List.mem_append.1 hl with hl | hl
      · obtain ⟨p, hp⟩ := ga.under l hl
        exact ⟨i, p, le_rfl, hp⟩
      · obtain ⟨j, p, hj, hp⟩ := gb.under l hl
        exact ⟨j, p, by omega, hp⟩
    · rw [List.map_append]
      exact List.Nodup.append ga.nodup gb.nodup (fun m h1 h2 => hdisj m h1 h2)
    · intro k hk
      rw [List.map_append, List.mem_append]
      cases k with
      | zero => exact Or.inl ga.first
      | succ k =>
        right
        have := gb.first k (by simpa using hk)
        rwa [show i + (k + 1) = i + 1 + k by omega]
    · intro l hl
      rcases List.mem_append.1 hl with hl | hl
      · exact ga.short l hl
      · exact gb.short l hl
    · intro φ x env
      rw [List.length_cons, List.range_succ_eq_map, List.map_cons, List.map_cons, List.map_map]
      congr 1
      · rw [substituted_append, Nat.add_zero, ga.value]
      · rw [← gb.value φ x env]
        refine List.map_congr_left fun k _ => ?_
        simp only [Function.comp]
        rw [substituted_append, show i + k.succ = i + 1 + k by omega, substituted_other _ _ _ _ (hdisj' k)]

/-- A line which combines the parts. -/
theorem good_cons {len : Expr n F → ℕ} {limit : ℕ} {name : Name} {e : Expr n F} {es : List (Expr n F)} {ls : List (Line n F)}
    (g : GoodL len limit name 0 es ls) (rhs : Rhs n F) (hu : ∀ m ∈ rhs.uses, ∃ k < es.length, m = part name k)
    (hw : ∀ e', rhs ≠ .whole e')
    (hv : ∀ (φ : F →+* ℂ) x env, (List.range es.length).map (fun k => env (part name k)) = es.map (Expr.eval φ x) →
      rhs.value φ x env = Expr.eval φ x e) : Good len limit name e (⟨name, rhs⟩ :: ls) := by
  have hno : name ∉ ls.map Line.name := by
    intro h
    obtain ⟨l, hl, he⟩ := List.mem_map.1 h
    obtain ⟨j, p, _, hp⟩ := g.under l hl
    have : nm name (j :: p) = nm name [] := by rw [← hp, he]; rfl
    have := nm_inj this
    simp at this
  refine ⟨?_, ?_, by simp, ⟨?_, g.resolved⟩, ?_, ?_⟩
  · intro l hl
    rcases List.mem_cons.1 hl with rfl | hl
    · exact ⟨[], rfl⟩
    · obtain ⟨j, p, _, hp⟩ := g.under l hl
      exact ⟨j :: p, hp⟩
  · rw [List.map_cons, List.nodup_cons]
    exact ⟨hno, g.nodup⟩
  · intro m hm
    obtain ⟨k, hk, rfl⟩ := hu m hm
    have := g.first k hk
    rwa [Nat.zero_add] at this
  · intro l hl e' he'
    rcases List.mem_cons.1 hl with rfl | hl
    · exact absurd he' (hw e')
    · exact g.short l hl e' he'
  · intro φ x env
    simp only [substituted, Function.update_self]
    refine hv φ x _ ?_
    have := g.value φ x env
    simpa only [Nat.zero_add] using this

theorem good_whole {len : Expr n F → ℕ} {limit : ℕ} {name : Name} {e : Expr n F} (h : len e ≤ limit ∨ ¬ Splittable e) :
    Good len limit name e [⟨name, .whole e⟩] := by
  refine ⟨?_, by simp, by simp, ⟨by simp [Rhs.uses], trivial⟩, ?_, ?_⟩
  · intro l hl
    simp only [List.mem_singleton] at hl
    subst hl; exact ⟨[], rfl⟩
  · intro l hl e' he
    simp only [List.mem_singleton] at hl
    subst hl
    simp only [Rhs.whole.injEq] at he
    subst he; exact h
  · intro φ x env
    simp [substituted, Rhs.value]

/-! ### Chunks -/

theorem chunkSize_pos (k : ℕ) : 0 < chunkSize k := by
  unfold chunkSize
  by_cases h : k / 10 = 0
  · rw [if_pos h]; exact one_pos
  · rw [if_neg h]; omega

theorem chunks_flatten {α : Type} (c : ℕ) (hc : 0 < c) : ∀ (m : ℕ) (l : List α), l.length ≤ m * c →
    (List.range m).flatMap (fun i => (l.drop (i * c)).take c) = l
  | 0, l, h => by
    have : l = [] := List.length_eq_zero_iff.1 (by omega)
    simp [this]
  | m + 1, l, h => by
    rw [List.range_succ_eq_map, List.flatMap_cons, List.flatMap_map]
    simp only [Nat.zero_mul, List.drop_zero]
    conv_rhs => rw [← List.take_append_drop c l]
    congr 1
    rw [← chunks_flatten c hc m (l.drop c) (by rw [List.length_drop, Nat.succ_mul] at *; omega)]
    congr 1
    funext i
    simp only [Nat.succ_eq_add_one]
    rw [List.drop_drop, Nat.add_mul, Nat.one_mul, Nat.add_comm]

theorem chunkCount_mul (k : ℕ) : k ≤ chunkCount k * chunkSize k := by
  unfold chunkCount
  have h := chunkSize_pos k
  have := Nat.div_add_mod (k + chunkSize k - 1) (chunkSize k)
  have h2 := Nat.mod_lt (k + chunkSize k - 1) h
  rw [Nat.mul_comm] at this
  omega

theorem chunks_value (φ : F →+* ℂ) (x : Fin n → ℂ) (ts : List (Expo n × Expr n F)) :
    ((chunks ts).map (Expr.eval φ x)).sum = Expr.eval φ x (.poly ts) := by
  unfold chunks
  rw [List.map_map, eval_poly]
  conv_rhs => rw [← chunks_flatten (chunkSize ts.length) (chunkSize_pos _) (chunkCount ts.length) ts (chunkCount_mul _)]
  rw [List.map_flatMap, List.flatMap_def, List.sum_flatten, List.map_map]
  congr 1
  refine List.map_congr_left fun i _ => ?_
  simp only [Function.comp, eval_poly]

theorem toSum_value (φ : F →+* ℂ) (x : Fin n → ℂ) (terms : List (Int × List (Expr n F))) :
    ((toSum terms).map (Expr.eval φ x)).sum = Expr.eval φ x (.prule terms) := by
  unfold toSum
  rw [List.map_map, eval_prule]
  congr 1
  refine List.map_congr_left fun t _ => ?_
  simp only [Function.comp, eval_prod, List.map_cons, List.prod_cons, eval_poly, List.map_nil, List.sum_cons, List.sum_nil, eval_num]
  simp [Poly.mono]

theorem range_env {env : Name → ℂ} {name : Name} {es : List (Expr n F)} {φ : F →+* ℂ} {x : Fin n → ℂ}
    (h : (List.range es.length).map (fun k => env (part name k)) = es.map (Expr.eval φ x)) :
    ((List.range es.length).map (part name)).map env = es.map (Expr.eval φ x) := by
  rw [List.map_map]; exact h

theorem split_good {len : Expr n F → ℕ} {limit : ℕ} (hp : len (.prod []) ≤ limit) : ∀ (fuel : ℕ) (name : Name) (e : Expr n F)
    (ls : List (Line n F)), split len limit fuel name e = .ok ls → Good len limit name e ls
  | 0, _, _, _, h => by simp [split] at h
  | fuel + 1, name, e, ls, h => by
    have ih := split_good (fuel := fuel) hp
    have hsum : ∀ (e : Expr n F) (es : List (Expr n F)) (ls : List (Line n F)), (∀ (φ : F →+* ℂ) x, (es.map (Expr.eval φ x)).sum = Expr.eval φ x e) →
        (do
          let r ← loop (split len limit fuel) name 0 es
          .ok (⟨name, .sumOf ((List.range es.length).map (part name))⟩ :: r)) = Except.ok (ε := Err) ls → Good len limit name e ls := by
      intro e es ls hv h
      obtain ⟨r, h1, h⟩ := bind_okE h
      simp only [Except.ok.injEq] at h
      subst h
      refine good_cons (loop_good name es 0 r (fun e _ nm' ls h => ih nm' e ls h) h1) _ ?_ (by simp) ?_
      · intro m hm
        obtain ⟨k, hk, rfl⟩ := List.mem_map.1 hm
        exact ⟨k, List.mem_range.1 hk, rfl⟩
      · intro φ x env he
        simp only [Rhs.value]
        rw [range_env he, hv]
    by_cases hl : len e ≤ limit
    · have : split len limit (fuel + 1) name e = .ok ls → ls = [⟨name, .whole e⟩] := by
        intro h
        cases e <;> simp only [split, if_pos hl] at h <;> first | (cases h; done) | (simp only [Except.ok.injEq] at h; exact h.symm)
      rw [this h]
      exact good_whole (Or.inl hl)
    · cases e with
      | num c => simp [split] at h
      | poly ts =>
        simp only [split, if_neg hl] at h
        rcases ts with _ | ⟨t, _ | ⟨t', ts⟩⟩
        · refine hsum _ (chunks []) ls (fun φ x => chunks_value φ x []) ?_
          rw [show (chunks ([] : List (Expo n × Expr n F))).length = chunkCount 0 by simp [chunks]]
          exact h
        · obtain ⟨r, h1, h⟩ := bind_okE h
          simp only [Except.ok.injEq] at h
          subst h
          have g := ih _ _ _ h1
          have gl : GoodL len limit name 0 [t.2] r := loop_good name [t.2] 0 r (fun e _ nm' ls h => ih nm' e ls h) (by
            simp only [loop, Bind.bind, Except.bind, h1, List.append_nil])
          refine good_cons gl _ ?_ (by simp) ?_
          · intro m hm
            simp only [Rhs.uses, List.mem_singleton] at hm
            exact ⟨0, by simp, hm⟩
          · intro φ x env he
            simp only [List.length_singleton, List.range_one, List.map_cons, List.map_nil, List.cons.injEq, and_true] at he
            simp only [Rhs.value, he, eval_poly, List.map_cons, List.map_nil, List.sum_cons, List.sum_nil, add_zero, Poly.mono]
        · refine hsum _ (chunks (t :: t' :: ts)) ls (fun φ x => chunks_value φ x _) ?_
          rw [show (chunks (t :: t' :: ts)).length = chunkCount (t :: t' :: ts).length by simp [chunks]]
          exact h
      | epoly ts e =>
        simp only [split, if_neg hl, Except.ok.injEq] at h
        subst h; exact good_whole (Or.inr (by simp [Splittable]))
      | lpoly ts =>
        simp only [split, if_neg hl, Except.ok.injEq] at h
        subst h; exact good_whole (Or.inr (by simp [Splittable]))
      | sum l =>
        simp only [split, if_neg hl] at h
        exact hsum _ l ls (fun φ x => (eval_sum φ x l).symm) h
      | prod l =>
        simp only [split, if_neg hl] at h
        obtain ⟨r, h1, h⟩ := bind_okE h
        simp only [Except.ok.injEq] at h
        subst h
        refine good_cons (loop_good name l 0 r (fun e _ nm' ls h => ih nm' e ls h) h1) _ ?_ (by simp) ?_
        · intro m hm
          obtain ⟨k, hk, rfl⟩ := List.mem_map.1 hm
          exact ⟨k, List.mem_range.1 hk, rfl⟩
        · intro φ x env he
          simp only [Rhs.value]
          rw [if_neg, range_env he, eval_prod]
          intro h0
          have : l = [] := by
            cases l with
            | nil => rfl
            | cons a l => simp at h0
          subst this
          exact hl hp
      | prule terms =>
        simp only [split, if_neg hl] at h
        exact hsum _ (toSum terms) ls (fun φ x => toSum_value φ x terms) h
      | pow b e =>
        simp only [split, if_neg hl, Except.ok.injEq] at h
        subst h; exact good_whole (Or.inr (by simp [Splittable]))
      | log a =>
        simp only [split, if_neg hl, Except.ok.injEq] at h
        subst h; exact good_whole (Or.inr (by simp [Splittable]))
      | exp a =>
        simp only [split, if_neg hl, Except.ok.injEq] at h
        subst h; exact good_whole (Or.inr (by simp [Splittable]))

end FormDef
end SecDec
