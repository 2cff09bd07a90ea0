import Verif.Proof.FormDef
import Verif.Proof.SubTotal
/-
The splitting ends.
-/
set_option linter.unusedSectionVars false
namespace SecDec
namespace FormDef
open Expr Subtraction
variable {n : Nat} {F : Type} [CommRing F] [DecidableEq F]

theorem loop_ev {rec : ℕ → Name → Expr n F → Except Err (List (Line n F))} (name : Name) : ∀ (es : List (Expr n F)) (i : ℕ),
    (∀ e ∈ es, ∀ nm', EvE Err.outOfFuel (fun k => rec k nm' e) (fun _ => True)) →
    EvE Err.outOfFuel (fun k => loop (rec k) name i es) (fun _ => True)
  | [], i, _ => .ok _ trivial
  | e :: es, i, h => by
    refine EvE.bind (h e (by simp) _) fun a _ => ?_
    exact EvE.bind (loop_ev name es (i + 1) fun e he => h e (by simp [he])) fun b _ => .ok _ trivial

theorem sum_le_of_sublist {l l' : List ℕ} (h : l.Sublist l') : l.sum ≤ l'.sum := h.sum_le_sum fun _ _ => Nat.zero_le _

theorem wt_chunk {ts : List (Expo n × Expr n F)} (h2 : 2 ≤ ts.length) {e : Expr n F} (he : e ∈ chunks ts) : wt e < wt (.poly ts) := by
  unfold chunks at he
  obtain ⟨i, hi, rfl⟩ := List.mem_map.1 he
  have hi' := List.mem_range.1 hi
  set c := chunkSize ts.length with hc
  have hcpos : 0 < c := chunkSize_pos _
  have hclt : c < ts.length := by
    rw [hc]; unfold chunkSize
    split <;> omega
  set l := (ts.drop (i * c)).take c with hl
  have hsub : l.Sublist ts := (List.take_sublist _ _).trans (List.drop_sublist _ _)
  have hlen : l.length ≤ c := by rw [hl, List.length_take]; omega
  set f : Expo n × Expr n F → ℕ := fun t => 6 + wt t.2 with hf
  have key : ∀ (l l' : List (Expo n × Expr n F)), l.Sublist l' → (l.map f).sum + 6 * (l'.length - l.length) ≤ (l'.map f).sum := by
    intro l l' h
    induction h with
    | slnil => simp
    | @cons l l' a h ih =>
      have := h.length_le
      simp only [List.map_cons, List.sum_cons, List.length_cons]
      have hfa : 6 ≤ f a := by simp [hf]
      omega
    | @cons_cons l l' a h ih =>
      have := h.length_le
      simp only [List.map_cons, List.sum_cons, List.length_cons]
      omega
  have h1 := key l ts hsub
  have h3 := key [] ts (List.nil_sublist _)
  simp only [List.map_nil, List.sum_nil, List.length_nil] at h3
  rw [wt, wt]
  simp only [← hf]
  have : ((l.map f).sum) + 6 ≤ (ts.map f).sum := by omega
  omega

theorem wt_mem {l : List (Expr n F)} {e : Expr n F} (h : e ∈ l) : wt e ≤ (l.map wt).sum :=
  List.single_le_sum (by simp) _ (List.mem_map.2 ⟨e, h, rfl⟩)

theorem wt_toSum {terms : List (Int × List (Expr n F))} {e : Expr n F} (h : e ∈ toSum terms) : wt e < wt (.prule terms) := by
  unfold toSum at h
  obtain ⟨t, ht, rfl⟩ := List.mem_map.1 h
  have h1 : (1 + (t.2.map wt).sum) ≤ (terms.map (fun t => 1 + (t.2.map wt).sum)).sum :=
    List.single_le_sum (by simp) _ (List.mem_map.2 ⟨t, ht, rfl⟩)
  rw [wt, wt]
  simp only [List.map_cons, List.sum_cons]
  rw [wt]
  simp only [List.map_cons, List.map_nil, List.sum_cons, List.sum_nil]
  rw [wt]
  omega

theorem split_ev (len : Expr n F → ℕ) (limit : ℕ) : ∀ (k : ℕ) (e : Expr n F), wt e ≤ k → ∀ name,
    EvE Err.outOfFuel (fun f => split len limit f name e) (fun _ => True) := by
  intro k
  induction k using Nat.strong_induction_on with
  | _ k ih =>
    intro e hk name
    have ih' : ∀ e', wt e' < wt e → ∀ name, EvE Err.outOfFuel (fun f => split len limit f name e') (fun _ => True) :=
      fun e' h name => ih (wt e') (by omega) e' le_rfl name
    have hsum : ∀ (es : List (Expr n F)) (rhs : Rhs n F), (∀ e' ∈ es, wt e' < wt e) →
        EvE Err.outOfFuel (fun f => (do
          let r ← loop (split len limit f) name 0 es
          .ok (⟨name, rhs⟩ :: r) : Except Err (List (Line n F)))) (fun _ => True) := by
      intro es rhs he
      exact EvE.bind (loop_ev (rec := fun f => split len limit f) name es 0 fun e' h' nm' => ih' e' (he e' h') nm') fun r _ => .ok _ trivial
    by_cases hl : len e ≤ limit
    · cases e with
      | num c => exact EvE.shift (EvE.err Err.attribute (by decide)) (fun f => by rw [split])
      | poly ts => exact EvE.shift (EvE.ok [⟨name, .whole (.poly ts)⟩] trivial) (fun f => by simp only [split, if_pos hl])
      | sum l => exact EvE.shift (EvE.ok [⟨name, .whole (.sum l)⟩] trivial) (fun f => by simp only [split, if_pos hl])
      | prod l => exact EvE.shift (EvE.ok [⟨name, .whole (.prod l)⟩] trivial) (fun f => by simp only [split, if_pos hl])
      | prule ts => exact EvE.shift (EvE.ok [⟨name, .whole (.prule ts)⟩] trivial) (fun f => by simp only [split, if_pos hl])
      | epoly ts x => exact EvE.shift (EvE.ok [⟨name, .whole (.epoly ts x)⟩] trivial) (fun f => by simp only [split, if_pos hl])
      | lpoly ts => exact EvE.shift (EvE.ok [⟨name, .whole (.lpoly ts)⟩] trivial) (fun f => by simp only [split, if_pos hl])
      | pow b x => exact EvE.shift (EvE.ok [⟨name, .whole (.pow b x)⟩] trivial) (fun f => by simp only [split, if_pos hl])
      | log a => exact EvE.shift (EvE.ok [⟨name, .whole (.log a)⟩] trivial) (fun f => by simp only [split, if_pos hl])
      | exp a => exact EvE.shift (EvE.ok [⟨name, .whole (.exp a)⟩] trivial) (fun f => by simp only [split, if_pos hl])
    · cases e with
      | num c => exact EvE.shift (EvE.err Err.attribute (by decide)) (fun f => by rw [split])
      | poly ts =>
        rcases ts with _ | ⟨t, _ | ⟨t', ts⟩⟩
        · exact EvE.shift (hsum (chunks []) (.sumOf ((List.range (chunkCount 0)).map (part name))) (by simp [chunks, chunkCount, chunkSize]))
            (fun f => by simp only [split, if_neg hl, List.length_nil])
        · refine EvE.shift (f := fun f => (do
            let r ← split len limit f (part name 0) t.2
            .ok (⟨name, .times (part name 0) t.1⟩ :: r) : Except Err (List (Line n F)))) ?_ (fun f => by simp only [split, if_neg hl])
          refine EvE.bind (ih' t.2 ?_ _) fun r _ => .ok _ trivial
          rw [wt]; simp; omega
        · exact EvE.shift (hsum (chunks (t :: t' :: ts)) (.sumOf ((List.range (chunkCount (t :: t' :: ts).length)).map (part name)))
            (fun e' he' => wt_chunk (by simp) he')) (fun f => by simp only [split, if_neg hl])
      | sum l =>
        exact EvE.shift (hsum l (.sumOf ((List.range l.length).map (part name))) (fun e' he' => by
          have := wt_mem he'; rw [wt]; omega)) (fun f => by simp only [split, if_neg hl])
      | prod l =>
        exact EvE.shift (hsum l (.prodOf ((List.range l.length).map (part name))) (fun e' he' => by
          have := wt_mem he'; rw [wt]; omega)) (fun f => by simp only [split, if_neg hl])
      | prule terms =>
        exact EvE.shift (hsum (toSum terms) (.sumOf ((List.range (toSum terms).length).map (part name))) (fun e' he' => wt_toSum he'))
          (fun f => by simp only [split, if_neg hl])
      | epoly ts x => exact EvE.shift (EvE.ok [⟨name, .whole (.epoly ts x)⟩] trivial) (fun f => by simp only [split, if_neg hl])
      | lpoly ts => exact EvE.shift (EvE.ok [⟨name, .whole (.lpoly ts)⟩] trivial) (fun f => by simp only [split, if_neg hl])
      | pow b x => exact EvE.shift (EvE.ok [⟨name, .whole (.pow b x)⟩] trivial) (fun f => by simp only [split, if_neg hl])
      | log a => exact EvE.shift (EvE.ok [⟨name, .whole (.log a)⟩] trivial) (fun f => by simp only [split, if_neg hl])
      | exp a => exact EvE.shift (EvE.ok [⟨name, .whole (.exp a)⟩] trivial) (fun f => by simp only [split, if_neg hl])

theorem loop_attr {rec : Name → Expr n F → Except Err (List (Line n F))} (name : Name) : ∀ (es : List (Expr n F)) (i : ℕ),
    (∀ e ∈ es, ∀ nm', rec nm' e ≠ .error .attribute) → loop rec name i es ≠ .error .attribute
  | [], i, _ => by simp [loop]
  | e :: es, i, h => by
    have h1 := h e (by simp) (part name i)
    have h2 := loop_attr name es (i + 1) fun e he => h e (by simp [he])
    simp only [loop, Bind.bind, Except.bind]
    rcases hr : rec (part name i) e with e1 | a
    · rw [hr] at h1; simpa using h1
    · rcases hl : loop rec name (i + 1) es with e2 | b
      · rw [hl] at h2; simpa using h2
      · simp

theorem bind_attr {x : Except Err (List (Line n F))} {f : List (Line n F) → List (Line n F)} (h : x ≠ .error .attribute) :
    (x >>= fun r => .ok (f r)) ≠ .error .attribute := by
  cases x with
  | error e => simpa [Bind.bind, Except.bind] using h
  | ok a => simp [Bind.bind, Except.bind]

theorem printable_chunk {len : Expr n F → ℕ} {limit : ℕ} {ts : List (Expo n × Expr n F)} (h : Printable len limit (.poly ts))
    {e : Expr n F} (he : e ∈ chunks ts) : Printable len limit e := by
  unfold chunks at he
  obtain ⟨i, _, rfl⟩ := List.mem_map.1 he
  have hsub : ∀ t ∈ (ts.drop (i * chunkSize ts.length)).take (chunkSize ts.length), t ∈ ts :=
    fun t ht => List.mem_of_mem_drop (List.mem_of_mem_take ht)
  cases h with
  | poly _ h1 h2 => exact .poly _ (fun t ht => h1 t (hsub t ht)) (fun t ht => h2 t (hsub t ht))

theorem printable_toSum {len : Expr n F → ℕ} {limit : ℕ} {terms : List (Int × List (Expr n F))} (h : Printable len limit (.prule terms))
    {e : Expr n F} (he : e ∈ toSum terms) : Printable len limit e := by
  unfold toSum at he
  obtain ⟨t, ht, rfl⟩ := List.mem_map.1 he
  cases h with
  | prule _ h1 h2 =>
    refine .prod _ fun e he => ?_
    rcases List.mem_cons.1 he with rfl | he
    · refine .poly _ ?_ ?_
      · intro u hu c _
        simp only [List.mem_singleton] at hu
        subst hu; exact h1 t ht
      · intro u hu hc
        simp only [List.mem_singleton] at hu
        subst hu; exact absurd rfl (hc _)
    · exact h2 t ht e he

theorem split_attr {len : Expr n F → ℕ} {limit : ℕ} : ∀ (fuel : ℕ) (name : Name) (e : Expr n F), Printable len limit e →
    split len limit fuel name e ≠ .error .attribute
  | 0, _, _, _ => by simp [split]
  | fuel + 1, name, e, h => by
    have ih := split_attr (len := len) (limit := limit) fuel
    by_cases hl : len e ≤ limit
    · cases h <;> simp only [split, if_pos hl] <;> simp
    · cases h with
      | poly ts h1 h2 =>
        rcases ts with _ | ⟨t, _ | ⟨t', ts⟩⟩
        · simp only [split, if_neg hl]
          exact bind_attr (loop_attr name _ 0 fun e he nm' => ih nm' e (printable_chunk (.poly _ h1 h2) he))
        · simp only [split, if_neg hl]
          refine bind_attr (ih _ _ (h2 t (by simp) ?_))
          intro c hc
          exact hl (h1 t (by simp) c hc)
        · simp only [split, if_neg hl]
          exact bind_attr (loop_attr name _ 0 fun e he nm' => ih nm' e (printable_chunk (.poly _ h1 h2) he))
      | sum l h1 =>
        simp only [split, if_neg hl]
        exact bind_attr (loop_attr name _ 0 fun e he nm' => ih nm' e (h1 e he))
      | prod l h1 =>
        simp only [split, if_neg hl]
        exact bind_attr (loop_attr name _ 0 fun e he nm' => ih nm' e (h1 e he))
      | prule terms h1 h2 =>
        simp only [split, if_neg hl]
        exact bind_attr (loop_attr name _ 0 fun e he nm' => ih nm' e (printable_toSum (.prule _ h1 h2) he))
      | _ => simp only [split, if_neg hl]; simp

end FormDef
end SecDec
