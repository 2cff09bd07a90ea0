import Verif.Proof.DistText
import Verif.Proof.SeriesFmt
import Mathlib.Algebra.BigOperators.Ring.Finset
/-
The nested series which is built from the terms of a result, and its text.
-/
namespace SecDec
namespace SeriesText
variable {R : Type} {nv : R → ℝ} {env : Str → ℂ} {ω : ℂ → ℂ}

/-- the order term -/
noncomputable def orderVal (env : Str → ℂ) (ω : ℂ → ℂ) (p : Str) : Option ℤ → ℂ
  | none => 0
  | some k => ω (env p ^ k)

mutual
/-- the value of a Python object -/
noncomputable def pvalue (nv : R → ℝ) (env : Str → ℂ) (ω : ℂ → ℂ) (mean : Bool) : PVal R → ℂ
  | .float r => if mean then (nv r : ℂ) else 0
  | .complex re im => if mean then (nv re : ℂ) + (nv im : ℂ) * Complex.I else 0
  | .pair m s => if mean then pvalue nv env ω true m else pvalue nv env ω true s
  | .ser terms var order =>
    pvalues nv env ω mean (varName var) terms + orderVal env ω (varName var) order
noncomputable def pvalues (nv : R → ℝ) (env : Str → ℂ) (ω : ℂ → ℂ) (mean : Bool) (p : Str) : List (PVal R × ℤ) → ℂ
  | [] => 0
  | (v, k) :: ts => pvalue nv env ω mean v * env p ^ k + pvalues nv env ω mean p ts
end

/-- a plain number -/
def IsNum : PVal R → Prop
  | .float _ => True
  | .complex _ _ => True
  | _ => False

mutual
/-- the objects which are read -/
def PWF : PVal R → Prop
  | .float _ => True
  | .complex _ _ => True
  | .pair m s => IsNum m ∧ IsNum s
  | .ser terms var _ => terms ≠ [] ∧ (∃ p, var = some p) ∧ PWFs terms
def PWFs : List (PVal R × ℤ) → Prop
  | [] => True
  | (v, _) :: ts => PWF v ∧ PWFs ts
end

theorem isNum_atom {v : PVal R} (h : IsNum v) : ∃ N, ∀ n, N ≤ n → RAtom nv env ω n (fmtValue true v) (pvalue nv env ω true v) := by
  cases v with
  | float r => simpa [numPy, numVal, pvalue] using num_atom (nv := nv) (env := env) (ω := ω) (CNum.real r)
  | complex a b => simpa [numPy, numVal, pvalue] using num_atom (nv := nv) (env := env) (ω := ω) (CNum.cplx a b)
  | pair _ _ => exact absurd h (by simp [IsNum])
  | ser _ _ _ => exact absurd h (by simp [IsNum])

/-- the values of the terms -/
noncomputable def ptermVals (nv : R → ℝ) (env : Str → ℂ) (ω : ℂ → ℂ) (mean : Bool) (p : Str) (ts : List (PVal R × ℤ)) : List ℂ :=
  ts.map (fun t => pvalue nv env ω mean t.1 * env p ^ t.2)

theorem ptermVals_sum (mean : Bool) (p : Str) (ts : List (PVal R × ℤ)) : (ptermVals nv env ω mean p ts).sum = pvalues nv env ω mean p ts := by
  induction ts with
  | nil => simp [ptermVals, pvalues]
  | cons t ts ih =>
    obtain ⟨v, k⟩ := t
    rw [pvalues, ← ih]; simp [ptermVals]

theorem fmtTerms_len (mean : Bool) (var : Option Str) : ∀ ts : List (PVal R × ℤ), (fmtTerms mean var ts).length = ts.length
  | [] => by simp [fmtTerms]
  | (v, k) :: ts => by simp [fmtTerms, fmtTerms_len mean var ts]

theorem pseries_sum (mean : Bool) (terms : List (PVal R × ℤ)) (p : Str) (order : Option ℤ) (hne : terms ≠ [])
    (ht : ∃ N, ∀ n, N ≤ n → List.Forall₂ (RProd nv env ω n) (fmtTerms mean (some p) terms) (ptermVals nv env ω mean p terms)) :
    ∃ N, ∀ n, N ≤ n → ∀ rest, EndSum rest →
      evalSum nv env ω n (fmtSeries mean (.ser terms (some p) order) ++ rest) =
        some (pvalue nv env ω mean (.ser terms (some p) order), rest) := by
  obtain ⟨N, hN⟩ := ht
  refine ⟨N + terms.length + 10, fun n hn rest hr => ?_⟩
  obtain ⟨n, rfl⟩ : ∃ k, n = k + 1 := ⟨n - 1, by omega⟩
  have hall := hN n (by omega)
  rw [fmtSeries, pvalue.eq_4, ← ptermVals_sum, show varName (some p) = p from rfl]
  have hlen := fmtTerms_len mean (some p) terms
  rcases hL : fmtTerms mean (some p) terms with _ | ⟨t, L⟩
  · rw [hL] at hlen
    exact absurd (List.length_eq_zero_iff.1 hlen.symm) hne
  · rw [hL] at hall hlen
    rcases hV : ptermVals nv env ω mean p terms with _ | ⟨w, vs⟩
    · rw [hV] at hall; cases hall
    · rw [hV] at hall
      obtain ⟨h1, h2⟩ := List.forall₂_cons.1 hall
      rw [joinPlus_cons]
      cases order with
      | none =>
        simp only [fmtOrder, orderVal, List.append_nil, List.append_assoc, add_zero, List.sum_cons]
        exact sum_of h1 h2 (by simp at hlen; omega) rest hr
      | some k =>
        obtain ⟨o, ho, hp⟩ := order_atom (nv := nv) (env := env) (ω := ω) (R := R) p k n (by omega)
        rw [ho, orderVal]
        have h3 : List.Forall₂ (RProd nv env ω n) (L ++ [o]) (vs ++ [ω (env p ^ k)]) :=
          List.rel_append h2 (List.Forall₂.cons hp .nil)
        have := sum_of h1 h3 (by simp at hlen ⊢; omega) rest hr
        rw [List.flatMap_append] at this
        simp only [List.flatMap_cons, List.flatMap_nil, List.append_nil, List.append_assoc, List.sum_append, List.sum_singleton, List.sum_cons] at this ⊢
        rw [this]
        simp only [List.sum_nil, add_zero, add_assoc]

mutual
theorem pval_atom : ∀ (v : PVal R) (mean : Bool), PWF v → ∃ N, ∀ n, N ≤ n → RAtom nv env ω n (fmtValue mean v) (pvalue nv env ω mean v)
  | .float r, mean, _ => by
    cases mean with
    | true => exact isNum_atom (v := .float r) trivial
    | false => exact ⟨0, fun n _ => by rw [pvalue]; exact zero_atom (.real r) n⟩
  | .complex a b, mean, _ => by
    cases mean with
    | true => exact isNum_atom (v := .complex a b) trivial
    | false => exact ⟨0, fun n _ => by rw [pvalue]; exact zero_atom (.cplx a b) n⟩
  | .pair m s, mean, h => by
    rw [PWF] at h
    rw [pvalue, fmtValue]
    cases mean with
    | true => exact isNum_atom h.1
    | false => exact isNum_atom h.2
  | .ser terms var order, mean, h => by
    rw [PWF] at h
    obtain ⟨h1, ⟨p, rfl⟩, h3⟩ := h
    obtain ⟨N, hN⟩ := pseries_sum mean terms p order h1 (pterms_prod terms mean p h3)
    refine ⟨N, fun n hn rest => ?_⟩
    have e1 := hN n hn (.rpar :: rest) trivial
    have e2 : fmtValue mean (.ser terms (some p) order) ++ rest = .lpar :: (fmtSeries mean (.ser terms (some p) order) ++ .rpar :: rest) := by
      rw [fmtValue, fmtSeries]; simp
    rw [e2, evalAtom, e1]
theorem pterms_prod : ∀ (ts : List (PVal R × ℤ)) (mean : Bool) (p : Str), PWFs ts →
    ∃ N, ∀ n, N ≤ n → List.Forall₂ (RProd nv env ω n) (fmtTerms mean (some p) ts) (ptermVals nv env ω mean p ts)
  | [], mean, p, _ => ⟨0, fun n _ => by rw [fmtTerms]; exact .nil⟩
  | (v, k) :: ts, mean, p, h => by
    rw [PWFs] at h
    obtain ⟨N, hN⟩ := pval_atom v mean h.1
    obtain ⟨M, hM⟩ := pterms_prod ts mean p h.2
    refine ⟨max N M, fun n hn => ?_⟩
    rw [fmtTerms]
    exact .cons ((hN n (by omega)).term (some p) p k (Or.inr rfl)) (hM n (by omega))
end

/-- The text of a series has its value. -/
theorem means_fmt (mean : Bool) (terms : List (PVal R × ℤ)) (var : Option Str) (order : Option ℤ) (h : PWF (.ser terms var order)) :
    Means nv env ω (fmtSeries mean (.ser terms var order)) (pvalue nv env ω mean (.ser terms var order)) := by
  rw [PWF] at h
  obtain ⟨h1, ⟨p, rfl⟩, h3⟩ := h
  obtain ⟨N, hN⟩ := pseries_sum mean terms p order h1 (pterms_prod (nv := nv) (env := env) (ω := ω) terms mean p h3)
  exact ⟨N, fun n hn => by simpa using hN n hn [] trivial⟩

/-! ### Grouping -/

theorem addGroup_spec (k : ℤ) (e : Entry R) : ∀ (co : List (ℤ × List (Entry R))), (co.map Prod.fst).Nodup →
    ((addGroup k e co).map Prod.fst).Nodup ∧ (∀ j, j ∈ (addGroup k e co).map Prod.fst ↔ j = k ∨ j ∈ co.map Prod.fst) ∧
    ∀ g ∈ addGroup k e co, (g.1 ≠ k ∧ g ∈ co) ∨ (g.1 = k ∧ ((k ∉ co.map Prod.fst ∧ g.2 = [e]) ∨ ∃ l, (k, l) ∈ co ∧ g.2 = l ++ [e]))
  | [], _ => by simp [addGroup]
  | g :: co, h => by
    simp only [List.map_cons, List.nodup_cons] at h
    obtain ⟨i1, i2, i3⟩ := addGroup_spec k e co h.2
    unfold addGroup
    by_cases hg : g.1 = k
    · rw [if_pos hg]
      refine ⟨by rw [List.map_cons, List.nodup_cons]; exact ⟨by rw [← hg]; exact h.1, h.2⟩, ?_, ?_⟩
      · intro j; simp only [List.map_cons, List.mem_cons, hg]; tauto
      · intro g' hg'
        rcases List.mem_cons.1 hg' with rfl | hg'
        · exact Or.inr ⟨rfl, Or.inr ⟨g.2, by rw [← hg]; simp, rfl⟩⟩
        · exact Or.inl ⟨fun hc => h.1 (by rw [hg, ← hc]; exact List.mem_map_of_mem hg'), List.mem_cons_of_mem _ hg'⟩
    · rw [if_neg hg]
      refine ⟨?_, ?_, ?_⟩
      · rw [List.map_cons, List.nodup_cons]
        refine ⟨fun hc => ?_, i1⟩
        rcases (i2 _).1 hc with hc | hc
        · exact hg hc
        · exact h.1 hc
      · intro j
        rw [List.map_cons, List.mem_cons, i2, List.map_cons, List.mem_cons]; tauto
      · intro g' hg'
        rcases List.mem_cons.1 hg' with rfl | hg'
        · exact Or.inl ⟨hg, by simp⟩
        · rcases i3 g' hg' with ⟨a, b⟩ | ⟨a, b | ⟨l, b, c⟩⟩
          · exact Or.inl ⟨a, List.mem_cons_of_mem _ b⟩
          · exact Or.inr ⟨a, Or.inl ⟨by rw [List.map_cons, List.mem_cons, not_or]; exact ⟨fun hc => hg hc.symm, b.1⟩, b.2⟩⟩
          · exact Or.inr ⟨a, Or.inr ⟨l, List.mem_cons_of_mem _ b, c⟩⟩

/-- the power of an entry in the variable `i` -/
def keyAt (i : ℕ) (e : Entry R) : ℤ := (e.1.drop i).headD 0

theorem keyAt_get {i : ℕ} {e : Entry R} (h : i < e.1.length) : e.1[i]? = some (keyAt i e) := by
  unfold keyAt
  rw [List.drop_eq_getElem_cons h, List.getElem?_eq_getElem h]; rfl

/-- The groups are the entries with the same power. -/
theorem groups_spec (i : ℕ) : ∀ (l : List (Entry R)), (∀ e ∈ l, i < e.1.length) → ∃ co, groups i l = some co ∧ (co.map Prod.fst).Nodup ∧
    (∀ k, k ∈ co.map Prod.fst ↔ k ∈ l.map (keyAt i)) ∧ ∀ g ∈ co, g.2 = l.filter (fun e => keyAt i e = g.1) := by
  intro l
  induction l using List.reverseRecOn with
  | nil => intro _; exact ⟨[], rfl, by simp, by simp, by simp⟩
  | append_singleton l e ih =>
    intro h
    obtain ⟨co, h1, h2, h3, h4⟩ := ih (fun x hx => h x (by simp [hx]))
    obtain ⟨a1, a2, a3⟩ := addGroup_spec (keyAt i e) e co h2
    refine ⟨addGroup (keyAt i e) e co, ?_, a1, ?_, ?_⟩
    · unfold groups at h1 ⊢
      rw [List.foldlM_append, h1]
      rw [Option.bind_eq_bind, Option.bind_some, List.foldlM_cons, keyAt_get (h e (by simp))]; rfl
    · intro k
      rw [a2, h3, List.map_append, List.mem_append, List.map_singleton, List.mem_singleton]; tauto
    · intro g hg
      rcases a3 g hg with ⟨b, c⟩ | ⟨b, c | ⟨l', c, d⟩⟩
      · rw [h4 g c, List.filter_append, List.filter_cons_of_neg (by simpa using fun h => b h.symm)]; simp
      · rw [c.2, List.filter_append, List.filter_cons_of_pos (by simp [b])]
        have : l.filter (fun e => decide (keyAt i e = g.1)) = [] := by
          rw [List.filter_eq_nil_iff]
          intro x hx hc
          refine c.1 ((h3 _).2 ?_)
          rw [← b, ← of_decide_eq_true hc]
          exact List.mem_map_of_mem hx
        rw [this]; simp
      · rw [d, List.filter_append, List.filter_cons_of_pos (by simp [b]), b, show l' = _ from h4 _ c]; simp

/-- the value of an entry -/
noncomputable def entVal (nv : R → ℝ) (mean : Bool) : Option (PVal R) × Option (PVal R) → ℂ
  | (some m, some s) => if mean then pvalue nv (fun _ => 0) (fun _ => 0) true m else pvalue nv (fun _ => 0) (fun _ => 0) true s
  | _ => 0

theorem pvalue_num {v : PVal R} (h : IsNum v) (mean : Bool) (env' : Str → ℂ) (ω' : ℂ → ℂ) : pvalue nv env ω mean v = pvalue nv env' ω' mean v := by
  cases v with
  | float _ => simp only [pvalue]
  | complex _ _ => simp only [pvalue]
  | pair _ _ => exact h.elim
  | ser _ _ _ => exact h.elim

theorem max?_congr {l l' : List ℤ} (h : ∀ k, k ∈ l ↔ k ∈ l') : l.max? = l'.max? := by
  rcases hm : l.max? with _ | m
  · rw [List.max?_eq_none_iff] at hm
    subst hm
    symm; rw [List.max?_eq_none_iff]
    exact List.eq_nil_iff_forall_not_mem.2 (fun k hk => by simpa using (h k).2 hk)
  · symm
    rw [List.max?_eq_some_iff] at hm ⊢
    exact ⟨(h m).1 hm.1, fun b hb => hm.2 b ((h b).2 hb)⟩

theorem mapM_nest {vs : List Str} {i : ℕ} {V : ℤ → ℂ} {nv : R → ℝ} {mean : Bool} :
    ∀ (co : List (ℤ × List (Entry R))) (W : ℤ → Bool → (R → ℝ) → (Str → ℂ) → (ℂ → ℂ) → ℂ),
    (∀ g ∈ co, ∃ pv, nest vs i g.2 = some pv ∧ PWF pv ∧ ∀ mean nv env ω, pvalue nv env ω mean pv = W g.1 mean nv env ω) →
    ∃ terms, co.mapM (fun g => (nest vs i g.2).map (fun c => (c, g.1))) = some terms ∧ PWFs terms ∧ terms.length = co.length ∧
      ∀ mean nv env ω p, pvalues nv env ω mean p terms = (co.map (fun g => W g.1 mean nv env ω * env p ^ g.1)).sum
  | [], W, _ => ⟨[], rfl, by simp [PWFs], rfl, by simp [pvalues]⟩
  | g :: co, W, h => by
    obtain ⟨pv, e1, e2, e3⟩ := h g (by simp)
    obtain ⟨terms, f1, f2, f3, f4⟩ := mapM_nest (V := V) (nv := nv) (mean := mean) co W (fun g hg => h g (List.mem_cons_of_mem _ hg))
    refine ⟨(pv, g.1) :: terms, ?_, ?_, by simp [f3], ?_⟩
    · rw [List.mapM_cons, e1, f1]; rfl
    · rw [PWFs]; exact ⟨e2, f2⟩
    · intro mean nv env ω p
      rw [pvalues, e3, f4, List.map_cons, List.sum_cons]

theorem nest_spec : ∀ (vs : List Str) (i : ℕ) (l : List (Entry R)), l ≠ [] → (∀ e ∈ l, e.1.length = i + vs.length) →
    (l.map (fun e => e.1.drop i)).Nodup → (∀ e ∈ l, ∃ m s, e.2 = (some m, some s) ∧ IsNum m ∧ IsNum s) →
    ∃ pv, nest vs i l = some pv ∧ PWF pv ∧ (vs ≠ [] → ∃ terms order, pv = .ser terms vs.head? order) ∧ ∀ mean nv env ω,
      pvalue nv env ω mean pv = truncated env ω vs (l.map (fun e => (e.1.drop i, entVal nv mean e.2)))
  | [], i, l, hne, hlen, hnd, hnum => by
    rcases l with _ | ⟨e, l⟩
    · exact absurd rfl hne
    · have hl : l = [] := by
        rcases l with _ | ⟨e', l⟩
        · rfl
        · exfalso
          simp only [List.map_cons, List.nodup_cons, List.mem_cons, not_or] at hnd
          refine hnd.1.1 ?_
          rw [List.drop_eq_nil_of_le (by rw [hlen e (by simp)]; simp), List.drop_eq_nil_of_le (by rw [hlen e' (by simp)]; simp)]
      subst hl
      obtain ⟨m, s, he, hm, hs⟩ := hnum e (by simp)
      obtain ⟨ps, x⟩ := e
      dsimp only at he
      subst he
      refine ⟨.pair m s, rfl, by rw [PWF]; exact ⟨hm, hs⟩, by simp, ?_⟩
      intro mean nv env ω
      rw [pvalue, truncated]
      simp only [List.map_cons, List.map_nil, List.sum_cons, List.sum_nil, add_zero, entVal]
      rw [pvalue_num hm, pvalue_num hs]
  | v :: vs, i, l, hne, hlen, hnd, hnum => by
    have hi : ∀ e ∈ l, i < e.1.length := fun e he => by rw [hlen e he]; simp
    obtain ⟨co, c1, c2, c3, c4⟩ := groups_spec i l hi
    have hdrop : ∀ e ∈ l, e.1.drop i = keyAt i e :: e.1.drop (i + 1) := by
      intro e he
      have := hi e he
      unfold keyAt
      rw [List.drop_eq_getElem_cons this]; rfl
    obtain ⟨terms, t1, t2, t3, t4⟩ := mapM_nest (V := fun _ => 0) (nv := fun _ => 0) (mean := true) (vs := vs) (i := i + 1) co
      (fun k mean nv env ω => truncated env ω vs ((l.filter (fun e => keyAt i e = k)).map (fun e => (e.1.drop (i + 1), entVal nv mean e.2))))
      (by
        intro g hg
        have hg2 := c4 g hg
        have hsub : ∀ e ∈ g.2, e ∈ l ∧ keyAt i e = g.1 := by
          intro e he
          rw [hg2, List.mem_filter] at he
          exact ⟨he.1, of_decide_eq_true he.2⟩
        obtain ⟨pv, p1, p2, _, p4⟩ := nest_spec vs (i + 1) g.2
          (by
            obtain ⟨e, he, hk⟩ := List.mem_map.1 ((c3 g.1).1 (List.mem_map_of_mem hg))
            rw [hg2]
            exact List.ne_nil_of_mem (List.mem_filter.2 ⟨he, by simp [hk]⟩))
          (fun e he => by rw [hlen e (hsub e he).1]; simp; omega)
          (by
            have h1 : (g.2.map (fun e => e.1.drop i)).Nodup := by
              rw [hg2]; exact hnd.sublist (List.filter_sublist.map _)
            have h2 : g.2.map (fun e => e.1.drop i) = (g.2.map (fun e => e.1.drop (i + 1))).map (fun q => g.1 :: q) := by
              rw [List.map_map]
              refine List.map_congr_left fun e he => ?_
              rw [hdrop e (hsub e he).1, (hsub e he).2]; rfl
            rw [h2] at h1
            exact h1.of_map _)
          (fun e he => hnum e (hsub e he).1)
        refine ⟨pv, p1, p2, fun mean nv env ω => ?_⟩
        rw [p4, hg2])
    have hco : co ≠ [] := by
      rintro rfl
      rcases l with _ | ⟨e, l⟩
      · exact hne rfl
      · have := (c3 (keyAt i e)).2 (by simp)
        simp at this
    obtain ⟨top, htop⟩ : ∃ top, (co.map Prod.fst).max? = some top := by
      rcases h : (co.map Prod.fst).max? with _ | t
      · rw [List.max?_eq_none_iff] at h; simp at h; exact absurd h hco
      · exact ⟨t, rfl⟩
    refine ⟨.ser terms (some v) (some (top + 1)), ?_, ?_, fun _ => ⟨_, _, rfl⟩, ?_⟩
    · rw [nest, c1]
      show (List.mapM (m := Option) _ co >>= _) = _
      rw [t1]
      show ((co.map Prod.fst).max? >>= _) = _
      rw [htop]; rfl
    · rw [PWF]
      exact ⟨fun h => hco (List.length_eq_zero_iff.1 (by rw [← t3, h]; rfl)), ⟨v, rfl⟩, t2⟩
    · intro mean nv env ω
      have hkeys : (l.map (fun e => (e.1.drop i, entVal nv mean e.2))).map (fun e => e.1.headD 0) = l.map (keyAt i) := by
        rw [List.map_map]; rfl
      rw [pvalue, truncated, t4, hkeys, show varName (some v) = v from rfl]
      congr 1
      · have e1 := List.sum_toFinset (fun k : ℤ => truncated env ω vs ((l.filter (fun e => keyAt i e = k)).map (fun e => (e.1.drop (i + 1), entVal nv mean e.2))) * env v ^ k) c2
        rw [List.map_map] at e1
        refine Eq.trans e1.symm ?_
        refine Finset.sum_congr ?_ ?_
        · ext k; rw [List.mem_toFinset, List.mem_toFinset, c3]
        · intro k _
          congr 2
          rw [List.filter_map, List.map_map]
          have : (l.filter ((fun e : List ℤ × ℂ => decide (e.1.headD 0 = k)) ∘ fun e => (e.1.drop i, entVal nv mean e.2))) = l.filter (fun e => keyAt i e = k) := rfl
          rw [this]
          refine List.map_congr_left fun e he => ?_
          have := (List.mem_filter.1 he).1
          simp only [Function.comp]
          rw [hdrop e this]; rfl
      · rw [orderVal]
        rw [← max?_congr c3, htop]; rfl

/-- The text of the conversion. -/
theorem truncated_zero (env : Str → ℂ) : ∀ (rs : List Str) (l : List (List ℤ × ℂ)), (∀ e ∈ l, e.1.length = rs.length) →
    truncated env (fun _ => 0) rs l = (l.map (fun e => e.2 * monomial env rs e.1)).sum
  | [], l, h => by
    rw [truncated]
    congr 1
    exact List.map_congr_left fun e _ => by simp [monomial]
  | r :: rs, l, h => by
    rw [truncated, add_zero]
    have ih : ∀ k, truncated env (fun _ => 0) rs ((l.filter (fun e => e.1.headD 0 = k)).map (fun e => (e.1.tail, e.2))) =
        ((l.filter (fun e => e.1.headD 0 = k)).map (fun e => e.2 * monomial env rs e.1.tail)).sum := by
      intro k
      rw [truncated_zero env rs _ (by
        intro e he
        obtain ⟨e', he', rfl⟩ := List.mem_map.1 he
        simp [h e' (List.mem_filter.1 he').1]), List.map_map]
      rfl
    simp only [ih]
    clear ih
    have hterm : ∀ e ∈ l, e.2 * monomial env (r :: rs) e.1 = e.2 * monomial env rs e.1.tail * env r ^ (e.1.headD 0) := by
      intro e he
      rcases hp : e.1 with _ | ⟨p, ps⟩
      · have := h e he; rw [hp] at this; simp at this
      · simp only [monomial, List.tail_cons, List.headD_cons]; ring
    rw [List.map_congr_left hterm]
    clear hterm
    generalize hS : (l.map (fun e => e.1.headD 0)).toFinset = S
    have hmem : ∀ e ∈ l, e.1.headD 0 ∈ S := fun e he => by rw [← hS, List.mem_toFinset]; exact List.mem_map_of_mem he
    clear hS h
    induction l with
    | nil => simp
    | cons e l ih =>
      rw [List.map_cons, List.sum_cons, ← ih (fun x hx => hmem x (List.mem_cons_of_mem _ hx))]
      rw [← Finset.sum_erase_add S _ (hmem e (by simp)), ← Finset.sum_erase_add S _ (hmem e (by simp)), List.filter_cons_of_pos (by simp)]
      rw [List.map_cons, List.sum_cons]
      have : ∀ k ∈ S.erase (e.1.headD 0), (((e :: l).filter (fun e => e.1.headD 0 = k)).map (fun e => e.2 * monomial env rs e.1.tail)).sum * env r ^ k =
          ((l.filter (fun e => e.1.headD 0 = k)).map (fun e => e.2 * monomial env rs e.1.tail)).sum * env r ^ k := by
        intro k hk
        rw [List.filter_cons_of_neg (fun h => (Finset.mem_erase.1 hk).1 (of_decide_eq_true h).symm)]
      rw [Finset.sum_congr rfl this]
      ring

end SeriesText
end SecDec
