import Verif.Proof.SeriesText
/-
The table of a series.
-/
namespace SecDec
namespace SeriesText
variable {R : Type}

theorem lookup_setKey (key k : List ℤ) (v : JNum R × JNum R) : ∀ l, (setKey key v l).lookup k = if k = key then some v else l.lookup k
  | [] => by
    by_cases h : k = key
    · simp [setKey, List.lookup, h]
    · have : (k == key) = false := by simpa using h
      simp [setKey, List.lookup, h, this]
  | e :: l => by
    rw [setKey]
    by_cases he : e.1 = key
    · rw [if_pos he]
      by_cases h : k = key
      · simp [List.lookup, h]
      · have h1 : (k == key) = false := by simpa using h
        have h2 : (k == e.1) = false := by rw [he]; exact h1
        rw [List.lookup_cons, h1, if_neg h, List.lookup_cons, h2]
    · rw [if_neg he]
      by_cases h : k = e.1
      · have h1 : (k == e.1) = true := by simpa using h
        rw [List.lookup_cons, h1, List.lookup_cons, h1, if_neg (by rw [h]; exact he)]
      · have h1 : (k == e.1) = false := by simpa using h
        rw [List.lookup_cons, h1, List.lookup_cons, h1]
        exact lookup_setKey key k v l

theorem nodup_setKey (key : List ℤ) (v : JNum R × JNum R) : ∀ l, (l.map Prod.fst).Nodup → ((setKey key v l).map Prod.fst).Nodup ∧
    ∀ k, k ∈ (setKey key v l).map Prod.fst → k = key ∨ k ∈ l.map Prod.fst
  | [], _ => by simp [setKey]
  | e :: l, h => by
    rw [List.map_cons, List.nodup_cons] at h
    rw [setKey]
    by_cases he : e.1 = key
    · rw [if_pos he]
      refine ⟨by rw [List.map_cons, List.nodup_cons]; rw [he] at h; exact h, fun k hk => ?_⟩
      simp only [List.map_cons, List.mem_cons] at hk ⊢
      exact hk.imp id Or.inr
    · rw [if_neg he]
      obtain ⟨h1, h2⟩ := nodup_setKey key v l h.2
      refine ⟨?_, fun k hk => ?_⟩
      · rw [List.map_cons, List.nodup_cons]
        refine ⟨fun hm => ?_, h1⟩
        rcases h2 _ hm with h' | h'
        · exact he h'
        · exact h.1 h'
      · simp only [List.map_cons, List.mem_cons] at hk ⊢
        rcases hk with hk | hk
        · exact Or.inr (Or.inl hk)
        · rcases h2 k hk with h' | h'
          · exact Or.inl h'
          · exact Or.inr (Or.inr h')

/-- coefficients of a list -/
def coefs (i : ℤ) (vs : List (CVal R)) (k : ℤ) (ks : List ℤ) : Option (CVal R) :=
  if i ≤ k ∧ k < i + vs.length then (vs[(k - i).toNat]?).bind (fun v => coefficient v ks) else none

theorem coefs_cons (i : ℤ) (v : CVal R) (vs : List (CVal R)) (k : ℤ) (ks : List ℤ) :
    coefs i (v :: vs) k ks = if k = i then coefficient v ks else coefs (i + 1) vs k ks := by
  unfold coefs
  by_cases hk : k = i
  · subst hk; rw [if_pos rfl, if_pos ⟨le_rfl, by simp⟩]; simp
  · rw [if_neg hk]
    by_cases h : i ≤ k ∧ k < i + (v :: vs).length
    · have h' : i + 1 ≤ k ∧ k < i + 1 + vs.length := by simp at h; omega
      rw [if_pos h, if_pos h']
      have : (k - i).toNat = (k - (i + 1)).toNat + 1 := by omega
      rw [this]; simp
    · have h' : ¬ (i + 1 ≤ k ∧ k < i + 1 + vs.length) := by simp at h ⊢; omega
      rw [if_neg h, if_neg h']

theorem bottom_num (x : CNum R) : bottom (numPy x) = some (numEntry x) := by cases x <;> rfl

/-- the table after a value -/
structure After (T T' : Table R) (order : List ℤ) (f : List ℤ → Option (CVal R)) (regs : List (Option Str)) : Prop where
  regs : T'.regulators = regs
  here : ∀ ks, T'.terms.lookup (order ++ ks) = ((f ks).map entry).or (T.terms.lookup (order ++ ks))
  there : ∀ key, ¬ order <+: key → T'.terms.lookup key = T.terms.lookup key
  nodup : (T.terms.map Prod.fst).Nodup → (T'.terms.map Prod.fst).Nodup

theorem after_set {T : Table R} {var : List (Option Str)} {order : List ℤ} {v : CVal R} (hv : ∀ k ks, coefficient v (k :: ks) = none)
    (h0 : coefficient v [] = some v) : After T ⟨var, setKey order (entry v) T.terms⟩ order (coefficient v) var := by
  refine ⟨rfl, fun ks => ?_, fun key hk => ?_, fun h => (nodup_setKey _ _ _ h).1⟩
  · rw [lookup_setKey]
    cases ks with
    | nil => rw [List.append_nil, if_pos rfl, h0]; rfl
    | cons k ks => rw [if_neg (by simp), hv]; rfl
  · rw [lookup_setKey, if_neg (by rintro rfl; exact hk (List.prefix_refl _))]

mutual
theorem table_val (dev : Bool) : ∀ (v : CVal R) (ps : List Str), Uniform dev ps v → WF v → ∀ (var : List (Option Str)) (order : List ℤ) (T : Table R),
    ∃ T', tableOf dev var order (toPy v) T = some T' ∧ After T T' order (coefficient v) (var ++ ps.map some)
  | .num x, ps, h, _, var, order, T => by
    rcases ps with _ | ⟨p, ps⟩
    · rw [Uniform] at h
      subst h
      refine ⟨⟨var, setKey order (entry (.num x)) T.terms⟩, ?_, by
        rw [List.map_nil, List.append_nil]
        exact after_set (fun _ _ => by rw [coefficient]; simp) (by rw [coefficient]; simp)⟩
      rw [toPy]
      cases x <;> simp [numPy, tableOf, bottom, entry, numEntry]
    · simp [Uniform] at h
  | .dev m s, ps, h, _, var, order, T => by
    rcases ps with _ | ⟨p, ps⟩
    · rw [Uniform] at h
      subst h
      refine ⟨⟨var, setKey order (entry (.dev m s)) T.terms⟩, ?_, by
        rw [List.map_nil, List.append_nil]
        exact after_set (fun _ _ => by rw [coefficient]; simp) (by rw [coefficient]; simp)⟩
      rw [toPy, tableOf, if_pos rfl, bottom_num, bottom_num]
      rfl
    · simp [Uniform] at h
  | .ser omin content trunc q, ps, h, hw, var, order, T => by
    rcases ps with _ | ⟨p, ps⟩
    · simp [Uniform] at h
    · rw [Uniform] at h
      obtain ⟨rfl, rfl, hu⟩ := h
      rw [WF] at hw
      obtain ⟨T', h1, h2, h3, h4, h5⟩ := table_vals dev content ps omin hu hw.2.2 (var ++ [some p]) order T
      refine ⟨T', ?_, ?_, ?_, ?_, h5⟩
      · rw [toPy, tableOf, if_neg (by simp)]; exact h1
      · rw [h2, if_neg hw.1]; simp
      · intro ks
        cases ks with
        | nil =>
          rw [List.append_nil, coefficient]
          exact h4 order fun k ks => by simp
        | cons k ks =>
          rw [h3 k ks, coefficient]
          rfl
      · intro key hk
        exact h4 key fun k ks he => hk ⟨k :: ks, he.symm⟩
theorem table_vals (dev : Bool) : ∀ (vs : List (CVal R)) (ps : List Str) (i : ℤ), Uniforms dev ps vs → WFs vs →
    ∀ (var : List (Option Str)) (order : List ℤ) (T : Table R),
    ∃ T', tableOfs dev var order (toPys i vs) T = some T' ∧ T'.regulators = (if vs = [] then T.regulators else var ++ ps.map some) ∧
      (∀ k ks, T'.terms.lookup (order ++ k :: ks) = ((coefs i vs k ks).map entry).or (T.terms.lookup (order ++ k :: ks))) ∧
      (∀ key, (∀ k ks, key ≠ order ++ k :: ks) → T'.terms.lookup key = T.terms.lookup key) ∧
      ((T.terms.map Prod.fst).Nodup → (T'.terms.map Prod.fst).Nodup)
  | [], ps, i, _, _, var, order, T => ⟨T, by rw [toPys, tableOfs], by simp, fun k ks => by simp [coefs], fun _ _ => rfl, id⟩
  | v :: vs, ps, i, hu, hw, var, order, T => by
    rw [Uniforms] at hu
    rw [WFs] at hw
    obtain ⟨T1, h1, hr, hh, ht, hn⟩ := table_val dev v ps hu.1 hw.1 var (order ++ [i]) T
    obtain ⟨T', g1, gr, gh, gt, gn⟩ := table_vals dev vs ps (i + 1) hu.2 hw.2 var order T1
    refine ⟨T', ?_, ?_, ?_, ?_, fun h => gn (hn h)⟩
    · rw [toPys, tableOfs, h1]
      exact g1
    · rw [gr, hr]; simp
    · intro k ks
      rw [gh k ks, coefs_cons]
      by_cases hk : k = i
      · subst hk
        have e : order ++ k :: ks = (order ++ [k]) ++ ks := by simp
        rw [if_pos rfl, e, hh ks]
        have hc : coefs (k + 1) vs k ks = none := by unfold coefs; rw [if_neg (by omega)]
        rw [hc]; rfl
      · rw [if_neg hk, ht]
        rintro ⟨r, hr⟩
        rw [List.append_assoc] at hr
        have := List.append_cancel_left hr
        simp only [List.singleton_append, List.cons.injEq] at this
        exact hk this.1.symm
    · intro key hk
      rw [gt key hk, ht]
      rintro ⟨r, hr⟩
      exact hk i r (by rw [← hr]; simp)
end

/-! ### the sign plus-slash-minus -/

theorem splitPM_two : ∀ (k : ℕ) (a seg b : Str), a.length ≤ k → 2 ≤ (splitPM seg (a ++ '+' :: '/' :: '-' :: b)).length := by
  have pos : ∀ (k : ℕ) (s seg : Str), s.length ≤ k → 1 ≤ (splitPM seg s).length := by
    intro k
    induction k with
    | zero =>
      intro s seg h
      have : s = [] := List.length_eq_zero_iff.1 (by omega)
      subst this; simp [splitPM]
    | succ k ih =>
      intro s seg h
      by_cases hp : ∃ r, s = '+' :: '/' :: '-' :: r
      · obtain ⟨r, rfl⟩ := hp
        rw [splitPM]; simp
      · rcases s with _ | ⟨c, s⟩
        · simp [splitPM]
        · rw [splitPM]
          · exact ih s _ (by simp at h; omega)
          · intro r hc hr; exact hp ⟨r, by rw [hc, hr]⟩
  intro k
  induction k with
  | zero =>
    intro a seg b h
    have : a = [] := List.length_eq_zero_iff.1 (by omega)
    subst this
    rw [List.nil_append, splitPM]
    have := pos _ b [] le_rfl
    simp; omega
  | succ k ih =>
    intro a seg b h
    by_cases hp : ∃ r, a ++ '+' :: '/' :: '-' :: b = '+' :: '/' :: '-' :: r
    · obtain ⟨r, hr⟩ := hp
      rw [hr, splitPM]
      have := pos _ r [] le_rfl
      simp; omega
    · rcases a with _ | ⟨c, a⟩
      · exact absurd ⟨b, rfl⟩ hp
      · rw [List.cons_append, splitPM]
        · exact ih a _ b (by simp at h; omega)
        · intro r hc hr
          exact hp ⟨r, by rw [List.cons_append, hc, hr]⟩

theorem noSlash_power {p : Str} (hid : Identifier p) (i : ℤ) : '/' ∉ printPower p i := by
  unfold printPower
  intro h
  rcases List.mem_append.1 h with h | h
  · exact (tame_id hid _ h).2.2.2.2.2.1 rfl
  · split at h
    · simp at h
    · rcases List.mem_cons.1 h with h | h
      · exact absurd h (by decide)
      · exact (tame_int i _ h).2.2.2.2.2.1 rfl

mutual
theorem pm_val {pr : R → Str} : ∀ (v : CVal R) (ps : List Str), Uniform true ps v → WF v → ∃ a b, printVal pr v = a ++ '+' :: '/' :: '-' :: b
  | .num x, ps, h, _ => by rcases ps with _ | ⟨p, ps⟩ <;> simp [Uniform] at h
  | .dev m s, _, _, _ => ⟨printNum pr m ++ [' '], ' ' :: printNum pr s, by
      rw [printVal, List.append_assoc, List.append_assoc]; rfl⟩
  | .ser omin content trunc p, ps, h, hw => by
    rcases ps with _ | ⟨q, ps⟩
    · simp [Uniform] at h
    · rw [Uniform] at h
      rw [WF] at hw
      obtain ⟨a, b, hab⟩ := pm_vals content ps omin p h.2.2 hw.2.2 hw.1
      rw [printVal, hab]
      exact ⟨a, _, by rw [List.append_assoc, List.cons_append, List.cons_append, List.cons_append]⟩
theorem pm_vals {pr : R → Str} : ∀ (vs : List (CVal R)) (ps : List Str) (i : ℤ) (p : Str), Uniforms true ps vs → WFs vs → vs ≠ [] →
    ∃ a b, printTerms pr p i vs = a ++ '+' :: '/' :: '-' :: b
  | [], _, _, _, _, _, hne => absurd rfl hne
  | v :: vs, ps, i, p, h, hw, _ => by
    rw [Uniforms] at h
    rw [WFs] at hw
    obtain ⟨a, b, hab⟩ := pm_val (pr := pr) v ps h.1 hw.1
    rw [printTerms, hab]
    refine ⟨" + (".toList ++ a, b ++ ')' :: (printMonomial p i ++ printTerms pr p (i + 1) vs), ?_⟩
    simp only [List.append_assoc, List.cons_append]
end

mutual
theorem noSlash_val {pr : R → Str} {rd : Str → Option R} (hp : Printing pr rd) : ∀ (v : CVal R) (ps : List Str), Uniform false ps v → WF v →
    '/' ∉ printVal pr v
  | .num x, _, _, _ => by rw [printVal]; exact fun h => (printNum_ws hp x _ h).2.2.1 rfl
  | .dev m s, ps, h, _ => by rcases ps with _ | ⟨p, ps⟩ <;> simp [Uniform] at h
  | .ser omin content trunc p, ps, h, hw => by
    rcases ps with _ | ⟨q, ps⟩
    · simp [Uniform] at h
    · rw [Uniform] at h
      rw [WF] at hw
      obtain ⟨_, rfl, hu⟩ := h
      rw [printVal, if_pos rfl]
      intro hm
      rcases List.mem_append.1 hm with hm | hm
      · exact noSlash_vals hp content ps omin p hw.2.1 hu hw.2.2 hm
      · rcases List.mem_append.1 hm with hm | hm
        · rcases List.mem_append.1 hm with hm | hm
          · revert hm; decide
          · exact noSlash_power hw.2.1 _ hm
        · revert hm; decide
theorem noSlash_vals {pr : R → Str} {rd : Str → Option R} (hp : Printing pr rd) : ∀ (vs : List (CVal R)) (ps : List Str) (i : ℤ) (p : Str),
    Identifier p → Uniforms false ps vs → WFs vs → '/' ∉ printTerms pr p i vs
  | [], _, _, _, _, _, _ => by rw [printTerms]; simp
  | v :: vs, ps, i, p, hid, h, hw => by
    rw [Uniforms] at h
    rw [WFs] at hw
    rw [printTerms]
    intro hm
    rcases List.mem_append.1 hm with hm | hm
    · rcases List.mem_append.1 hm with hm | hm
      · revert hm; decide
      · exact noSlash_val hp v ps h.1 hw.1 hm
    · rcases List.mem_cons.1 hm with hm | hm
      · revert hm; decide
      · rcases List.mem_append.1 hm with hm | hm
        · unfold printMonomial at hm
          split at hm
          · simp at hm
          · rcases List.mem_cons.1 hm with hm | hm
            · revert hm; decide
            · exact noSlash_power hid _ hm
        · exact noSlash_vals hp vs ps (i + 1) p hid h.2 hw.2 hm
end

theorem hasPM_eq {pr : R → Str} {rd : Str → Option R} (hp : Printing pr rd) (dev : Bool) (v : CVal R) (ps : List Str) (h : Uniform dev ps v) (hw : WF v) :
    hasPM (printVal pr v) = dev := by
  unfold hasPM
  cases dev with
  | false =>
    rw [splitPM_none _ _ (noSlash_val hp v ps h hw)]; simp
  | true =>
    obtain ⟨a, b, hab⟩ := pm_val (pr := pr) v ps h hw
    rw [hab]
    have := splitPM_two _ a [] b le_rfl
    simpa using this

end SeriesText
end SecDec
