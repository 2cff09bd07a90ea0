import Mathlib.Data.List.Perm.Basic
import Mathlib.Data.List.Nodup
import Verif.Proof.PolySimplify
set_option linter.unusedSectionVars false
namespace SecDec
namespace Poly
variable {n : Nat} {R : Type} [CommRing R] [DecidableEq R]

/-- Additive functional of a term list. -/
def lsum {M : Type} [AddCommGroup M] (f : Expo n → R →+ M) (l : List (Expo n × R)) : M :=
  (l.map (fun t => f t.1 t.2)).sum

theorem lsum_zip {M : Type} [AddCommGroup M] (f : Expo n → R →+ M) (ex : List (Expo n)) (cs : List R)
    (h : ex.length = cs.length) :
    lsum f (ex.zip cs) = ∑ k ∈ Finset.range cs.length, f (ex.getD k 0) (cs.getD k 0) := by
  induction ex generalizing cs with
  | nil =>
    cases cs with
    | nil => simp [lsum]
    | cons c cs => simp at h
  | cons e ex ih =>
    cases cs with
    | nil => simp at h
    | cons c cs =>
      have := ih cs (by simpa using h)
      simp only [lsum, List.zip_cons_cons, List.map_cons, List.sum_cons, List.length_cons] at *
      rw [Finset.sum_range_succ', this]
      simp [add_comm]

theorem lsum_filter {M : Type} [AddCommGroup M] (f : Expo n → R →+ M) (l : List (Expo n × R)) :
    lsum f (l.filter (fun t => decide (t.2 ≠ 0))) = lsum f l := by
  induction l with
  | nil => rfl
  | cons t l ih =>
    simp only [lsum, List.filter_cons, List.map_cons, List.sum_cons] at *
    split
    · rw [List.map_cons, List.sum_cons, ih]
    · rename_i h
      have : t.2 = 0 := by simpa using h
      rw [this, ih]; simp

/-- The list of surviving terms before the "at least one term" rule. -/
def nzTerms (p : Poly n R) : List (Expo n × R) :=
  ((p.sortedTerms.map (·.1)).zip (mergeLoop (p.sortedTerms.map (·.1)) (p.sortedTerms.map (·.2)))).filter
    (fun t => decide (t.2 ≠ 0))

theorem simplify_nz (p : Poly n R) :
    p.simplify = if p.nzTerms.length = 0 then zeroPoly else ⟨p.nzTerms⟩ := by
  rw [simplify_eq]; rfl

theorem sorted_sortedTerms (p : Poly n R) :
    p.sortedTerms.Pairwise (fun a b => rowLe (List.ofFn a.1) (List.ofFn b.1) = true) :=
  sorted_mergeSort_key p.terms (fun t => List.ofFn t.1)

theorem sortedTerms_idx (p : Poly n R) (a b : Nat) (hab : a ≤ b) (hb : b < p.sortedTerms.length) :
    rowLe (List.ofFn ((p.sortedTerms.map (·.1)).getD a 0))
      (List.ofFn ((p.sortedTerms.map (·.1)).getD b 0)) = true := by
  rcases Nat.lt_or_ge a b with h | h
  · have := List.pairwise_iff_getElem.1 (sorted_sortedTerms p) a b (by omega) hb h
    rw [List.getD_eq_getElem _ _ (by simp; omega), List.getD_eq_getElem _ _ (by simpa using hb)]
    simpa using this
  · have : a = b := by omega
    subst this; exact rowLe_refl _

theorem sorted_hyp (p : Poly n R) : ∀ a b, a ≤ b → b < (p.sortedTerms.map (·.2)).length →
    rowLe (List.ofFn ((p.sortedTerms.map (·.1)).getD a 0))
      (List.ofFn ((p.sortedTerms.map (·.1)).getD b 0)) = true := by
  intro a b hab hb
  exact sortedTerms_idx p a b hab (by simpa using hb)

theorem lsum_nz {M : Type} [AddCommGroup M] (f : Expo n → R →+ M) (p : Poly n R) :
    lsum f p.nzTerms = lsum f p.terms := by
  obtain ⟨h1, h2, _⟩ := mergeLoop_spec f _ _ (sorted_hyp p)
  rw [nzTerms, lsum_filter, lsum_zip _ _ _ (by rw [h1]; simp), h1, h2]
  rw [← lsum_zip _ _ _ (by simp)]
  rw [List.zip_map_left, List.zip_map_right]
  have hz : ((p.sortedTerms.zip p.sortedTerms).map (Prod.map id (·.2))).map (Prod.map (·.1) id)
      = p.sortedTerms := by
    rw [List.map_map]
    generalize p.sortedTerms = l
    induction l with
    | nil => rfl
    | cons a l ih => simp only [List.zip_cons_cons, List.map_cons, ih]; rfl
  rw [hz]
  unfold lsum sortedTerms
  exact ((List.mergeSort_perm p.terms _).map _).sum_eq

theorem nz_ne_zero (p : Poly n R) : ∀ t ∈ p.nzTerms, t.2 ≠ 0 := by
  intro t ht
  have := (List.mem_filter.1 ht).2
  simpa using this

/-- Strict order of rows. -/
def KLt (a b : Expo n) : Prop := rowLe (List.ofFn a) (List.ofFn b) = true ∧ a ≠ b

theorem nz_sorted (p : Poly n R) : p.nzTerms.Pairwise (fun a b => KLt a.1 b.1) := by
  obtain ⟨h1, _, h3⟩ := mergeLoop_spec (M := R) (fun _ => AddMonoidHom.id R) _ _ (sorted_hyp p)
  rw [nzTerms, List.pairwise_filter]
  rw [List.pairwise_iff_getElem]
  intro i j hi hj hij ha hb
  simp only [List.getElem_zip, decide_eq_true_eq] at ha hb ⊢
  have hlen : j < p.sortedTerms.length := by
    simp [List.length_zip] at hj; omega
  refine ⟨?_, ?_⟩
  · have := sortedTerms_idx p i j hij.le hlen
    rw [List.getD_eq_getElem _ _ (by simp; omega), List.getD_eq_getElem _ _ (by simpa using hlen)] at this
    simpa using this
  · intro he
    have := h3 i j hij (by simpa using hlen) (by
      rw [List.getD_eq_getElem _ _ (by simp; omega), List.getD_eq_getElem _ _ (by simpa using hlen)]
      simpa using he)
    rw [List.getD_eq_getElem _ _ (by rw [h1]; simp; omega), List.getD_eq_getElem _ _ (by rw [h1]; simpa using hlen)] at this
    rcases this with h | h
    · exact ha h
    · exact hb h

theorem lsum_zeroPoly {M : Type} [AddCommGroup M] (f : Expo n → R →+ M) :
    lsum f (zeroPoly : Poly n R).terms = 0 := by
  simp [lsum, zeroPoly]

/-- Every additive functional is preserved by `simplify`. -/
theorem lsum_simplify {M : Type} [AddCommGroup M] (f : Expo n → R →+ M) (p : Poly n R) :
    lsum f p.simplify.terms = lsum f p.terms := by
  rw [simplify_nz, ← lsum_nz f p]
  split
  · rename_i h
    rw [List.length_eq_zero_iff.1 h, lsum_zeroPoly]; rfl
  · rfl

/-- The functional "coefficient of e". -/
def coeffHom (e : Expo n) : Expo n → R →+ R := fun e' => if e' = e then AddMonoidHom.id R else 0

theorem coeffOf_eq (p : Poly n R) (e : Expo n) : p.coeffOf e = lsum (coeffHom e) p.terms := by
  unfold coeffOf lsum coeffHom
  induction p.terms with
  | nil => rfl
  | cons t l ih =>
    simp only [List.filter_cons, List.map_cons, List.sum_cons]
    by_cases h : t.1 = e
    · simp [h, ih]
    · simp [h, ih]

theorem coeffOf_simplify (p : Poly n R) (e : Expo n) : p.simplify.coeffOf e = p.coeffOf e := by
  rw [coeffOf_eq, coeffOf_eq, lsum_simplify]

theorem KLt_irrefl (a : Expo n) : ¬ KLt a a := fun h => h.2 rfl

theorem coeffOf_of_mem {l : List (Expo n × R)} (hs : l.Pairwise (fun a b => KLt a.1 b.1))
    {t : Expo n × R} (ht : t ∈ l) : lsum (coeffHom t.1) l = t.2 := by
  induction l with
  | nil => simp at ht
  | cons u l ih =>
    rw [List.pairwise_cons] at hs
    simp only [lsum, List.map_cons, List.sum_cons] at *
    rcases List.mem_cons.1 ht with h | h
    · subst h
      have : (l.map (fun u => (coeffHom t.1 u.1) u.2)).sum = 0 := by
        apply List.sum_eq_zero
        intro x hx
        obtain ⟨u, hu, rfl⟩ := List.mem_map.1 hx
        have := (hs.1 u hu).2
        simp [coeffHom, Ne.symm this]
      rw [this]; simp [coeffHom]
    · have hne := (hs.1 t h).2
      rw [ih hs.2 h]; simp [coeffHom, hne]

theorem lsum_coeff_of_not_mem {l : List (Expo n × R)} {e : Expo n} (h : ∀ t ∈ l, t.1 ≠ e) :
    lsum (coeffHom e) l = 0 := by
  apply List.sum_eq_zero
  intro x hx
  obtain ⟨u, hu, rfl⟩ := List.mem_map.1 hx
  simp [coeffHom, h u hu]

theorem mem_iff_coeff {l : List (Expo n × R)} (hs : l.Pairwise (fun a b => KLt a.1 b.1))
    (hnz : ∀ t ∈ l, t.2 ≠ 0) (e : Expo n) (c : R) :
    (e, c) ∈ l ↔ lsum (coeffHom e) l = c ∧ c ≠ 0 := by
  constructor
  · intro h; exact ⟨coeffOf_of_mem hs h, hnz _ h⟩
  · rintro ⟨h1, h2⟩
    by_contra hcon
    by_cases hex : ∃ t ∈ l, t.1 = e
    · obtain ⟨t, ht, rfl⟩ := hex
      have := coeffOf_of_mem hs ht
      rw [this] at h1
      apply hcon
      subst h1
      exact ht
    · push Not at hex
      rw [lsum_coeff_of_not_mem hex] at h1
      exact h2 h1.symm

theorem nz_unique {l l' : List (Expo n × R)} (hs : l.Pairwise (fun a b => KLt a.1 b.1))
    (hs' : l'.Pairwise (fun a b => KLt a.1 b.1))
    (hnz : ∀ t ∈ l, t.2 ≠ 0) (hnz' : ∀ t ∈ l', t.2 ≠ 0)
    (h : ∀ e, lsum (coeffHom e) l = lsum (coeffHom e) l') : l = l' := by
  have hp : l.Perm l' := by
    rw [List.perm_ext_iff_of_nodup]
    · rintro ⟨e, c⟩
      rw [mem_iff_coeff hs hnz, mem_iff_coeff hs' hnz', h]
    · exact hs.imp (fun {a b} hab heq => by subst heq; exact KLt_irrefl _ hab)
    · exact hs'.imp (fun {a b} hab heq => by subst heq; exact KLt_irrefl _ hab)
  refine hp.eq_of_pairwise (le := fun a b => KLt a.1 b.1) ?_ hs hs'
  intro a b _ _ h1 h2
  exact absurd (key_inj (rowLe_antisymm _ _ h1.1 h2.1)) h1.2

theorem simplify_canonical (p q : Poly n R) (h : ∀ e, p.coeffOf e = q.coeffOf e) :
    p.simplify = q.simplify := by
  have : p.nzTerms = q.nzTerms := by
    apply nz_unique (nz_sorted p) (nz_sorted q) (nz_ne_zero p) (nz_ne_zero q)
    intro e
    rw [lsum_nz, lsum_nz, ← coeffOf_eq, ← coeffOf_eq, h]
  rw [simplify_nz, simplify_nz, this]

end Poly
end SecDec
