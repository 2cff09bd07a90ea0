import Verif.Spec.SeriesText
import Mathlib.Tactic.FieldSimp
import Mathlib.Tactic.Ring
/-
The written text of a series has the value of the series.
-/
namespace SecDec
namespace SeriesText
variable {R : Type} {nv : R → ℝ} {env : Str → ℂ} {ω : ℂ → ℂ}

/-- a product ends here -/
def EndProd : List (Tok R) → Prop
  | .times :: _ => False
  | .div :: _ => False
  | .pow :: _ => False
  | _ => True

/-- a sum ends here -/
def EndSum : List (Tok R) → Prop
  | .times :: _ => False
  | .div :: _ => False
  | .pow :: _ => False
  | .plus :: _ => False
  | .snum _ :: _ => False
  | _ => True

theorem EndSum.prod {ts : List (Tok R)} (h : EndSum ts) : EndProd ts := by
  rcases ts with _ | ⟨t, ts⟩
  · trivial
  · cases t <;> first | trivial | exact h

/-- the text is an atom of value `v` -/
def RAtom (nv : R → ℝ) (env : Str → ℂ) (ω : ℂ → ℂ) (n : ℕ) (ts : List (Tok R)) (v : ℂ) : Prop :=
  ∀ rest, evalAtom nv env ω (evalSum nv env ω n) (ts ++ rest) = some (v, rest)

/-- the text is a product of value `v` -/
def RProd (nv : R → ℝ) (env : Str → ℂ) (ω : ℂ → ℂ) (n : ℕ) (ts : List (Tok R)) (v : ℂ) : Prop :=
  ∀ m, 2 ≤ m → ∀ rest, EndProd rest → evalProduct nv env ω (evalSum nv env ω n) m (ts ++ rest) = some (v, rest)

theorem evalPower_of {n : ℕ} {ts : List (Tok R)} {v : ℂ} (h : RAtom nv env ω n ts v) (rest : List (Tok R))
    (hr : ∀ ts', rest ≠ .pow :: ts') : evalPower nv env ω (evalSum nv env ω n) (ts ++ rest) = some (v, rest) := by
  unfold evalPower
  rw [h rest]
  rcases rest with _ | ⟨t, rest⟩
  · rfl
  · cases t <;> first | rfl | exact absurd rfl (hr _)

theorem evalFactors_end {n m : ℕ} {v : ℂ} {rest : List (Tok R)} (h : EndProd rest) :
    evalFactors nv env ω (evalSum nv env ω n) (m + 1) v rest = some (v, rest) := by
  rcases rest with _ | ⟨t, rest⟩
  · rfl
  · cases t <;> first | rfl | exact absurd h (by simp [EndProd])

theorem RAtom.prod {n : ℕ} {ts : List (Tok R)} {v : ℂ} (h : RAtom nv env ω n ts v) : RProd nv env ω n ts v := by
  intro m hm rest hr
  obtain ⟨m, rfl⟩ : ∃ k, m = k + 1 := ⟨m - 1, by omega⟩
  unfold evalProduct
  rw [evalPower_of h rest (by rintro ts' rfl; exact hr)]
  exact evalFactors_end hr

theorem evalPower_name {n : ℕ} (s : Str) (rest : List (Tok R)) (h : EndProd rest) :
    evalPower nv env ω (evalSum nv env ω n) (.name s :: rest) = some (env s, rest) := by
  have : RAtom nv env ω n [.name s] (env s) := fun rest => rfl
  exact evalPower_of this rest (by rintro ts' rfl; exact h)

theorem RAtom.term {n : ℕ} {ts : List (Tok R)} {v : ℂ} (h : RAtom nv env ω n ts v) (var : Option Str) (p : Str) (k : ℤ)
    (hv : k = 0 ∨ var = some p) : RProd nv env ω n (fmtTerm ts var k) (v * env p ^ k) := by
  unfold fmtTerm
  by_cases h0 : k = 0
  · rw [if_pos h0, h0, zpow_zero, mul_one]; exact h.prod
  · have hvar : var = some p := hv.resolve_left h0
    subst hvar
    rw [if_neg h0]
    intro m hm rest hr
    obtain ⟨m, rfl⟩ : ∃ k, m = k + 2 := ⟨m - 2, by omega⟩
    have e := fun (l : List (Tok R)) (hl : ∀ ts', l ++ rest ≠ .pow :: ts') => evalPower_of h (l ++ rest) hl
    unfold evalProduct
    by_cases h1 : k = 1
    · rw [if_pos h1, h1, zpow_one, List.append_assoc, e _ (by simp)]
      show (match evalPower nv env ω (evalSum nv env ω n) (.name p :: rest) with
        | some (w, ts) => evalFactors nv env ω (evalSum nv env ω n) (m + 1) (v * w) ts
        | none => none) = _
      rw [evalPower_name p rest hr]
      exact evalFactors_end hr
    · rw [if_neg h1]
      by_cases h2 : k = -1
      · rw [if_pos h2, h2, zpow_neg_one, List.append_assoc, e _ (by simp)]
        show (match evalPower nv env ω (evalSum nv env ω n) (.name p :: rest) with
          | some (w, ts) => evalFactors nv env ω (evalSum nv env ω n) (m + 1) (v / w) ts
          | none => none) = _
        rw [evalPower_name p rest hr, ← div_eq_mul_inv]
        exact evalFactors_end hr
      · rw [if_neg h2]
        by_cases h3 : k < 0
        · rw [if_pos h3, List.append_assoc, e _ (by simp)]
          show evalFactors nv env ω (evalSum nv env ω n) (m + 1) (v / env p ^ (-k)) rest = _
          rw [evalFactors_end hr, zpow_neg, div_inv_eq_mul]
        · rw [if_neg h3, List.append_assoc, e _ (by simp)]
          show evalFactors nv env ω (evalSum nv env ω n) (m + 1) (v * env p ^ k) rest = _
          rw [evalFactors_end hr]

theorem summands {n : ℕ} {L : List (List (Tok R))} {vs : List ℂ} (h : List.Forall₂ (RProd nv env ω n) L vs) :
    ∀ (m : ℕ) (v : ℂ) (rest : List (Tok R)), L.length + 3 ≤ m → EndSum rest →
      evalSummands nv env ω (evalSum nv env ω n) m v (L.flatMap (fun t => .plus :: t) ++ rest) = some (v + vs.sum, rest) := by
  induction h with
  | nil =>
    intro m v rest hm hr
    obtain ⟨m, rfl⟩ : ∃ k, m = k + 1 := ⟨m - 1, by omega⟩
    simp only [List.flatMap_nil, List.nil_append, List.sum_nil, add_zero]
    rcases rest with _ | ⟨t, rest⟩
    · rfl
    · cases t <;> first | rfl | exact absurd hr (by simp [EndSum])
  | @cons t w L vs h1 _ ih =>
    intro m v rest hm hr
    obtain ⟨m, rfl⟩ : ∃ k, m = k + 1 := ⟨m - 1, by omega⟩
    simp only [List.length_cons] at hm
    have hend : EndProd (L.flatMap (fun t => .plus :: t) ++ rest) := by
      cases L with
      | nil => exact hr.prod
      | cons t' L => trivial
    rw [List.flatMap_cons, List.append_assoc, List.cons_append]
    show (match evalProduct nv env ω (evalSum nv env ω n) m (t ++ (L.flatMap (fun t => .plus :: t) ++ rest)) with
      | some (w, ts) => evalSummands nv env ω (evalSum nv env ω n) m (v + w) ts
      | none => none) = _
    rw [h1 m (by omega) _ hend]
    dsimp only
    rw [ih m (v + w) rest (by omega) hr, List.sum_cons, add_assoc]

/-- A whole sum. -/
theorem sum_of {n : ℕ} {t : List (Tok R)} {v : ℂ} {L : List (List (Tok R))} {vs : List ℂ} (h1 : RProd nv env ω n t v)
    (h : List.Forall₂ (RProd nv env ω n) L vs) (hn : L.length + 3 ≤ n) (rest : List (Tok R)) (hr : EndSum rest) :
    evalSum nv env ω (n + 1) (t ++ (L.flatMap (fun t => .plus :: t) ++ rest)) = some (v + vs.sum, rest) := by
  have hend : EndProd (L.flatMap (fun t => .plus :: t) ++ rest) := by
    cases L with
    | nil => exact hr.prod
    | cons t' L => trivial
  rw [evalSum, h1 n (by omega) _ hend]
  exact summands h n v rest hn hr

theorem order_atom (p : Str) (k : ℤ) (n : ℕ) (hn : 5 ≤ n) : ∃ t : List (Tok R),
    fmtOrder (some p) (some k) = .plus :: t ∧ RProd nv env ω n t (ω (env p ^ k)) := by
  have key : ∀ (e : List (Tok R)), (∀ rest, evalPower nv env ω (evalSum nv env ω (n - 1)) (.name p :: (e ++ .rpar :: rest)) = some (env p ^ k, .rpar :: rest)) →
      RAtom nv env ω n (.order :: .lpar :: .name p :: (e ++ [.rpar])) (ω (env p ^ k)) := by
    intro e he rest
    obtain ⟨n, rfl⟩ : ∃ k, n = k + 2 := ⟨n - 2, by omega⟩
    have : evalSum nv env ω (n + 2) (.name p :: (e ++ .rpar :: rest)) = some (env p ^ k, .rpar :: rest) := by
      rw [evalSum, evalProduct]
      rw [show n + 2 - 1 = n + 1 from rfl] at he
      rw [he rest]
      rfl
    have e2 : (Tok.order :: .lpar :: .name p :: (e ++ [.rpar])) ++ rest = .order :: .lpar :: (.name p :: (e ++ .rpar :: rest)) := by simp
    rw [e2, evalAtom, this]
  unfold fmtOrder
  dsimp only
  by_cases h1 : k = 1
  · refine ⟨[.order, .lpar, .name p, .rpar], by rw [if_pos h1]; rfl, (key [] fun rest => ?_).prod⟩
    rw [h1, zpow_one]; rfl
  · by_cases h2 : 0 < k
    · exact ⟨[.order, .lpar, .name p, .pow, .int k, .rpar], by rw [if_neg h1, if_pos h2]; rfl, (key [.pow, .int k] fun rest => rfl).prod⟩
    · exact ⟨[.order, .lpar, .name p, .pow, .lpar, .int k, .rpar, .rpar], by rw [if_neg h1, if_neg h2]; rfl,
        (key [.pow, .lpar, .int k, .rpar] fun rest => rfl).prod⟩

theorem joinPlus_cons (t : List (Tok R)) (L : List (List (Tok R))) : joinPlus (t :: L) = t ++ L.flatMap (fun t => .plus :: t) := by
  induction L generalizing t with
  | nil => simp [joinPlus]
  | cons t' L ih => rw [joinPlus, ih t', List.flatMap_cons]; simp; simp

theorem num_atom (x : CNum R) : ∃ N, ∀ n, N ≤ n → RAtom nv env ω n (fmtValue true (numPy x)) (numVal nv x) := by
  refine ⟨6, fun n hn rest => ?_⟩
  cases x with
  | real r => simp only [numPy, fmtValue, if_true, numVal]; rfl
  | cplx a b =>
    obtain ⟨n, rfl⟩ : ∃ k, n = k + 6 := ⟨n - 6, by omega⟩
    simp only [numPy, fmtValue, if_true, numVal]
    rfl

theorem zero_atom (x : CNum R) (n : ℕ) : RAtom nv env ω n (fmtValue false (numPy x)) 0 := by
  intro rest
  cases x with
  | real r =>
    simp only [numPy, fmtValue]
    show some (((0 : ℤ) : ℂ), rest) = _
    rw [Int.cast_zero]
  | cplx a b =>
    simp only [numPy, fmtValue]
    show some (((0 : ℤ) : ℂ), rest) = _
    rw [Int.cast_zero]

/-- the values of the terms -/
noncomputable def termVals (nv : R → ℝ) (env : Str → ℂ) (ω : ℂ → ℂ) (mean : Bool) (p : Str) : ℤ → List (CVal R) → List ℂ
  | _, [] => []
  | i, v :: vs => value nv env ω mean v * env p ^ i :: termVals nv env ω mean p (i + 1) vs

theorem termVals_sum (mean : Bool) (p : Str) : ∀ (vs : List (CVal R)) (i : ℤ), (termVals nv env ω mean p i vs).sum = values nv env ω mean p i vs
  | [], i => by simp [termVals, values]
  | v :: vs, i => by rw [termVals, values, List.sum_cons, termVals_sum mean p vs (i + 1)]

theorem fmtTerms_length (mean : Bool) (var : Option Str) : ∀ (vs : List (CVal R)) (i : ℤ), (fmtTerms mean var (toPys i vs)).length = vs.length
  | [], _ => by simp [toPys, fmtTerms]
  | v :: vs, i => by simp [toPys, fmtTerms, fmtTerms_length mean var vs (i + 1)]

theorem series_sum (mean : Bool) (omin : ℤ) (content : List (CVal R)) (trunc : Bool) (p : Str) (hne : content ≠ [])
    (ht : ∃ N, ∀ n, N ≤ n → List.Forall₂ (RProd nv env ω n)
      (fmtTerms mean (if trunc = false ∧ omin = 0 ∧ content.length ≤ 1 then none else some p) (toPys omin content))
      (termVals nv env ω mean p omin content)) :
    ∃ N, ∀ n, N ≤ n → ∀ rest, EndSum rest →
      evalSum nv env ω n (fmtSeries mean (toPy (.ser omin content trunc p)) ++ rest) =
        some (value nv env ω mean (.ser omin content trunc p), rest) := by
  obtain ⟨N, hN⟩ := ht
  refine ⟨N + content.length + 10, fun n hn rest hr => ?_⟩
  obtain ⟨n, rfl⟩ : ∃ k, n = k + 1 := ⟨n - 1, by omega⟩
  have hall := hN n (by omega)
  rw [toPy, fmtSeries, value]
  set var := (if trunc = false ∧ omin = 0 ∧ content.length ≤ 1 then none else some p) with hvar
  rw [← termVals_sum]
  have hlen := fmtTerms_length mean var content omin
  rcases hL : fmtTerms mean var (toPys omin content) with _ | ⟨t, L⟩
  · rw [hL] at hlen
    exact absurd (List.length_eq_zero_iff.1 hlen.symm) hne
  · rw [hL] at hall hlen
    rcases hV : termVals nv env ω mean p omin content with _ | ⟨w, vs⟩
    · rw [hV] at hall; cases hall
    · rw [hV] at hall
      obtain ⟨h1, h2⟩ := List.forall₂_cons.1 hall
      rw [joinPlus_cons]
      cases trunc with
      | false =>
        simp only [Bool.false_eq_true, if_false, fmtOrder, List.append_nil, List.append_assoc, add_zero, List.sum_cons]
        exact sum_of h1 h2 (by simp at hlen; omega) rest hr
      | true =>
        have hv : var = some p := by rw [hvar, if_neg (by simp)]
        obtain ⟨o, ho, hp⟩ := order_atom (nv := nv) (env := env) (ω := ω) (R := R) p (omin + content.length) n (by omega)
        simp only [if_true]
        rw [hv, ho]
        have h3 : List.Forall₂ (RProd nv env ω n) (L ++ [o]) (vs ++ [ω (env p ^ (omin + content.length))]) :=
          List.rel_append h2 (List.Forall₂.cons hp .nil)
        have := sum_of h1 h3 (by simp at hlen ⊢; omega) rest hr
        rw [List.flatMap_append] at this
        simp only [List.flatMap_cons, List.flatMap_nil, List.append_nil, List.append_assoc, List.sum_append, List.sum_singleton, List.sum_cons] at this ⊢
        rw [this]
        simp only [List.sum_nil, add_zero, add_assoc]

mutual
theorem val_atom : ∀ (v : CVal R) (mean : Bool), WF v → ∃ N, ∀ n, N ≤ n → RAtom nv env ω n (fmtValue mean (toPy v)) (value nv env ω mean v)
  | .num x, mean, _ => by
    rw [toPy, value]
    cases mean with
    | true => exact num_atom x
    | false => exact ⟨0, fun n _ => zero_atom x n⟩
  | .dev m s, mean, _ => by
    rw [toPy, value, fmtValue]
    cases mean with
    | true => exact num_atom m
    | false => exact num_atom s
  | .ser omin content trunc p, mean, h => by
    rw [WF] at h
    obtain ⟨N, hN⟩ := series_sum mean omin content trunc p h.1
      (terms_prod content mean p omin _ h.2.2 (by
        by_cases hc : trunc = false ∧ omin = 0 ∧ content.length ≤ 1
        · exact Or.inr (Or.inr hc.2)
        · exact Or.inl (if_neg hc)))
    refine ⟨N, fun n hn rest => ?_⟩
    have h1 := hN n hn (.rpar :: rest) trivial
    have h2 : fmtValue mean (toPy (.ser omin content trunc p)) ++ rest = .lpar :: (fmtSeries mean (toPy (.ser omin content trunc p)) ++ .rpar :: rest) := by
      rw [toPy, fmtValue, fmtSeries]; simp
    rw [h2, evalAtom, h1]
theorem terms_prod : ∀ (vs : List (CVal R)) (mean : Bool) (p : Str) (i : ℤ) (var : Option Str), WFs vs →
    (var = some p ∨ vs = [] ∨ (i = 0 ∧ vs.length ≤ 1)) →
    ∃ N, ∀ n, N ≤ n → List.Forall₂ (RProd nv env ω n) (fmtTerms mean var (toPys i vs)) (termVals nv env ω mean p i vs)
  | [], mean, p, i, var, _, _ => ⟨0, fun n _ => by rw [toPys, fmtTerms, termVals]; exact .nil⟩
  | v :: vs, mean, p, i, var, h, hv => by
    rw [WFs] at h
    obtain ⟨N, hN⟩ := val_atom v mean h.1
    obtain ⟨M, hM⟩ := terms_prod vs mean p (i + 1) var h.2 (by
      rcases hv with hv | hv | ⟨h1, h2⟩
      · exact Or.inl hv
      · simp at hv
      · right; left; simpa using h2)
    refine ⟨max N M, fun n hn => ?_⟩
    rw [toPys, fmtTerms, termVals]
    exact .cons ((hN n (by omega)).term var p i (by rcases hv with hv | hv | hv; exacts [Or.inr hv, by simp at hv, Or.inl hv.1])) (hM n (by omega))
end

end SeriesText
end SecDec
