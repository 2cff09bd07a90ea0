import Verif.Model.Misc
import Mathlib.Data.Complex.BigOperators
/-
Model of the tensor numerator of `LoopIntegralFromPropagators` (`pySecDec/loop_integral/from_propagators.py`,
lines 246-556): `_numerator_tensors`, `numerator_ranks`, `highest_rank`, `preliminary_numerator`, and of the
exponents that go with it (`pySecDec/loop_integral/common.py`).

Simplifications, for the whole file.
* The Feynman parameters have values: an entry of `aM`, a coefficient of `Q`, the symbols `U` and `F`, the power sum
  `N_nu` and the dimension `D` are complex numbers (the polynomial arithmetic itself is property C01).  The external
  momenta with a Lorentz index, `p(mu)`, and the metric tensor `g(mu,nu)` stay symbolic.
* The replacement rules (lines 550-552) are not applied: they are identities between the values of the symbols.
* A term of the expanded numerator is given by its factors `k(mu)`, its factors `p(mu)` and the product of the rest.
* Python exceptions (a failed assertion, an endless recursion, `max` of an empty list) are `none`.
-/
namespace SecDec
namespace Numer
open scoped BigOperators
noncomputable section

/-- A summand of the expanded numerator: loop momenta with their Lorentz index, external momenta with theirs, and the
remaining factors (`from_propagators.py:151-156` `numerator_input_terms`; a momentum is its position in the list). -/
structure Term (L E : ℕ) (I : Type) where
  loop : List (Fin L × I)
  ext : List (Fin E × I)
  coef : ℂ

/-- Values at one point: `aM` (`from_propagators.py:213-215`), the coefficients of the external momenta in `Q`
(lines 217-223), `U`, `F`, `N_nu` and `dimensionality`. -/
structure Data (L E : ℕ) where
  aM : Fin L → Fin L → ℂ
  Q : Fin L → Fin E → ℂ
  U : ℂ
  F : ℂ
  Nnu : ℂ
  D : ℂ

/-- A summand of the output: a coefficient, linear combinations of the external momenta with a Lorentz index
(`sum_e c_e*p_e(mu)`), and metric tensors `g(mu,nu)`. -/
structure Summand (E : ℕ) (I : Type) where
  coef : ℂ
  vecs : List ((Fin E → ℂ) × I)
  metrics : List (I × I)

variable {L E n : ℕ} {I : Type} [DecidableEq I]

/-- `from_propagators.py:284-295`: the loop over the momenta of one kind for one Lorentz index.  The state is the list
`lst`, `index_count` and the factors not yet divided out. -/
def searchMomenta (μ : I) (lst : List (Fin n × I)) (count : ℕ) (facs : List (Fin n × I)) :
    Option (List (Fin n × I) × ℕ × List (Fin n × I)) :=
  (List.finRange n).foldlM (fun st i =>
    let c := st.2.2.count (i, μ)
    if st.2.1 + c ≤ 2 then
      some (st.1 ++ List.replicate c (i, μ), st.2.1 + c, st.2.2.filter (fun f => f ≠ (i, μ)))
    else none) (lst, count, facs)

/-- `from_propagators.py:277-301` `_numerator_tensors` for one term: for each of the `Lorentz_indices`, first the loop
momenta, then the external momenta. -/
def tensors (indices : List I) (t : Term L E I) : Option (Term L E I) :=
  (indices.foldlM (fun st μ =>
    (searchMomenta μ st.1.1 0 st.1.2).bind fun a =>
      (searchMomenta μ st.2.1 a.2.1 st.2.2).map fun b => ((a.1, a.2.2), (b.1, b.2.2)))
    ((([] : List (Fin L × I)), t.loop), (([] : List (Fin E × I)), t.ext))).map fun st => ⟨st.1.1, st.2.1, t.coef⟩

/-- `from_propagators.py:315-321` `numerator_ranks` and `highest_rank`. -/
def highestRank (ts : List (Term L E I)) : Option ℕ := (ts.map fun t => t.loop.length).max?

/-- `from_propagators.py:360-368` `reduce_gamma`; with `r_over_two` above `highest_rank//2` the recursion does not
end. -/
def reduceGamma (s : ℂ) (half k : ℕ) : Option ℂ :=
  if k = half then some 1
  else if h : k < half then (reduceGamma s half (k + 1)).map (fun g => (s - (k + 1 : ℕ)) * g)
  else none
termination_by half - k

/-- `N_nu - D*L/2`. -/
def Data.s (d : Data L E) : ℂ := d.Nnu - d.D * L / 2

/-- `from_propagators.py:355-369` `scalar_factor(r)`. -/
def scalarFactor (d : Data L E) (highest r : ℕ) : Option ℂ :=
  if r % 2 = 0 then
    (reduceGamma d.s (highest / 2) (r / 2)).map fun g => ((-1 / 2) ^ (r / 2) * d.F ^ (r / 2)) * g
  else none

/-- An entry of the lists `contractions_left`, `contractions_right` and `contractions_unmatched`. -/
structure Entry (I : Type) where
  left : I
  right : I
  unmatched : Bool

/-- `from_propagators.py:438-482`: the inner loop, for the metric `g(mu,nu)` at position `i`, over the earlier
positions; the first match updates the earlier entry and leaves the loop. -/
def matchInto (μ ν : I) : List (Entry I) → Option (List (Entry I))
  | [] => none
  | e :: es =>
    if e.unmatched then
      if μ = e.left then some ({ e with left := ν } :: es)
      else if μ = e.right then some ({ e with right := ν } :: es)
      else if ν = e.left then some ({ e with left := μ } :: es)
      else if ν = e.right then some ({ e with right := μ } :: es)
      else (matchInto μ ν es).map (e :: ·)
    else (matchInto μ ν es).map (e :: ·)

/-- `from_propagators.py:434-482`: one run of the outer loop.  `done` are the positions before `i`; the second
component of the result is `matched`. -/
def matchPass : List (Entry I) → List (Entry I) → List (Entry I) × Bool
  | done, [] => (done, false)
  | done, e :: es =>
    if e.unmatched then
      match matchInto e.left e.right done with
      | some done' => ((matchPass (done' ++ [{ e with unmatched := false }]) es).1, true)
      | none => matchPass (done ++ [e]) es
    else matchPass (done ++ [e]) es

/-- The number of the metric tensors not yet contracted. -/
def open_ (l : List (Entry I)) : ℕ := l.countP fun e => e.unmatched

theorem matchInto_open (μ ν : I) (l l' : List (Entry I)) (h : matchInto μ ν l = some l') : open_ l' = open_ l := by
  induction l generalizing l' with
  | nil => simp [matchInto] at h
  | cons e es ih =>
    unfold matchInto at h
    split_ifs at h with h1 h2 h3 h4 h5
    · simp only [Option.some.injEq] at h; subst h; simp [open_, List.countP_cons]
    · simp only [Option.some.injEq] at h; subst h; simp [open_, List.countP_cons]
    · simp only [Option.some.injEq] at h; subst h; simp [open_, List.countP_cons]
    · simp only [Option.some.injEq] at h; subst h; simp [open_, List.countP_cons]
    all_goals
      obtain ⟨a, ha, rfl⟩ := Option.map_eq_some_iff.1 h
      have := ih a ha
      simp only [open_, List.countP_cons] at this ⊢
      rw [this]

theorem matchPass_open (rest : List (Entry I)) : ∀ done : List (Entry I),
    open_ (matchPass done rest).1 + (if (matchPass done rest).2 then 1 else 0) ≤ open_ done + open_ rest := by
  induction rest with
  | nil => intro done; simp [matchPass, open_]
  | cons e es ih =>
    intro done
    unfold matchPass
    by_cases he : e.unmatched
    · rw [if_pos he]
      cases hm : matchInto e.left e.right done with
      | none =>
        have := ih (done ++ [e])
        simp only [open_, List.countP_append, List.countP_cons, List.countP_nil] at this ⊢
        omega
      | some done' =>
        have h0 := matchInto_open _ _ _ _ hm
        have := ih (done' ++ [{ e with unmatched := false }])
        simp only [open_, List.countP_append, List.countP_cons, List.countP_nil, he] at this h0 ⊢
        simp only [if_true] at *
        split at this <;> simp_all <;> omega
    · rw [if_neg he]
      have := ih (done ++ [e])
      simp only [open_, List.countP_append, List.countP_cons, List.countP_nil] at this ⊢
      omega

/-- `from_propagators.py:430-482`: the `while matched` loop. -/
def matchLoop (l : List (Entry I)) : List (Entry I) :=
  if _h : (matchPass [] l).2 then matchLoop (matchPass [] l).1 else (matchPass [] l).1
termination_by open_ l
decreasing_by
  have := matchPass_open l []
  simp only [_h, if_true, open_, List.countP_nil] at this ⊢
  omega

/-- `from_propagators.py:492-501` and `524-533`: a vector with the index `mu` is contracted with the first open metric
tensor that carries `mu`; the result is the new index and the new entries. -/
def contractVec (μ : I) : List (Entry I) → I × List (Entry I)
  | [] => (μ, [])
  | e :: es =>
    if e.unmatched then
      if e.left = μ then (e.right, { e with unmatched := false } :: es)
      else if e.right = μ then (e.left, { e with unmatched := false } :: es)
      else ((contractVec μ es).1, e :: (contractVec μ es).2)
    else ((contractVec μ es).1, e :: (contractVec μ es).2)

/-- The loops `from_propagators.py:490-501` (over `P_indices`) and `522-535` (over `external_tensor`). -/
def contractVecs {V : Type} : List (V × I) → List (Entry I) → List (V × I) × List (Entry I)
  | [], l => ([], l)
  | (v, μ) :: vs, l =>
    ((v, (contractVec μ l).1) :: (contractVecs vs (contractVec μ l).2).1, (contractVecs vs (contractVec μ l).2).2)

/-- `from_propagators.py:540-547`: the metric tensors not contracted; `g(mu,mu)` is `dimensionality`. -/
def leftover (D : ℂ) : List (Entry I) → ℂ × List (I × I)
  | [] => (1, [])
  | e :: es =>
    if e.unmatched then
      if e.left = e.right then (D * (leftover D es).1, (leftover D es).2)
      else ((leftover D es).1, (e.left, e.right) :: (leftover D es).2)
    else leftover D es

/-- `from_propagators.py:504-508` `aM[external_momentum_index].dot(Q)`: the coefficients of the external momenta. -/
def Data.P (d : Data L E) (a : Fin L) (e : Fin E) : ℂ := ∑ b, d.aM a b * d.Q b e

/-- `from_propagators.py:404-554`: one summand, for the given distribution `pairs` of the indices of "A" over metric
tensors and the indices `pIdx` of "P". -/
def summand (d : Data L E) (highest r : ℕ) (t : Term L E I) (pairs : List ((Fin L × I) × (Fin L × I)))
    (pIdx : List (Fin L × I)) : Option (Summand E I) :=
  (scalarFactor d highest r).map fun sc =>
    let c := sc * d.U ^ (highest - t.loop.length) * t.coef * (pairs.map fun p => d.aM p.1.1 p.2.1).prod
    let es := matchLoop (pairs.map fun p => (⟨p.1.2, p.2.2, true⟩ : Entry I))
    let p := contractVecs pIdx es
    let x := contractVecs t.ext p.2
    let g := leftover d.D x.2
    ⟨c * g.1, p.1.map (fun v => (d.P v.1, v.2)) ++ x.1.map (fun v => (Pi.single v.1 1, v.2)), g.2⟩

/-- `from_propagators.py:391-554`: the summands of one term, over `powerset(loop_tensor, stride=2)` and
`all_pairs(A_indices)`. -/
def termSummands (d : Data L E) (highest : ℕ) (t : Term L E I) : Option (List (Summand E I)) :=
  (Misc.powerset t.loop 0 2).bind fun subsets =>
    (subsets.mapM fun A =>
      (Misc.missing t.loop A).bind fun pIdx =>
        (Misc.allPairs A).bind fun pairings =>
          pairings.mapM fun pairs => summand d highest A.length t pairs pIdx).map List.flatten

/-- `from_propagators.py:324-556` `preliminary_numerator` (with `_numerator_tensors`): the list of the summands.
`isOne` is the test `self.numerator_input == 1` (lines 346-347). -/
def numerator (d : Data L E) (indices : List I) (isOne : Bool) (terms : List (Term L E I)) :
    Option (List (Summand E I)) :=
  (terms.mapM (tensors indices)).bind fun ts =>
    (highestRank ts).bind fun highest =>
      if isOne then some [⟨1, [], []⟩]
      else (ts.mapM (termSummands d highest)).map List.flatten

/-- `common.py:61-64` `exponent_U`, without derivatives (`U_derivatives = 0`). -/
def exponentU (d : Data L E) (highest : ℕ) : ℂ := d.Nnu - 0 - d.D / 2 * (L + 1) - highest

/-- `common.py:70-72` `exponent_F`, without derivatives. -/
def exponentF (d : Data L E) : ℂ := d.D / 2 * L - (d.Nnu + 0)

/-- `common.py:328-330` `Gamma_argument`. -/
def gammaArgument (d : Data L E) (highest : ℕ) : ℂ := d.Nnu - d.D * L / 2 - (highest / 2 : ℕ)

end
end Numer
end SecDec
