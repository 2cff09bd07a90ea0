import Verif.Proof.SeriesFmt
/-
The text for Mathematica has the value of the series.
-/
namespace SecDec
namespace SeriesText
variable {R : Type} {nv : R → ℝ} {env : Str → ℂ} {ω : ℂ → ℂ}

/-- the text is a sum of value `v` -/
def RSum (nv : R → ℝ) (env : Str → ℂ) (ω : ℂ → ℂ) (n : ℕ) (ts : List (Tok R)) (v : ℂ) : Prop :=
  ∀ rest, EndSum rest → evalSum nv env ω n (ts ++ rest) = some (v, rest)

theorem RProd.sum {n : ℕ} (hn : 3 ≤ n) {ts : List (Tok R)} {v : ℂ} (h : RProd nv env ω n ts v) : RSum nv env ω (n + 1) ts v := by
  intro rest hr
  have := sum_of h .nil (by simpa using hn) rest hr
  simpa using this

theorem orderM_prod (p : Str) (k : ℤ) (n : ℕ) : ∃ t : List (Tok R),
    fmtOrderM (some p) k = .plus :: t ∧ RProd nv env ω n t (ω (env p ^ k)) := by
  unfold fmtOrderM
  by_cases h1 : k = 1
  · refine ⟨[.order, .lbrk, .name p, .rbrk], by rw [if_pos h1]; rfl, fun m hm rest hr => ?_⟩
    obtain ⟨m, rfl⟩ : ∃ k, m = k + 1 := ⟨m - 1, by omega⟩
    have ha : evalAtom nv env ω (evalSum nv env ω n) ([.order, .lbrk, .name p, .rbrk] ++ rest) = some (ω (env p ^ k), rest) := by
      rw [h1, zpow_one]
      rcases rest with _ | ⟨t, rest⟩
      · rfl
      · cases t <;> first | rfl | exact absurd hr (by simp [EndProd])
    unfold evalProduct evalPower
    rw [ha]
    rcases rest with _ | ⟨t, rest⟩
    · rfl
    · cases t <;> first | rfl | exact absurd hr (by simp [EndProd])
  · by_cases h2 : 0 < k
    · refine ⟨[.order, .lbrk, .name p, .rbrk, .pow, .int k], by rw [if_neg h1, if_pos h2]; rfl, RAtom.prod fun rest => rfl⟩
    · refine ⟨[.order, .lbrk, .name p, .rbrk, .div, .name p, .pow, .int (1 - k)], by rw [if_neg h1, if_neg h2]; rfl, RAtom.prod fun rest => ?_⟩
      show (if p = p then some (ω (env p ^ (1 - (1 - k))), rest) else none) = _
      rw [if_pos rfl, sub_sub_cancel]

theorem evalList_join {n : ℕ} : ∀ {L : List (List (Tok R))} {vs : List ℂ}, List.Forall₂ (RSum nv env ω n) L vs → L ≠ [] →
    ∀ (m : ℕ) (rest : List (Tok R)), L.length ≤ m →
      evalList (evalSum nv env ω n) m (joinComma L ++ .rbrace :: rest) = some (vs, rest)
  | [], _, _, hne, _, _, _ => absurd rfl hne
  | [t], _, .cons h .nil, _, m, rest, hm => by
    obtain ⟨m, rfl⟩ : ∃ k, m = k + 1 := ⟨m - 1, by simp at hm; omega⟩
    rw [joinComma, evalList, h (.rbrace :: rest) trivial]
  | t :: t' :: L, v :: vs, .cons h hs, _, m, rest, hm => by
    obtain ⟨m, rfl⟩ : ∃ k, m = k + 1 := ⟨m - 1, by simp at hm; omega⟩
    have e : joinComma (t :: t' :: L) ++ .rbrace :: rest = t ++ (.comma :: (joinComma (t' :: L) ++ .rbrace :: rest)) := by
      simp [joinComma]
    rw [e, evalList, h (.comma :: _) trivial]
    dsimp only
    rw [evalList_join hs (by simp) m rest (by simp at hm ⊢; omega)]
    rfl

theorem joinComma_length : ∀ (L : List (List (Tok R))), L.length ≤ (joinComma L).length + 1
  | [] => by simp
  | [t] => by simp
  | t :: t' :: L => by
    have := joinComma_length (t' :: L)
    rw [joinComma]
    · simp only [List.length_cons, List.length_append] at this ⊢; omega
    · simp

theorem toPys_snd : ∀ (vs : List (CVal R)) (i : ℤ), (toPys i vs).map Prod.snd = (List.range vs.length).map (fun (k : ℕ) => i + (k : ℤ))
  | [], i => by simp [toPys]
  | v :: vs, i => by
    rw [toPys, List.map_cons, toPys_snd vs (i + 1), List.length_cons, List.range_succ_eq_map, List.map_cons, List.map_map]
    congr 1
    · simp
    · refine List.map_congr_left fun k _ => ?_
      simp only [Function.comp, Nat.succ_eq_add_one, Nat.cast_add, Nat.cast_one]; ring

theorem min_exps (i : ℤ) (k : ℕ) (hk : 0 < k) : ((List.range k).map (fun (j : ℕ) => i + (j : ℤ))).min? = some i := by
  rw [List.min?_eq_some_iff]
  constructor
  · exact List.mem_map.2 ⟨0, List.mem_range.2 hk, by simp⟩
  · intro b hb
    obtain ⟨j, _, rfl⟩ := List.mem_map.1 hb
    simp

theorem powerSum_vals (mean : Bool) (p : Str) : ∀ (vs : List (CVal R)) (i : ℤ),
    powerSum (env p) i (vs.map (value nv env ω mean)) = values nv env ω mean p i vs
  | [], i => by simp [powerSum, values]
  | v :: vs, i => by rw [List.map_cons, powerSum, values, powerSum_vals mean p vs (i + 1)]

theorem isSeries_any : ∀ (vs : List (CVal R)) (i : ℤ), ((toPys i vs).any (fun t => isSeries t.1)) = true ↔ ∃ v ∈ vs, IsSer v
  | [], i => by simp [toPys]
  | v :: vs, i => by
    have hv : isSeries (toPy v) = true ↔ IsSer v := by
      cases v with
      | num x => cases x <;> simp [toPy, numPy, isSeries, IsSer]
      | dev m s => simp [toPy, isSeries, IsSer]
      | ser o c t p => simp [toPy, isSeries, IsSer]
    rw [toPys, List.any_cons, Bool.or_eq_true, isSeries_any vs (i + 1), hv]
    simp

/-- what holds for a value -/
def Fine (nv : R → ℝ) (env : Str → ℂ) (ω : ℂ → ℂ) (mean : Bool) (n : ℕ) (ts : List (Tok R)) (v : CVal R) : Prop :=
  RSum nv env ω n ts (value nv env ω mean v) ∧ (¬ IsSer v → RAtom nv env ω n ts (value nv env ω mean v))

theorem fine_terms (mean : Bool) (n : ℕ) (p : Str) (var : Option Str) : ∀ (vs : List (CVal R)) (L : List (List (Tok R))) (i : ℤ),
    List.Forall₂ (Fine nv env ω mean n) L vs → (∀ v ∈ vs, ¬ IsSer v) → (var = some p ∨ vs = [] ∨ (i = 0 ∧ vs.length ≤ 1)) →
    List.Forall₂ (RProd nv env ω n) (List.zipWith (fun v k => fmtTerm v var k) L ((toPys i vs).map Prod.snd)) (termVals nv env ω mean p i vs)
  | [], _, i, .nil, _, _ => by simp [toPys, termVals]
  | v :: vs, t :: L, i, .cons h hs, hn, hv => by
    rw [toPys, List.map_cons, List.zipWith_cons_cons, termVals]
    refine .cons ((h.2 (hn v (by simp))).term var p i ?_) (fine_terms mean n p var vs L (i + 1) hs (fun v hv => hn v (by simp [hv])) ?_)
    · rcases hv with hv | hv | hv
      exacts [Or.inr hv, by simp at hv, Or.inl hv.1]
    · rcases hv with hv | hv | ⟨_, h2⟩
      · exact Or.inl hv
      · simp at hv
      · right; left; simpa using h2

theorem atom_fine {mean : Bool} {ts : List (Tok R)} {v : CVal R} (h : ∃ N, ∀ n, N ≤ n → RAtom nv env ω n ts (value nv env ω mean v)) :
    ∃ N, ∀ n, N ≤ n → Fine nv env ω mean n ts v := by
  obtain ⟨N, hN⟩ := h
  refine ⟨N + 4, fun n hn => ⟨?_, fun _ => hN n (by omega)⟩⟩
  obtain ⟨n, rfl⟩ : ∃ k, n = k + 1 := ⟨n - 1, by omega⟩
  exact (hN n (by omega)).prod.sum (by omega)

theorem fmtValueM_num (mean : Bool) (x : CNum R) : fmtValueM mean (numPy x) = some (fmtValue mean (numPy x)) := by
  cases x <;> simp [numPy, fmtValueM, fmtValue]

mutual
theorem mma_val : ∀ (v : CVal R) (mean : Bool), WF v → Flat v →
    ∃ ts, fmtValueM mean (toPy v) = some ts ∧ ∃ N, ∀ n, N ≤ n → Fine nv env ω mean n ts v
  | .num x, mean, _, _ => by
    rw [toPy]
    refine ⟨_, fmtValueM_num mean x, atom_fine ?_⟩
    rw [value]
    cases mean with
    | true => exact num_atom x
    | false => exact ⟨0, fun n _ => zero_atom x n⟩
  | .dev m s, mean, _, _ => by
    rw [toPy, fmtValueM]
    cases mean with
    | true =>
      refine ⟨_, fmtValueM_num true m, atom_fine ?_⟩
      rw [value]; exact num_atom m
    | false =>
      refine ⟨_, fmtValueM_num true s, atom_fine ?_⟩
      rw [value]; exact num_atom s
  | .ser omin content trunc p, mean, h, hf => by
    rw [WF] at h
    rw [Flat] at hf
    obtain ⟨L, hL, N, hN⟩ := mma_vals content mean omin h.2.2 hf.2
    rw [toPy, fmtValueM, hL]
    simp only [Option.bind_eq_bind, Option.bind_some]
    set var := (if trunc = false ∧ omin = 0 ∧ content.length ≤ 1 then none else some p) with hvar
    have hv : var = some p ∨ content = [] ∨ (omin = 0 ∧ content.length ≤ 1) := by
      by_cases hc : trunc = false ∧ omin = 0 ∧ content.length ≤ 1
      · exact Or.inr (Or.inr hc.2)
      · exact Or.inl (if_neg hc)
    have hlen : L.length = content.length := (hN N le_rfl).length_eq
    have hpos : 0 < content.length := List.length_pos_iff.2 h.1
    -- the terms of a series of numbers
    have hterms : (∀ v ∈ content, ¬ IsSer v) → ∃ (t : List (Tok R)) (T : List (List (Tok R))),
        List.zipWith (fun v k => fmtTerm v var k) L ((toPys omin content).map Prod.snd) = t :: T ∧ T.length + 1 = content.length ∧
        ∀ n, N ≤ n → ∃ w vs, RProd nv env ω n t w ∧ List.Forall₂ (RProd nv env ω n) T vs ∧ w + vs.sum = values nv env ω mean p omin content := by
      intro hns
      have hall := fun n hn => fine_terms mean n p var content L omin (hN n hn) hns hv
      rcases hT : List.zipWith (fun v k => fmtTerm v var k) L ((toPys omin content).map Prod.snd) with _ | ⟨t, T⟩
      · have := (hall N le_rfl).length_eq
        rw [hT] at this
        have h2 : (termVals nv env ω mean p omin content).length = 0 := this.symm
        rcases content with _ | ⟨v, vs⟩
        · simp at hpos
        · simp [termVals] at h2
      · refine ⟨t, T, rfl, ?_, fun n hn => ?_⟩
        · have := congrArg List.length hT
          rw [toPys_snd] at this
          simp only [List.length_zipWith, List.length_map, List.length_range, List.length_cons, hlen, min_self] at this
          omega
        · have := hall n hn
          rw [hT] at this
          rw [← termVals_sum]
          rcases hV : termVals nv env ω mean p omin content with _ | ⟨w, vs⟩
          · rw [hV] at this; cases this
          · rw [hV] at this
            obtain ⟨h1, h2⟩ := List.forall₂_cons.1 this
            exact ⟨w, vs, h1, h2, by simp⟩
    cases trunc with
    | false =>
      obtain ⟨t, T, hT, hTl, hR⟩ := hterms (hf.1 rfl)
      refine ⟨joinPlus (t :: T), by simp [fmtSeriesM, hT], N + content.length + 10, fun n hn => ⟨?_, fun hs => absurd trivial hs⟩⟩
      intro rest hr
      obtain ⟨n, rfl⟩ : ∃ k, n = k + 1 := ⟨n - 1, by omega⟩
      obtain ⟨w, vs, h1, h2, h3⟩ := hR n (by omega)
      rw [joinPlus_cons, List.append_assoc, sum_of h1 h2 (by omega) rest hr, value, h3]
      simp
    | true =>
      have hvs : var = some p := by rw [hvar, if_neg (by simp)]
      by_cases hany : ((toPys omin content).any (fun t => isSeries t.1)) = true
      · rw [hany]
        have hexp : (toPys omin content).map Prod.snd = (List.range (omin + content.length - omin).toNat).map (fun (k : ℕ) => omin + (k : ℤ)) := by
          rw [toPys_snd, add_sub_cancel_left, Int.toNat_natCast]
        refine ⟨_, by
          rw [if_pos rfl, fmtSeriesM, if_pos rfl, toPys_snd, min_exps omin _ hpos]
          dsimp only
          rw [if_neg (by rw [not_not, ← toPys_snd]; exact hexp)], N + 4, fun n hn => ⟨?_, fun hs => absurd trivial hs⟩⟩
        obtain ⟨n, rfl⟩ : ∃ k, n = k + 1 := ⟨n - 1, by omega⟩
        refine (RAtom.prod fun rest => ?_).sum (by omega)
        have hmap : L.map (fun v => fmtTerm v var 0) = L := by simp [fmtTerm]
        rw [hmap, hvs]
        have hLne : L ≠ [] := by rintro rfl; simp at hlen; omega
        have hS : List.Forall₂ (RSum nv env ω n) L (content.map (value nv env ω mean)) :=
          List.forall₂_map_right_iff.2 ((hN n (by omega)).imp fun _ _ h => h.1)
        set tail : List (Tok R) := .comma :: .int omin :: .comma :: .int (omin + content.length) :: .comma :: .int 1 :: .rbrk :: rest with htail
        have e : [Tok.seriesData, .lbrk, .name (varName (some p)), .comma, .int 0, .comma, .lbrace] ++ joinComma L ++
            [.rbrace, .comma, .int omin, .comma, .int (omin + content.length), .comma, .int 1, .rbrk] ++ rest =
            .seriesData :: .lbrk :: .name p :: .comma :: .int 0 :: .comma :: .lbrace :: (joinComma L ++ .rbrace :: tail) := by
          simp [htail, varName]
        rw [e, evalAtom, evalList_join hS hLne _ tail (by
          have := joinComma_length L
          simp only [List.length_append, List.length_cons]; omega)]
        rw [htail]
        dsimp only
        rw [if_pos ⟨rfl, rfl⟩, powerSum_vals, value, if_pos rfl]
      · have hns : ∀ v ∈ content, ¬ IsSer v := fun v hv' hs => hany ((isSeries_any content omin).2 ⟨v, hv', hs⟩)
        obtain ⟨t, T, hT, hTl, hR⟩ := hterms hns
        rw [Bool.not_eq_true] at hany
        rw [hany]
        refine ⟨joinPlus (t :: T) ++ fmtOrderM var (omin + content.length), by simp [fmtSeriesM, hT], N + content.length + 10,
          fun n hn => ⟨?_, fun hs => absurd trivial hs⟩⟩
        intro rest hr
        obtain ⟨n, rfl⟩ : ∃ k, n = k + 1 := ⟨n - 1, by omega⟩
        obtain ⟨w, vs, h1, h2, h3⟩ := hR n (by omega)
        obtain ⟨o, ho, hp⟩ := orderM_prod (nv := nv) (env := env) (ω := ω) (R := R) p (omin + content.length) n
        have h4 : List.Forall₂ (RProd nv env ω n) (T ++ [o]) (vs ++ [ω (env p ^ (omin + content.length))]) :=
          List.rel_append h2 (List.Forall₂.cons hp .nil)
        have := sum_of h1 h4 (by simp; omega) rest hr
        rw [List.flatMap_append] at this
        rw [hvs, ho, joinPlus_cons, value, if_pos rfl, ← h3]
        simp only [List.flatMap_cons, List.flatMap_nil, List.append_nil, List.append_assoc, List.sum_append, List.sum_cons, List.sum_nil, add_zero] at this ⊢
        rw [this, add_assoc]
theorem mma_vals : ∀ (vs : List (CVal R)) (mean : Bool) (i : ℤ), WFs vs → Flats vs →
    ∃ L, fmtValuesM mean (toPys i vs) = some L ∧ ∃ N, ∀ n, N ≤ n → List.Forall₂ (Fine nv env ω mean n) L vs
  | [], mean, i, _, _ => ⟨[], by rw [toPys, fmtValuesM], 0, fun n _ => .nil⟩
  | v :: vs, mean, i, h, hf => by
    rw [WFs] at h
    rw [Flats] at hf
    obtain ⟨t, ht, N, hN⟩ := mma_val v mean h.1 hf.1
    obtain ⟨L, hL, M, hM⟩ := mma_vals vs mean (i + 1) h.2 hf.2
    exact ⟨t :: L, by rw [toPys, fmtValuesM, ht, hL]; rfl, max N M, fun n hn => .cons (hN n (by omega)) (hM n (by omega))⟩
end

end SeriesText
end SecDec
