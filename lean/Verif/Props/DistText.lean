import Verif.Proof.DistValue
/-
C49: the text of a result of `disteval` is read and converted without changing its value.
-/
namespace SecDec
namespace SeriesText
variable {R : Type}

theorem entVal_entryOf (isZero : R → Bool) (nv : R → ℝ) (hz : ∀ r, isZero r = true → nv r = 0) (mean : Bool) (t : DTerm R) :
    entVal nv mean (entryOf isZero t).2 = t.coef nv mean := by
  have h : ∀ re im, pvalue nv (fun _ => 0) (fun _ => 0) true (pyNum isZero re im) = (nv re : ℂ) + (nv im : ℂ) * Complex.I := by
    intro re im
    unfold pyNum
    by_cases hi : isZero im = true
    · rw [if_pos hi, hz im hi]; simp [pvalue]
    · rw [if_neg hi]; simp [pvalue]
  unfold entVal entryOf DTerm.coef
  dsimp only
  rw [h, h]

theorem isNum_pyNum (isZero : R → Bool) (re im : R) : IsNum (pyNum isZero re im) := by
  unfold pyNum; split <;> trivial

/-- C49: whatever the regulators, the orders and the (finite) coefficients: from the text which `result_to_sympy` writes, the conversions
`series_to_ginac`, `series_to_sympy` and `series_to_maple` return for every sum two expressions whose values are the sum of the values
and the sum of the errors, as series in the first regulator with series in the other regulators as coefficients, each truncated after its
highest order. -/
theorem C49_convert (fin : R → Prop) (pr : R → Str) (rd : Str → Option R) (hp : SciPrinting fin pr rd) (isZero : R → Bool) (res : DResult R)
    (h : res.WF) (hf : ∀ ts ∈ res.sums, ∀ t ∈ ts, t.Fin fin) :
    ∃ out, convertDist rd isZero (resultText pr res) = some out ∧ List.Forall₂ (fun (ts : List (DTerm R)) (o : List (Tok R) × List (Tok R)) =>
      ∀ (nv : R → ℝ) (env : Str → ℂ) (ω : ℂ → ℂ), (∀ r, isZero r = true → nv r = 0) →
        Means nv env ω o.1 (truncated env ω res.regulators (ts.map (fun t => (t.powers, t.coef nv true)))) ∧
        Means nv env ω o.2 (truncated env ω res.regulators (ts.map (fun t => (t.powers, t.coef nv false))))) res.sums out := by
  have key : ∀ sums : List (List (DTerm R)), (∀ ts ∈ sums, ts ≠ [] ∧ (∀ t ∈ ts, t.powers.length = res.regulators.length) ∧ (ts.map DTerm.powers).Nodup) →
      ∃ pvs, (sums.map (fun ts => ts.map (entryOf isZero))).mapM (nest res.regulators 0) = some pvs ∧
        List.Forall₂ (fun (ts : List (DTerm R)) (o : List (Tok R) × List (Tok R)) =>
          ∀ (nv : R → ℝ) (env : Str → ℂ) (ω : ℂ → ℂ), (∀ r, isZero r = true → nv r = 0) →
            Means nv env ω o.1 (truncated env ω res.regulators (ts.map (fun t => (t.powers, t.coef nv true)))) ∧
            Means nv env ω o.2 (truncated env ω res.regulators (ts.map (fun t => (t.powers, t.coef nv false)))))
          sums (pvs.map (fun s => (fmtSeries true s, fmtSeries false s))) := by
    intro sums
    induction sums with
    | nil => intro _; exact ⟨[], rfl, .nil⟩
    | cons ts sums ih =>
      intro hs
      obtain ⟨pvs, e1, e2⟩ := ih (fun x hx => hs x (List.mem_cons_of_mem _ hx))
      obtain ⟨h1, h2, h3⟩ := hs ts (by simp)
      obtain ⟨pv, p1, p2, p3, p4⟩ := nest_spec res.regulators 0 (ts.map (entryOf isZero)) (by simpa using h1)
        (by
          intro e he
          obtain ⟨t, ht, rfl⟩ := List.mem_map.1 he
          simpa [entryOf] using h2 t ht)
        (by rw [List.map_map]; exact h3)
        (by
          intro e he
          obtain ⟨t, ht, rfl⟩ := List.mem_map.1 he
          exact ⟨_, _, rfl, isNum_pyNum _ _ _, isNum_pyNum _ _ _⟩)
      obtain ⟨terms, order, rfl⟩ := p3 h.regs
      refine ⟨.ser terms res.regulators.head? order :: pvs, ?_, ?_⟩
      · rw [List.map_cons, List.mapM_cons, p1, e1]; rfl
      · rw [List.map_cons]
        refine .cons ?_ e2
        intro nv env ω hz
        have hv : ∀ mean, pvalue nv env ω mean (.ser terms res.regulators.head? order) =
            truncated env ω res.regulators (ts.map (fun t => (t.powers, t.coef nv mean))) := by
          intro mean
          rw [p4, List.map_map]
          congr 1
          refine List.map_congr_left fun t _ => ?_
          show (t.powers.drop 0, entVal nv mean (entryOf isZero t).2) = _
          rw [entVal_entryOf isZero nv hz, List.drop_zero]
        exact ⟨hv true ▸ means_fmt true _ _ _ p2, hv false ▸ means_fmt false _ _ _ p2⟩
  obtain ⟨pvs, e1, e2⟩ := key res.sums (fun ts hts => ⟨h.terms ts hts, h.len ts hts, h.nodup ts hts⟩)
  refine ⟨pvs.map (fun s => (fmtSeries true s, fmtSeries false s)), ?_, e2⟩
  unfold convertDist
  rw [read_result hp isZero res h hf, e1]
  rfl

/-- C49: without the order terms the values are the sums of all terms, each coefficient times its product of powers of the regulators. -/
theorem C49_sum (fin : R → Prop) (pr : R → Str) (rd : Str → Option R) (hp : SciPrinting fin pr rd) (isZero : R → Bool) (res : DResult R)
    (h : res.WF) (hf : ∀ ts ∈ res.sums, ∀ t ∈ ts, t.Fin fin) :
    ∃ out, convertDist rd isZero (resultText pr res) = some out ∧ List.Forall₂ (fun (ts : List (DTerm R)) (o : List (Tok R) × List (Tok R)) =>
      ∀ (nv : R → ℝ) (env : Str → ℂ), (∀ r, isZero r = true → nv r = 0) →
        Means nv env (fun _ => 0) o.1 (sumValue nv env true res.regulators ts) ∧
        Means nv env (fun _ => 0) o.2 (sumValue nv env false res.regulators ts)) res.sums out := by
  obtain ⟨out, e1, e2⟩ := C49_convert fin pr rd hp isZero res h hf
  refine ⟨out, e1, ?_⟩
  have hlen := h.len
  clear e1 h hf
  generalize res.sums = sums at e2 hlen
  induction e2 with
  | nil => exact .nil
  | @cons ts o sums out h1 _ ih =>
    refine .cons ?_ (ih (fun x hx => hlen x (List.mem_cons_of_mem _ hx)))
    intro nv env hz
    have hv : ∀ mean, truncated env (fun _ => 0) res.regulators (ts.map (fun t => (t.powers, t.coef nv mean))) = sumValue nv env mean res.regulators ts := by
      intro mean
      rw [truncated_zero env _ _ (by
        intro e he
        obtain ⟨t, ht, rfl⟩ := List.mem_map.1 he
        exact hlen ts (by simp) t ht), List.map_map]
      rfl
    have := h1 nv env (fun _ => 0) hz
    rw [hv, hv] at this
    exact this

/-! ### Non-vacuity and defects -/

/-- integers with one exponent, or not a number -/
def prSci : Option ℤ → Str
  | none => "+nan".toList
  | some k => (if k < 0 then '-' else '+') :: ((toString k.natAbs).toList ++ "e+00".toList)

/-- reading them -/
def rdSci (s : Str) : Option (Option ℤ) :=
  if s.length < 4 then none else if s.drop (s.length - 4) = "e+00".toList then (readInt (s.take (s.length - 4))).map some else none

theorem printing_sci : SciPrinting (fun r : Option ℤ => r.isSome = true) prSci rdSci := by
  have hd : ∀ k : ℕ, ∀ c ∈ (toString k).toList, c.isDigit = true := by
    intro k c hc
    have hc' : c ∈ (toString (k : ℤ)).toList := hc
    rw [toString_int, if_neg (by omega)] at hc'
    simp only [List.nil_append, Int.natAbs_natCast] at hc'
    have h := readNat_digs k
    unfold readNat at h
    split at h
    · rename_i h'; exact List.all_eq_true.1 h'.2 c hc'
    · cases h
  constructor
  · rintro (_ | k) h
    · simp at h
    · have e : prSci (some k) = ((if k < 0 then '-' else '+') :: (toString k.natAbs).toList) ++ "e+00".toList := rfl
      unfold rdSci
      rw [e]
      have hl : (((if k < 0 then '-' else '+') :: (toString k.natAbs).toList) ++ "e+00".toList).length - 4 =
          ((if k < 0 then '-' else '+') :: (toString k.natAbs).toList).length := by
        rw [List.length_append]; rfl
      rw [if_neg (by rw [List.length_append]; simp), hl, List.drop_left, List.take_left, if_pos rfl]
      have hn : readNat (toString k.natAbs).toList = some k.natAbs := by
        have h1 := readNat_digs k.natAbs
        have h2 := toString_int (k.natAbs : ℤ)
        rw [if_neg (by omega), List.nil_append, Int.natAbs_natCast] at h2
        rw [← h2] at h1
        exact h1
      by_cases hk : k < 0
      · rw [if_pos hk, readInt, hn]
        show some (some _) = some (some _)
        congr 2; beta_reduce; omega
      · rw [if_neg hk, readInt, hn]
        show some (some _) = some (some _)
        congr 2; beta_reduce; omega
  · rintro (_ | k) h
    · simp at h
    · have h1 : prSci (some k) = (if k < 0 then '-' else '+') :: (((toString k.natAbs).toList ++ "e+0".toList) ++ ['0']) := by
        unfold prSci; rw [List.append_assoc]; rfl
      have h2 : (if k < 0 then '-' else '+') = '+' ∨ (if k < 0 then '-' else '+') = '-' := by
        by_cases hk : k < 0
        · exact Or.inr (if_pos hk)
        · exact Or.inl (if_neg hk)
      have h3 : ('0' : Char).isDigit = true := by decide
      exact Exists.intro _ (Exists.intro _ (Exists.intro _ (And.intro h1 (And.intro h2 h3))))
  · rintro (_ | k) h
    · simp at h
    · intro c hc
      unfold prSci at hc
      simp only [List.mem_cons, List.mem_append] at hc
      rcases hc with rfl | hc | hc
      · by_cases hk : k < 0
        · rw [if_pos hk]; simp
        · rw [if_neg hk]; simp
      · exact Or.inl (by simp [Char.isAlphanum, hd _ c hc])
      · revert c; decide
  · rintro (_ | k) h
    · simp at h
    · intro a s b e hs c hc
      rcases a with _ | ⟨c0, a⟩
      · simp at hc
      · unfold prSci at e
        rw [List.cons_append] at e
        have e' := (List.cons.inj e).2
        rcases append_cases e' with ⟨z, hz, ha, hy⟩ | ⟨ha, hb⟩ | ⟨z, hz, hx, hb⟩
        · rcases z with _ | ⟨s', z⟩
          · exact absurd rfl hz
          · rw [List.cons_append] at hy
            obtain ⟨rfl, _⟩ := List.cons.inj hy
            have := hd k.natAbs s (by rw [ha]; simp)
            rcases hs with rfl | rfl <;> exact absurd this (by decide)
        · have : 'e' = s := (List.cons.inj hb).1
          subst this
          rcases hs with h | h <;> exact absurd h (by decide)
        · rcases z with _ | ⟨z0, z⟩
          · exact absurd rfl hz
          · have h0 : 'e' = z0 ∧ "+00".toList = z ++ s :: b := List.cons.inj hb
            obtain ⟨rfl, h0⟩ := h0
            rcases z with _ | ⟨z1, z⟩
            · rw [hx] at hc
              have : (c0 :: ((toString k.natAbs).toList ++ ['e'])).getLast? = some 'e' := getLast?_cons_append _ _ _
              rw [this] at hc
              obtain rfl := Option.some.inj hc
              decide
            · have h1 : "00".toList = z ++ s :: b := (List.cons.inj h0).2
              have h2 : s ∈ "00".toList := by rw [h1]; simp
              rcases hs with rfl | rfl <;> exact absurd h2 (by decide)
  · rintro (_ | k) h
    · simp [prSci]
    · simp at h

/-- an integer is zero -/
def zeroSci : Option ℤ → Bool
  | some k => k == 0
  | none => false

/-- two sums in two regulators -/
def sampleResult : DResult (Option ℤ) :=
  ⟨["alpha".toList, "eps".toList],
    [[⟨[-1, -2], some 1, some (-2), some 3, some 4⟩, ⟨[-1, -1], some 5, some 0, some 6, some 0⟩, ⟨[0, -1], some (-7), some 8, some 1, some 1⟩],
     [⟨[0, 0], some 9, some 0, some 1, some 0⟩]]⟩

example : sampleResult.WF ∧ ∀ ts ∈ sampleResult.sums, ∀ t ∈ ts, t.Fin (fun r : Option ℤ => r.isSome = true) := by
  refine ⟨⟨by simp [sampleResult], ?_, by simp [sampleResult], ?_, ?_, ?_⟩, ?_⟩ <;>
    simp [sampleResult, Identifier, DTerm.Fin]

example : String.ofList (resultText prSci sampleResult) =
"[
  (
    +alpha^-1*eps^-2*(+1e+00-2e+00j)
    +alpha^-1*eps^-2*(+3e+00+4e+00j)*plusminus
    +alpha^-1*eps^-1*(+5e+00+0e+00j)
    +alpha^-1*eps^-1*(+6e+00+0e+00j)*plusminus
    +alpha^0*eps^-1*(-7e+00+8e+00j)
    +alpha^0*eps^-1*(+1e+00+1e+00j)*plusminus
  ),
  (
    +alpha^0*eps^0*(+9e+00+0e+00j)
    +alpha^0*eps^0*(+1e+00+0e+00j)*plusminus
  )
]" := by decide +kernel

/-- a result whose coefficient of order zero is not a number -/
def nanResult : DResult (Option ℤ) :=
  ⟨["eps".toList], [[⟨[-1], some 1, some 0, some 0, some 0⟩, ⟨[0], none, none, none, none⟩, ⟨[1], some 3, some 0, some 1, some 0⟩]]⟩

/-- the same result without this coefficient -/
def nanResult' : DResult (Option ℤ) :=
  ⟨["eps".toList], [[⟨[-1], some 1, some 0, some 0, some 0⟩, ⟨[1], some 3, some 0, some 1, some 0⟩]]⟩

instance : DecidableEq (Option (List (List (Tok (Option ℤ)) × List (Tok (Option ℤ))))) :=
  have : DecidableEq (Tok (Option ℤ)) := inferInstance
  have : DecidableEq (List (Tok (Option ℤ))) := inferInstance
  have : DecidableEq (List (Tok (Option ℤ)) × List (Tok (Option ℤ))) := inferInstance
  inferInstance

/-- C49, defect: a coefficient which is not a number is left out without notice, the converted series is that of the coefficient zero,
`1/eps + 3*eps + O(eps^2)`. -/
theorem C49_nan_dropped : convertDist rdSci zeroSci (resultText prSci nanResult) = convertDist rdSci zeroSci (resultText prSci nanResult') ∧
    convertDist rdSci zeroSci (resultText prSci nanResult) = some
      [([.num (some 1), .div, .name "eps".toList, .plus, .num (some 3), .times, .name "eps".toList, .plus, .order, .lpar, .name "eps".toList, .pow, .int 2, .rpar],
        [.num (some 0), .div, .name "eps".toList, .plus, .num (some 1), .times, .name "eps".toList, .plus, .order, .lpar, .name "eps".toList, .pow, .int 2, .rpar])] := by
  decide +kernel

/-- C49, defect: a result with a sum without terms (all orders vanish) cannot be converted, although it is written as `0`. -/
theorem C49_empty_sum_raises : convertDist rdSci zeroSci (resultText prSci ⟨["eps".toList], [[], [⟨[0], some 1, some 0, some 0, some 0⟩]]⟩) = none ∧
    convertDist rdSci zeroSci (resultText prSci ⟨["eps".toList], [[]]⟩) = none := by
  decide +kernel

end SeriesText
end SecDec
