import Verif.Proof.Orders
import Mathlib.Tactic.FinCases
import Mathlib.Tactic.NormNum
set_option linter.unusedSectionVars false
/-
C27 and C30: truncated multiplication of expansions, and the order bookkeeping of sums of integrals.
-/
namespace SecDec
namespace Orders
variable {r : ℕ}

/-- C27: `bracket_mul(a, b, maxorders)` is the product of the Laurent polynomials `a` and `b`
without the terms that exceed `maxorders` in any regulator: the coefficients up to `maxorders` are
those of the product, all others vanish, each order is listed once, and exactly the orders up to
`maxorders` occurring in the expanded product are listed. -/
theorem C27_bracket_mul {F : Type*} [CommRing F] (a b : List (Ord r × F)) (mx : Ord r) :
    (∀ k, k ≤ mx → (lpoly (bracketMul (· * ·) a b mx)).coeff k = (lpoly a * lpoly b).coeff k) ∧
    (∀ k, ¬ k ≤ mx → (lpoly (bracketMul (· * ·) a b mx)).coeff k = 0) ∧
    ((bracketMul (· * ·) a b mx).map (·.1)).Nodup ∧
    (∀ k, k ∈ (bracketMul (· * ·) a b mx).map (·.1) ↔
      k ≤ mx ∧ ∃ s ∈ a, ∃ t ∈ b, s.1 + t.1 = k) := by
  obtain ⟨h1, h2, -⟩ := bracketMul_spec (fun x y : F => x * y) a b mx
  refine ⟨fun k hk => ?_, fun k hk => ?_, h1, h2⟩
  · rw [coeff_lpoly_bracketMul, if_pos]; exact hk
  · rw [coeff_lpoly_bracketMul, if_neg]; exact hk

/-- C27 for an arbitrary `mul` (as used with `mul_variance`): the value stored under `k` is the sum of
`mul x y` over all pairs of terms whose orders add up to `k`. -/
theorem C27_bracket_mul_general {A B C : Type*} [AddCommMonoid C] (mul : A → B → C)
    (a : List (Ord r × A)) (b : List (Ord r × B)) (mx k : Ord r) (v : C)
    (h : (k, v) ∈ bracketMul mul a b mx) :
    k ≤ mx ∧ v = ((a ×ˢ b).map fun st => if st.1.1 + st.2.1 = k then mul st.1.2 st.2.2 else 0).sum := by
  obtain ⟨h1, h2, h3⟩ := bracketMul_spec mul a b mx
  have hk : allLe k mx := ((h2 k).1 (List.mem_map.2 ⟨_, h, rfl⟩)).1
  refine ⟨hk, ?_⟩
  have h4 : dget (bracketMul mul a b mx) k = some v := by
    have gen : ∀ d : List (Ord r × C), (d.map (·.1)).Nodup → (k, v) ∈ d → dget d k = some v := by
      intro d hd hm
      induction d with
      | nil => simp at hm
      | cons t d ih =>
        obtain ⟨x, y⟩ := t
        rw [List.map_cons, List.nodup_cons] at hd
        rcases List.mem_cons.1 hm with h' | h'
        · cases h'; simp [dget]
        · have : x ≠ k := by rintro rfl; exact hd.1 (List.mem_map.2 ⟨_, h', rfl⟩)
          simp [dget, this, ih hd.2 h']
    exact gen _ h1 h
  have h5 := h3 k
  rw [h4, Option.getD_some] at h5
  rw [h5]
  simp only [hk, true_and]
  clear h h1 h2 h3 h4 h5
  induction a with
  | nil => simp
  | cons s a ih =>
    rw [List.map_cons, List.sum_cons, ih, List.product_cons, List.map_append, List.sum_append,
      List.map_map]
    rfl

/-- The product of `1/ε + 2` and `3/ε + 5 + 7 ε` up to order `0`. -/
example : bracketMul (· * ·) [((![-1] : Ord 1), (1 : ℤ)), (![0], 2)] [(![-1], 3), (![0], 5), (![1], 7)] ![0]
    = [(![-2], 3), (![-1], 11), (![0], 17)] := by decide

/-! ### C30 -/

/-- One term `coefficient * prefactor * integral` of an amplitude: the data the program works with
(number of the amplitude, description of the integral, expanded coefficient, the orders `pkg` for which
the package of the integral was generated and its `lowest_orders`), and the exact Laurent series of the
prefactor, of the coefficient and of the integral. -/
structure Term (r : ℕ) (κ F : Type*) [CommRing F] where
  amp : ℕ
  info : Info r κ F
  coef : List (Ord r × F)
  pkg : Ord r
  lowest : Ord r
  P : Laurent r F
  C : Laurent r F
  K : Laurent r F
  /-- leading orders of prefactor, coefficient and integral; highest listed orders of the integral -/
  pl : Ord r
  cl : Ord r
  kl : Ord r
  kh : Ord r

section
variable {κ F : Type*} [DecidableEq κ] [Fintype κ] [CommRing F]

/-- What the code generation and the workers deliver: the prefactor is expanded up to
`prefactor_highest_orders`, the coefficient up to the orders requested by `do_eval`, the kernels add up
to the coefficients of the integral up to the highest orders listed. -/
structure Term.OK (rq : Ord r) (val : κ → F) (t : Term r κ F) : Prop where
  pl_eq : minAxis0 (t.info.pref.map (·.1)) = some t.pl
  cl_eq : minAxis0 (t.coef.map (·.1)) = some t.cl
  kl_eq : minAxis0 (t.info.orders.map (·.1)) = some t.kl
  kh_eq : maxAxis0 (t.info.orders.map (·.1)) = some t.kh
  lowest_le : t.lowest ≤ t.kl
  kh_le : t.kh ≤ requiredOrders t.pkg t.pl
  pref : Expands t.info.pref t.P (requiredPrefactorOrders t.pkg t.lowest)
  coef : ∃ h, coefOrd t.info rq = some h ∧ Expands t.coef t.C h
  kern : Expands (t.info.orders.map (kernVal val)) t.K t.kh

/-- The exact Laurent series of the amplitude number `a`. -/
noncomputable def exactAmplitude (terms : List (Term r κ F)) (a : ℕ) : Laurent r F :=
  ((terms.filter fun t => t.amp = a).map fun t => t.P * t.C * t.K).sum

def Term.data (t : Term r κ F) : ℕ × Info r κ F × List (Ord r × F) := (t.amp, t.info, t.coef)

theorem Term.OK.coeff {rq : Ord r} {val : κ → F} {t : Term r κ F} (h : t.OK rq val) {p : Ord r}
    (hp : p ≤ rq) (hk : p ≤ t.pl + t.cl + t.kh) :
    (t.P * t.C * t.K).coeff p =
      (lpoly t.info.pref * lpoly t.coef * lpoly (t.info.orders.map (kernVal val))).coeff p := by
  obtain ⟨hC, hC1, hC2⟩ := h.coef
  simp only [coefOrd, h.pl_eq, h.kl_eq, Option.some.injEq] at hC1
  subst hC1
  refine coeff_triple h.pref hC2 h.kern h.pl_eq h.cl_eq (by rw [List.map_map]; exact h.kl_eq) ?_ ?_ hk
  · intro i
    have a1 := hk i; have a2 := h.kh_le i; have a3 := h.lowest_le i
    simp only [Pi.add_apply, requiredPrefactorOrders, requiredOrders, Pi.sub_apply] at *; linarith
  · intro i
    have a1 := hp i
    simp only [Pi.add_apply, Pi.sub_apply, Pi.neg_apply] at *; linarith

theorem splitAll_value (rq : Ord r) (val : κ → F) (terms : List (Term r κ F)) (ht : ∀ t ∈ terms, t.OK rq val)
    (a : ℕ) (p : Ord r) (hp : p ≤ rq) (hk : ∀ t ∈ terms, t.amp = a → p ≤ t.pl + t.cl + t.kh)
    (tab0 tab : Table r κ F)
    (h : (terms.map Term.data).foldlM (fun tab t => splitIntegral tab t.1 t.2.1 t.2.2 rq) tab0 = some tab) :
    rowVal tab (a, p) val = rowVal tab0 (a, p) val +
      ((terms.filter (·.amp = a)).map fun t => (t.P * t.C * t.K).coeff p).sum := by
  induction terms generalizing tab0 with
  | nil => simp at h; simp [h]
  | cons t terms ih =>
    simp only [List.map_cons, List.foldlM_cons, Option.bind_eq_bind, Option.bind_eq_some_iff] at h
    obtain ⟨tab1, h1, h2⟩ := h
    have hOK := ht t (by simp)
    rw [ih (fun u hu => ht u (by simp [hu])) (fun u hu => hk u (by simp [hu])) tab1 h2,
      splitIntegral_value h1 hOK.pl_eq hOK.cl_eq hOK.kl_eq hOK.kh_eq]
    by_cases ha : t.amp = a
    · have hk' := hk t (by simp) ha
      have : (Term.data t).1 = a ∧ allLe p rq ∧ allLe p (t.pl + t.cl + t.kh) := ⟨ha, hp, hk'⟩
      rw [if_pos this, List.filter_cons_of_pos (by simpa using ha), List.map_cons, List.sum_cons,
        hOK.coeff hp hk', add_assoc]
      rfl
    · have : ¬ ((Term.data t).1 = a ∧ allLe p rq ∧ allLe p (t.pl + t.cl + t.kh)) := fun h => ha h.1
      rw [if_neg this, List.filter_cons_of_neg (by simpa using ha), add_zero]

/-- C30: whatever the leading orders of prefactors, coefficients and integrals, and in whatever order
the answers of the workers arrive, the number reported for amplitude `a` at the order `p` is the
coefficient of `p` in the exact sum of the products prefactor * coefficient * integral, provided that `p`
does not exceed the requested orders, nor, for any term of that amplitude, the sum of the leading orders of
prefactor and coefficient and the highest order of the integral: no truncation of prefactor, coefficient
or integral loses a contribution. (An order that is not listed has the value `0`.) -/
theorem C30_amplitude_exact (rq : Ord r) (val : κ → F) (terms : List (Term r κ F))
    (ht : ∀ t ∈ terms, t.OK rq val) (tab : Table r κ F)
    (h : splitAll rq (terms.map Term.data) = some tab)
    (a : ℕ) (p : Ord r) (hp : p ≤ rq) (hk : ∀ t ∈ terms, t.amp = a → p ≤ t.pl + t.cl + t.kh) :
    (ampVal tab (a, p) val).getD 0 =
      (exactAmplitude terms a).coeff p := by
  have := splitAll_value rq val terms ht a p hp hk [] tab h
  rw [rowVal, rowVal_eq] at this
  rw [this]
  simp only [dget, Option.getD_none, Pi.zero_apply, zero_mul, Finset.sum_const_zero, zero_add]
  unfold exactAmplitude
  generalize (terms.filter fun t => t.amp = a) = l
  induction l with
  | nil => simp
  | cons t l ih => simp [ih]

theorem splitAll_some (rq : Ord r) (val : κ → F) (terms : List (Term r κ F)) (ht : ∀ t ∈ terms, t.OK rq val)
    (tab0 : Table r κ F) :
    ∃ tab, (terms.map Term.data).foldlM (fun tab t => splitIntegral tab t.1 t.2.1 t.2.2 rq) tab0 = some tab := by
  induction terms generalizing tab0 with
  | nil => exact ⟨tab0, by simp⟩
  | cons t terms ih =>
    have hOK := ht t (by simp)
    simp only [List.map_cons, List.foldlM_cons, Option.bind_eq_bind, Option.bind_eq_some_iff]
    have : ∃ tab1, splitIntegral tab0 (Term.data t).1 (Term.data t).2.1 (Term.data t).2.2 rq = some tab1 := by
      simp [Term.data, splitIntegral, hOK.pl_eq, hOK.cl_eq, hOK.kl_eq, hOK.kh_eq]
    obtain ⟨tab1, h1⟩ := this
    obtain ⟨tab, h2⟩ := ih (fun u hu => ht u (by simp [hu])) tab1
    exact ⟨tab, tab1, h1, h2⟩

/-- C30: the evaluation of the order bookkeeping does not fail. -/
theorem C30_no_error (rq : Ord r) (val : κ → F) (terms : List (Term r κ F)) (ht : ∀ t ∈ terms, t.OK rq val) :
    ∃ tab, splitAll rq (terms.map Term.data) = some tab :=
  splitAll_some rq val terms ht []

/-- C30: nothing beyond the requested orders and no amplitude without a term is reported. -/
theorem C30_only_requested (rq : Ord r) (terms : List (ℕ × Info r κ F × List (Ord r × F)))
    (tab : Table r κ F) (h : splitAll rq terms = some tab) (key : ℕ × Ord r) (hk : key ∈ tab.map (·.1)) :
    key.2 ≤ rq ∧ key.1 ∈ terms.map (·.1) := by
  have gen : ∀ (terms : List (ℕ × Info r κ F × List (Ord r × F))) (tab0 : Table r κ F),
      terms.foldlM (fun tab t => splitIntegral tab t.1 t.2.1 t.2.2 rq) tab0 = some tab →
      key ∈ tab0.map (·.1) ∨ (key.2 ≤ rq ∧ key.1 ∈ terms.map (·.1)) := by
    intro terms
    induction terms with
    | nil => intro tab0 h; simp at h; subst h; exact Or.inl hk
    | cons t terms ih =>
      intro tab0 h
      simp only [List.foldlM_cons, Option.bind_eq_bind, Option.bind_eq_some_iff] at h
      obtain ⟨tab1, h1, h2⟩ := h
      rcases ih tab1 h2 with h3 | h3
      · rcases splitIntegral_keys h1 key h3 with h4 | ⟨h4, h5⟩
        · exact Or.inl h4
        · exact Or.inr ⟨h5, by simp [h4]⟩
      · exact Or.inr ⟨h3.1, by simp only [List.map_cons, List.mem_cons]; exact Or.inr h3.2⟩
  rcases gen terms [] h with h1 | h1
  · simp at h1
  · exact h1

theorem pyMin_le_one (l : List (Ord 1)) (m : Ord 1) (h : pyMin l = some m) : ∀ x ∈ l, m ≤ x := by
  cases l with
  | nil => simp [pyMin] at h
  | cons x l =>
    simp only [pyMin, Option.some.injEq] at h
    subst h
    have lexlt : ∀ x y : Ord 1, lexLt x y = true ↔ x 0 < y 0 := by
      intro x y; simp [lexLt]
    induction l using List.reverseRecOn with
    | nil => simp
    | append_singleton l y ih =>
      rw [List.foldl_append, List.foldl_cons, List.foldl_nil]
      set m := l.foldl (fun m y => if lexLt y m = true then y else m) x with hm
      have h1 : (if lexLt y m = true then y else m) ≤ m := by
        intro i; fin_cases i
        by_cases hc : lexLt y m = true
        · rw [if_pos hc]; exact ((lexlt y m).1 hc).le
        · rw [if_neg hc]
      have h2 : (if lexLt y m = true then y else m) ≤ y := by
        intro i; fin_cases i
        by_cases hc : lexLt y m = true
        · rw [if_pos hc]
        · rw [if_neg hc]; rw [lexlt] at hc; exact not_lt.1 hc
      intro z hz
      simp only [List.mem_cons, List.mem_append, List.not_mem_nil, or_false] at hz
      rcases hz with rfl | hz | rfl
      · exact h1.trans (ih z (by simp))
      · exact h1.trans (ih z (by simp [hz]))
      · exact h2

/-- C30 for packages written by `sum_package` with one regulator: if each integral is generated for
`packageOrders` of the leading orders of all its coefficients (in all the amplitudes) and its kernels go up to
`requiredOrders`, all the requested orders of all the amplitudes are exact. -/
theorem C30_one_regulator (rq : Ord 1) (val : κ → F) (terms : List (Term 1 κ F))
    (ht : ∀ t ∈ terms, t.OK rq val)
    (hgen : ∀ t ∈ terms, ∃ coefLeads, t.cl ∈ coefLeads ∧ packageOrders rq coefLeads = some t.pkg)
    (hkh : ∀ t ∈ terms, t.kh = requiredOrders t.pkg t.pl)
    (tab : Table 1 κ F) (h : splitAll rq (terms.map Term.data) = some tab)
    (a : ℕ) (p : Ord 1) (hp : p ≤ rq) :
    (ampVal tab (a, p) val).getD 0 =
      (exactAmplitude terms a).coeff p := by
  refine C30_amplitude_exact rq val terms ht tab h a p hp fun t htm _ i => ?_
  obtain ⟨ls, h1, h2⟩ := hgen t htm
  simp only [packageOrders, Option.map_eq_some_iff] at h2
  obtain ⟨m, h3, h4⟩ := h2
  have a1 := pyMin_le_one ls m h3 t.cl h1 i
  have a2 := hp i
  have a3 := congrFun (hkh t htm) i
  have a4 := congrFun h4 i
  simp only [requiredOrders, Pi.add_apply, Pi.sub_apply] at a1 a2 a3 a4 ⊢
  linarith

/-- C30: the same with any number of regulators if the leading orders of one of the coefficients of each
integral are the lowest ones in every regulator (then it is the minimum of the lists as well). -/
theorem C30_common_minimum (rq : Ord r) (val : κ → F) (terms : List (Term r κ F))
    (ht : ∀ t ∈ terms, t.OK rq val)
    (hgen : ∀ t ∈ terms, ∃ coefLeads m, t.cl ∈ coefLeads ∧ packageOrders rq coefLeads = some t.pkg ∧
      pyMin coefLeads = some m ∧ ∀ x ∈ coefLeads, m ≤ x)
    (hkh : ∀ t ∈ terms, t.kh = requiredOrders t.pkg t.pl)
    (tab : Table r κ F) (h : splitAll rq (terms.map Term.data) = some tab)
    (a : ℕ) (p : Ord r) (hp : p ≤ rq) :
    (ampVal tab (a, p) val).getD 0 =
      (exactAmplitude terms a).coeff p := by
  refine C30_amplitude_exact rq val terms ht tab h a p hp fun t htm _ i => ?_
  obtain ⟨ls, m, h1, h2, h3, h5⟩ := hgen t htm
  simp only [packageOrders, h3, Option.map_some, Option.some.injEq] at h2
  have a1 := h5 t.cl h1 i
  have a2 := hp i
  have a3 := congrFun (hkh t htm) i
  have a4 := congrFun h2 i
  simp only [requiredOrders, Pi.add_apply, Pi.sub_apply] at a1 a2 a3 a4 ⊢
  linarith

/-- C30: the report of an individual integral (prefactor * integral) is exact at every reported order,
if the kernels go up to `requiredOrders` (i.e. if expanding the prefactor did not uncover deeper poles). -/
theorem C30_integral_exact (rq : Ord r) (val : κ → F) (t : Term r κ F) (ht : t.OK rq val)
    (hkh : t.kh = requiredOrders t.pkg t.pl) (p : Ord r) (hp : p ≤ t.pkg) :
    (lpoly (intVal t.info t.lowest (requiredPrefactorOrders t.pkg t.lowest) val)).coeff p =
      (t.P * t.K).coeff p := by
  rw [intVal, coeff_lpoly_bracketMul, if_pos]
  · refine (coeff_pair ht.pref ht.kern ht.pl_eq (by rw [List.map_map]; exact ht.kl_eq) ?_ ?_).symm
    · intro i
      have a1 := hp i; have a2 := ht.lowest_le i
      simp only [requiredPrefactorOrders, Pi.add_apply, Pi.sub_apply] at *; linarith
    · intro i
      have a1 := hp i
      simp only [hkh, requiredOrders, Pi.add_apply, Pi.sub_apply] at *; linarith
  · intro i
    have a1 := hp i
    simp only [requiredPrefactorOrders, Pi.add_apply, Pi.sub_apply] at *; linarith
end

/-! A non-trivial case: prefactor `2/ε`, coefficient `ε + 3 ε²`, integral `5/ε + 7 + 11 ε`. -/
section example1

def exInfo : Info 1 (Fin 3) ℤ := ⟨[(![-1], 2)], [(![-1], [0]), (![0], [1]), (![1], [2])]⟩
def exVal : Fin 3 → ℤ := ![5, 7, 11]
noncomputable def exTerm : Term 1 (Fin 3) ℤ where
  amp := 0
  info := exInfo
  coef := [(![1], 1), (![2], 3)]
  pkg := ![0]
  lowest := ![-1]
  P := HahnSeries.single ![-1] 2
  C := HahnSeries.single ![1] 1 + HahnSeries.single ![2] 3
  K := HahnSeries.single ![-1] 5 + HahnSeries.single ![0] 7 + HahnSeries.single ![1] 11
  pl := ![-1]
  cl := ![1]
  kl := ![-1]
  kh := ![1]

theorem expands_self {F : Type*} [CommRing F] (d : List (Ord r × F)) (h : Ord r) (hd : (d.map (·.1)).Nodup) :
    Expands d (lpoly d) h where
  nodup := hd
  coeff := by
    intro t ht
    rw [coeff_lpoly, sum_ite_key _ hd]
    have gen : ∀ d : List (Ord r × F), (d.map (·.1)).Nodup → t ∈ d → dget d t.1 = some t.2 := by
      intro d hd hm
      induction d with
      | nil => simp at hm
      | cons u d ih =>
        obtain ⟨x, y⟩ := u
        rw [List.map_cons, List.nodup_cons] at hd
        rcases List.mem_cons.1 hm with h' | h'
        · subst h'; simp [dget]
        · have : x ≠ t.1 := by rintro rfl; exact hd.1 (List.mem_map.2 ⟨_, h', rfl⟩)
          simp [dget, this, ih hd.2 h']
    rw [gen d hd ht, Option.getD_some]
  complete := by
    intro a _ ha
    by_contra hc
    apply ha
    rw [coeff_lpoly]
    apply List.sum_eq_zero
    simp only [List.mem_map]
    rintro _ ⟨t, ht, rfl⟩
    rw [if_neg]; rintro rfl; exact hc (List.mem_map.2 ⟨t, ht, rfl⟩)
  lead := by
    intro a ha i
    by_contra hc
    apply ha
    rw [coeff_lpoly]
    apply List.sum_eq_zero
    simp only [List.mem_map]
    rintro _ ⟨t, ht, rfl⟩
    rw [if_neg]; rintro rfl; exact hc ⟨t, ht, le_rfl⟩

theorem exTerm_ok : exTerm.OK ![1] exVal where
  pl_eq := by decide
  cl_eq := by decide
  kl_eq := by decide
  kh_eq := by decide
  lowest_le := le_rfl
  kh_le := by intro i; fin_cases i; decide
  pref := by
    have : exTerm.P = lpoly exTerm.info.pref := by simp [exTerm, exInfo, lpoly]
    rw [this]; exact expands_self _ _ (by decide)
  coef := by
    have : exTerm.C = lpoly exTerm.coef := by simp [exTerm, lpoly]
    rw [this]; exact ⟨_, rfl, expands_self _ _ (by decide)⟩
  kern := by
    have : exTerm.K = lpoly (exTerm.info.orders.map (kernVal exVal)) := by
      simp [exTerm, exInfo, lpoly, kernVal, exVal, add_assoc]
    rw [this]; exact expands_self _ _ (by decide)

/-- Only one amplitude with this one term; the package was generated for the order `1 - 1`; the orders
`ε^-1`, `ε^0`, `ε^1` of the product `(10/ε + ..)` come out as `10`, `44`, `64`. -/
example : (splitAll ![1] [exTerm.data]).map (fun tab => [![-1], ![0], ![1]].map fun p => ampVal tab (0, p) exVal) =
    some [some 10, some 44, some 64] := by decide

example : ∃ tab, splitAll ![1] [exTerm.data] = some tab ∧
    ∀ p ≤ ![1], (ampVal tab (0, p) exVal).getD 0 = (exTerm.P * exTerm.C * exTerm.K).coeff p := by
  have hOK : ∀ t ∈ [exTerm], t.OK ![1] exVal := by simpa using exTerm_ok
  obtain ⟨tab, htab⟩ := C30_no_error ![1] exVal [exTerm] hOK
  refine ⟨tab, htab, fun p hp => ?_⟩
  have := C30_one_regulator ![1] exVal [exTerm] hOK
    (by simp only [List.mem_singleton, forall_eq]; exact ⟨[![1]], by decide, by decide⟩)
    (by simp only [List.mem_singleton, forall_eq]; decide) tab htab 0 p hp
  simpa [exactAmplitude, exTerm] using this

example : (lpoly (intVal exInfo ![-1] ![1] exVal)).coeff ![0] = (exTerm.P * exTerm.K).coeff ![0] :=
  C30_integral_exact ![1] exVal exTerm exTerm_ok (by decide) ![0] le_rfl
end example1

/-! ### Defect: `min` of lists is lexicographic -/
section defect

/-- The first integral occurs in two amplitudes, with coefficients of leading orders `(-1, 1)` and
`(0, 0)`. Requested: order `(0, 0)`. Python's `min` of the lists is `(-1, 1)`, so the package of
the integral is generated up to `(1, -1)` only. -/
theorem C30_package_orders_too_low :
    packageOrders (![0, 0] : Ord 2) [![-1, 1], ![0, 0]] = some ![1, -1] := by decide

noncomputable def dfTerm1 : Term 2 (Fin 3) ℤ where
  amp := 1
  info := ⟨[(![0, 0], 1)], [(![0, -1], [0]), (![1, -1], [1])]⟩
  coef := [(![0, 0], 1)]
  pkg := ![1, -1]
  lowest := ![0, -1]
  P := lpoly [(![0, 0], 1)]
  C := lpoly [(![0, 0], 1)]
  K := lpoly [(![0, -1], 5), (![1, -1], 6), (![0, 0], 7)]
  pl := ![0, 0]
  cl := ![0, 0]
  kl := ![0, -1]
  kh := ![1, -1]

noncomputable def dfTerm2 : Term 2 (Fin 3) ℤ where
  amp := 1
  info := ⟨[(![0, 0], 1)], [(![0, 0], [2])]⟩
  coef := [(![0, 0], 1)]
  pkg := ![0, 0]
  lowest := ![0, 0]
  P := lpoly [(![0, 0], 1)]
  C := lpoly [(![0, 0], 1)]
  K := lpoly [(![0, 0], 3)]
  pl := ![0, 0]
  cl := ![0, 0]
  kl := ![0, 0]
  kh := ![0, 0]

def dfVal : Fin 3 → ℤ := ![5, 6, 3]

theorem dfTerm1_ok : dfTerm1.OK ![0, 0] dfVal where
  pl_eq := by decide
  cl_eq := by decide
  kl_eq := by decide
  kh_eq := by decide
  lowest_le := le_rfl
  kh_le := by intro i; fin_cases i <;> decide
  pref := expands_self _ _ (by decide)
  coef := ⟨_, rfl, expands_self _ _ (by decide)⟩
  kern := by
    have e : ∀ a, dfTerm1.K.coeff a = ((if ![0, -1] = a then 5 else 0) + (if ![1, -1] = a then 6 else 0) +
        (if ![0, 0] = a then 7 else 0) : ℤ) := by
      intro a; simp [dfTerm1, coeff_lpoly, add_assoc]
    have sup : ∀ a, dfTerm1.K.coeff a ≠ 0 → a = ![0, -1] ∨ a = ![1, -1] ∨ a = ![0, 0] := by
      intro a ha
      by_contra hc
      push Not at hc
      apply ha
      rw [e, if_neg hc.1.symm, if_neg hc.2.1.symm, if_neg hc.2.2.symm]; rfl
    refine ⟨by decide, ?_, ?_, ?_⟩
    · intro t ht
      have : t = (![0, -1], 5) ∨ t = (![1, -1], 6) := by
        simpa [dfTerm1, kernVal, dfVal] using ht
      rcases this with rfl | rfl <;> rw [e] <;> decide
    · intro a ha hne
      rcases sup a hne with rfl | rfl | rfl
      · decide
      · decide
      · exact absurd (ha 1) (by decide)
    · intro a hne i
      refine ⟨(![0, -1], 5), by decide, ?_⟩
      rcases sup a hne with rfl | rfl | rfl <;> fin_cases i <;> decide

theorem dfTerm2_ok : dfTerm2.OK ![0, 0] dfVal where
  pl_eq := by decide
  cl_eq := by decide
  kl_eq := by decide
  kh_eq := by decide
  lowest_le := le_rfl
  kh_le := by intro i; fin_cases i <;> decide
  pref := expands_self _ _ (by decide)
  coef := ⟨_, rfl, expands_self _ _ (by decide)⟩
  kern := by
    have : dfTerm2.K = lpoly (dfTerm2.info.orders.map (kernVal dfVal)) := by
      simp [dfTerm2, lpoly, kernVal, dfVal]
    rw [this]; exact expands_self _ _ (by decide)

/-- C30, defect: with two regulators, an amplitude consisting of that integral (with the coefficient of
leading order `(0, 0)`) and of a second one: all packages are generated as `sum_package` does
(`pkg` is `packageOrders` of the leading orders of the coefficients, the kernels go up to
`requiredOrders`), yet the requested order `(0, 0)` is reported, with the contribution of the
first integral missing: `3` instead of `10`. -/
theorem C30_two_regulators_wrong :
    (∀ t ∈ [dfTerm1, dfTerm2], t.OK ![0, 0] dfVal ∧ t.kh = requiredOrders t.pkg t.pl) ∧
    packageOrders ![0, 0] [![-1, 1], dfTerm1.cl] = some dfTerm1.pkg ∧
    packageOrders ![0, 0] [dfTerm2.cl] = some dfTerm2.pkg ∧
    (splitAll ![0, 0] [dfTerm1.data, dfTerm2.data]).map (fun tab => ampVal tab (1, ![0, 0]) dfVal) =
      some (some 3) ∧
    (exactAmplitude [dfTerm1, dfTerm2] 1).coeff ![0, 0] = 10 := by
  refine ⟨?_, by decide, by decide, by decide, ?_⟩
  · intro t ht
    simp only [List.mem_cons, List.not_mem_nil, or_false] at ht
    rcases ht with rfl | rfl
    · exact ⟨dfTerm1_ok, by decide⟩
    · exact ⟨dfTerm2_ok, by decide⟩
  · have e1 : exactAmplitude [dfTerm1, dfTerm2] 1 =
        dfTerm1.P * dfTerm1.C * dfTerm1.K + dfTerm2.P * dfTerm2.C * dfTerm2.K := by
      simp [exactAmplitude, dfTerm1, dfTerm2]
    have one : lpoly [((![0, 0] : Ord 2), (1 : ℤ))] = 1 := by
      have : (![0, 0] : Ord 2) = 0 := by decide
      simp [lpoly, this]
    have p1 : dfTerm1.P = 1 := one
    have c1 : dfTerm1.C = 1 := one
    have p2 : dfTerm2.P = 1 := one
    have c2 : dfTerm2.C = 1 := one
    rw [e1, p1, c1, p2, c2, mul_one, one_mul, one_mul, HahnSeries.coeff_add]
    simp only [dfTerm1, dfTerm2, coeff_lpoly]
    decide

/-- and for a single amplitude with that term alone the order is just not reported. -/
example : (splitAll ![0, 0] [dfTerm1.data]).map (fun tab => ampVal tab (1, ![0, 0]) dfVal) = some none := by
  decide
end defect

end Orders
end SecDec
