import Verif.Proof.CoefficientNames
import Verif.Proof.CoefficientOrders
/-
C66: the coefficients of an amplitude.
-/
namespace SecDec
namespace Coeff
open CoeffSpec

/-! ### The text -/

section Text
variable {K : Type*} [Field K] {base : List Char → K → Prop} {expo : List Char → ℕ → Prop}

/-- C66: a text has at most one meaning (so that the following theorems say what the value of the text of a coefficient is). -/
theorem C66_one_meaning (hok : Ok base expo) {s : List Char} {x y : K} (hx : Means base expo .sum s x) (hy : Means base expo .sum s y) : x = y :=
  means_unique hok hx hy rfl

/-- C66: the text of a coefficient given by lists of factors is the quotient of the products, whatever sums, differences, products and quotients
the factors are. -/
theorem C66_text (h1 : base ['1'] 1) {ns ds : List (List Char)} {xs ys : List K} (hn : List.Forall₂ (Means base expo .sum) ns xs)
    (hd : List.Forall₂ (Means base expo .sum) ds ys) : Means base expo .sum (expression (.list ns) (.list ds)) (xs.prod / ys.prod) := by
  have hnum : Means base expo .prod (numText (.list ns)) xs.prod := by
    unfold numText orText
    dsimp only
    by_cases h : ns = []
    · subst h
      cases hn
      exact .ofPow (.ofAtom (.base h1))
    · rw [if_neg (fun e => h (joinFactors_eq_nil.1 e))]
      exact means_join hn h
  unfold expression
  by_cases h : ds = []
  · subst h
    cases hd
    rw [if_pos (show denText (.list []) = [] from rfl)]
    simpa using Means.ofProd hnum
  · rw [if_neg (show ¬ denText (.list ds) = [] from fun e => h (joinFactors_eq_nil.1 e))]
    have := Means.div (.ofPow (means_paren (.ofProd hnum))) (means_paren (.ofProd (means_join hd h)))
    simpa [denText] using Means.ofProd this

/-- C66: the same for a numerator and a denominator given as texts. -/
theorem C66_text_strings {s t : List Char} {x y : K} (hs : Means base expo .sum s x) (ht : Means base expo .sum t y) (hne : t ≠ []) :
    Means base expo .sum (expression (.text s) (.text t)) (x / y) ∧ Means base expo .sum (expression (.text s) (.list [])) x := by
  constructor
  · unfold expression
    rw [if_neg (by exact hne)]
    have := Means.div (.ofPow (means_paren hs)) (means_paren ht)
    simpa [denText, numText] using Means.ofProd this
  · simpa [expression, denText, joinFactors, numText] using hs

/-- C66: powers in python notation are turned into the notation of `ginsh`, and nothing else of the text is changed. -/
theorem C66_powers (hok : Ok base expo) {s : List Char} {x : K} (h : Means base expo .sum s x) (exclude : List (List Char)) :
    (fromString (python s) exclude).1 = s ∧ (fromString s exclude).1 = s := by
  have hs := (means_apart hok h).1
  refine ⟨caret_python hs, ?_⟩
  show caret s = s
  clear h
  induction s with
  | nil => rfl
  | cons c s ih =>
    rw [caret_cons, ih hs.tail]
    by_cases hc : c = '*'
    · right
      rintro d hd rfl
      cases s with
      | nil => simp at hd
      | cons y s =>
        simp at hd
        subst hd; subst hc
        exact (hs [] '*' s rfl).1 rfl
    · exact .inl hc

/-- A base with the number one and the two symbols `d` and `eps`. -/
def exampleBase (s : List Char) (x : ℚ) : Prop :=
  (s = ['1'] ∧ x = 1) ∨ (s = ['d'] ∧ x = 5) ∨ (s = ['e'] ∧ x = 3)

theorem exampleOk : Ok exampleBase fun s k => s = ['2'] ∧ k = 2 where
  base_plain := by rintro s x (⟨rfl, -⟩ | ⟨rfl, -⟩ | ⟨rfl, -⟩) <;> exact ⟨by simp, by decide⟩
  expo_plain := by rintro s k ⟨rfl, -⟩; exact ⟨by simp, by decide⟩
  base_fun := by
    rintro s x y (⟨rfl, rfl⟩ | ⟨rfl, rfl⟩ | ⟨rfl, rfl⟩) (⟨h, rfl⟩ | ⟨h, rfl⟩ | ⟨h, rfl⟩) <;> first | rfl | (simp at h)
  expo_fun := by rintro s k l ⟨-, rfl⟩ ⟨-, rfl⟩; rfl

/-- The coefficient with the factors `1-e` and `d^2` and the denominator `e+d`. -/
example : expression (.list ["1-e".toList, "d^2".toList]) (.list ["e+d".toList]) = "((1-e)*(d^2))/((e+d))".toList ∧
    Means exampleBase (fun s k => s = ['2'] ∧ k = 2) .sum (expression (.list ["1-e".toList, "d^2".toList]) (.list ["e+d".toList]))
      ([1 - 3, 5 ^ 2].prod / [3 + 5].prod) := by
  refine ⟨by decide, ?_⟩
  have b1 : Means exampleBase (fun s k => s = ['2'] ∧ k = 2) .atom ['1'] 1 := .base (.inl ⟨rfl, rfl⟩)
  have bd : Means exampleBase (fun s k => s = ['2'] ∧ k = 2) .atom ['d'] 5 := .base (.inr (.inl ⟨rfl, rfl⟩))
  have be : Means exampleBase (fun s k => s = ['2'] ∧ k = 2) .atom ['e'] 3 := .base (.inr (.inr ⟨rfl, rfl⟩))
  refine C66_text (.inl ⟨rfl, rfl⟩) (.cons ?_ (.cons ?_ .nil)) (.cons ?_ .nil)
  · exact Means.sub (s := ['1']) (t := ['e']) (.ofProd (.ofPow (.ofAtom b1))) (.ofPow (.ofAtom be))
  · exact .ofProd (.ofPow (Means.pow (s := ['d']) (t := ['2']) bd ⟨rfl, rfl⟩))
  · exact Means.add (s := ['e']) (t := ['d']) (.ofProd (.ofPow (.ofAtom be))) (.ofPow (.ofAtom bd))

end Text

theorem isStart_eq : isStart = letter := by
  funext c
  have h : ∀ a b : Char, (a ≤ b) ↔ a.toNat ≤ b.toNat := fun a b => Iff.rfl
  unfold isStart letter
  rw [Bool.eq_iff_iff]
  have e : (c == '_') = (c.toNat == 95) := by
    rw [Bool.eq_iff_iff, beq_iff_eq, beq_iff_eq]
    constructor
    · rintro rfl; rfl
    · intro hc
      rw [← Char.ofNat_toNat c, hc]
  rw [e]
  simp only [Bool.or_eq_true, Bool.and_eq_true, decide_eq_true_eq, h]
  exact Iff.rfl

theorem isWord_eq : isWord = letterOrDigit := by
  funext c
  have h : ∀ a b : Char, (a ≤ b) ↔ a.toNat ≤ b.toNat := fun a b => Iff.rfl
  unfold isWord letterOrDigit
  rw [isStart_eq, Bool.eq_iff_iff]
  simp only [Bool.or_eq_true, Bool.and_eq_true, decide_eq_true_eq, h]
  exact Iff.rfl

/-- C66: the parameters of a coefficient read from a text are exactly the words of the text other than the regulators and the constants
of `ginsh`; none appears twice. -/
theorem C66_parameters (s : List Char) (exclude : List (List Char)) (w : List Char) :
    (w ∈ (fromString s exclude).2 ↔ IsWord letter letterOrDigit (fromString s exclude).1 w ∧ w ∉ exclude ∧ w ∉ constantNames) ∧
      (fromString s exclude).2.Nodup := by
  rw [← isStart_eq, ← isWord_eq]
  refine ⟨?_, List.nodup_dedup _⟩
  unfold fromString
  simp only [List.mem_dedup, List.mem_filter, mem_findNames]
  simp [List.contains_iff_mem]

/-- The parameters of `-2*s12**2/(Pi*eps)`. -/
example : fromString "-2*s12**2/(Pi*eps)".toList ["eps".toList] = ("-2*s12^2/(Pi*eps)".toList, ["s12".toList]) := by
  simp [fromString, caret, findNames, isStart, isWord, constantNames, List.takeWhile, List.dropWhile]

/-! ### The leading orders -/

section Leading
variable {K : Type*} [Field K] {v n : ℕ}

/-- C66: `leading_orders` always returns (the loop ends for every coefficient), unless `ginsh` divides by zero; with generic random numbers it
returns the lowest order of the coefficient in every regulator, provided that this order is at most `maxorder + 1`. -/
theorem C66_leading_orders (e : Rational K v) (reg : Fin n → Fin v) (r : Fin v → K) (hr : Generic reg e.num e.den r) (maxorder : ℤ) :
    ∃ o, leadingOrders e reg r maxorder = some o ∧
      ∀ i, (lowest (reg i) e.num : ℤ) - lowest (reg i) e.den ≤ max 0 (maxorder + 1) →
        o i = (lowest (reg i) e.num : ℤ) - lowest (reg i) e.den := by
  refine ⟨_, by unfold leadingOrders; rw [if_neg hr.2.1, if_neg hr.1], fun i hi => ?_⟩
  have h := fun i => order_laurent (hr.2.2 i).1 (hr.2.2 i).2
  rw [loop_apply _ (fun i => (h i).1) maxorder _ (fun _ => .inl rfl), (h i).2, if_pos hi]

/-- C66: of a coefficient which vanishes the maximal orders are returned (so that the term is dropped). -/
theorem C66_zero (e : Rational K v) (h : e.num = 0) (reg : Fin n → Fin v) (r : Fin v → K) (hr : MvPolynomial.eval r e.den ≠ 0) (maxorder : ℤ) :
    leadingOrders e reg r maxorder = some fun _ => maxorder := by
  unfold leadingOrders
  rw [if_neg hr, if_pos (by rw [h, map_zero])]

/-- C66: the random numbers are rarely not generic: if they are drawn from a set `S`, the fraction of the unlucky choices is at most
`(n + 1) * (deg N + deg D) / |S|`. -/
theorem C66_random [DecidableEq K] (reg : Fin n → Fin v) (N D : MvPolynomial (Fin v) K) (hN : N ≠ 0) (hD : D ≠ 0) (S : Finset K)
    [DecidablePred fun r => ¬ Generic reg N D r] :
    (((Fintype.piFinset fun _ : Fin v => S).filter fun r => ¬ Generic reg N D r).card : ℚ≥0) / (S.card : ℚ≥0) ^ v ≤
      ((n + 1) * (N.totalDegree + D.totalDegree) : ℕ) / (S.card : ℚ≥0) := by
  have h := MvPolynomial.schwartz_zippel_totalDegree (discriminant_ne_zero reg hN hD) S
  have e : ((Fintype.piFinset fun _ : Fin v => S).filter fun r => ¬ Generic reg N D r) =
      (Fintype.piFinset fun _ : Fin v => S).filter fun r => MvPolynomial.eval r (discriminant reg N D) = 0 :=
    Finset.filter_congr fun r _ => by rw [generic_iff, not_not]
  rw [e]
  refine h.trans ?_
  gcongr
  exact discriminant_totalDegree reg N D

/-- A defect: of a coefficient whose order is larger than `maxorder + 1` the order zero is returned, not `maxorder` as documented. -/
theorem C66_maxorder_defect (e : Rational K v) (reg : Fin n → Fin v) (r : Fin v → K) (hr : Generic reg e.num e.den r) (maxorder : ℤ) (i : Fin n)
    (h0 : 0 ≤ maxorder + 1) (h : maxorder + 1 < (lowest (reg i) e.num : ℤ) - lowest (reg i) e.den) :
    ∃ o, leadingOrders e reg r maxorder = some o ∧ o i = 0 := by
  refine ⟨_, by unfold leadingOrders; rw [if_neg hr.2.1, if_neg hr.1], ?_⟩
  have h' := fun i => order_laurent (hr.2.2 i).1 (hr.2.2 i).2
  rw [loop_apply _ (fun i => (h' i).1) maxorder _ (fun _ => .inl rfl), (h' i).2, if_neg]
  omega

/-- The coefficient `eps^2 / (1 + eps)` has order two. -/
example : ∃ o, leadingOrders (⟨MvPolynomial.X 0 ^ 2, 1 + MvPolynomial.X 0⟩ : Rational ℚ 1) (fun i : Fin 1 => i) (fun _ => 7) 999999 = some o ∧
    o 0 = 2 := by
  have key : ∀ P : MvPolynomial (Fin 1) ℚ, ∀ k, (∃ q, coefficientOf 0 k P = MvPolynomial.C q ∧ q ≠ 0) → (∀ j < k, coefficientOf 0 j P = 0) →
      lowest 0 P = k := by
    rintro P k ⟨q, hq, hq0⟩ hj
    have hP : P ≠ 0 := by
      rintro rfl
      apply hq0
      have : coefficientOf 0 k (0 : MvPolynomial (Fin 1) ℚ) = 0 := by simp [coefficientOf]
      rw [this] at hq
      exact (MvPolynomial.C_eq_zero.1 hq.symm)
    rcases lt_trichotomy (lowest 0 P) k with h | h | h
    · exact absurd (hj _ h) (coefficientOf_lowest hP)
    · exact h
    · rw [coefficientOf_below h] at hq
      exact absurd (MvPolynomial.C_eq_zero.1 hq.symm) hq0
  have ev : ∀ (P : MvPolynomial (Fin 1) ℚ) k, coefficientOf 0 k P = MvPolynomial.C ((Coeff.restrict (fun _ => 7) 0 P).coeff k) := by
    intro P k
    rw [coeff_restrict]
    unfold coefficientOf
    rw [map_sum, map_sum]
    refine Finset.sum_congr rfl fun m _ => ?_
    have : m.erase 0 = 0 := Finsupp.ext fun j => by rw [Subsingleton.elim j 0, Finsupp.erase_same]; rfl
    rw [this, ← MvPolynomial.C_apply, MvPolynomial.eval_C]
  have r1 : Coeff.restrict (fun _ => (7 : ℚ)) 0 (MvPolynomial.X 0 ^ 2 : MvPolynomial (Fin 1) ℚ) = Polynomial.X ^ 2 := by
    simp [Coeff.restrict]
  have r2 : Coeff.restrict (fun _ => (7 : ℚ)) 0 (1 + MvPolynomial.X 0 : MvPolynomial (Fin 1) ℚ) = 1 + Polynomial.X := by
    simp [Coeff.restrict]
  have l1 : lowest 0 (MvPolynomial.X 0 ^ 2 : MvPolynomial (Fin 1) ℚ) = 2 :=
    key _ 2 ⟨1, by rw [ev, r1]; simp, one_ne_zero⟩ fun j hj => by rw [ev, r1, Polynomial.coeff_X_pow, if_neg (by omega), map_zero]
  have l2 : lowest 0 (1 + MvPolynomial.X 0 : MvPolynomial (Fin 1) ℚ) = 0 :=
    key _ 0 ⟨1, by rw [ev, r2]; simp, one_ne_zero⟩ fun j hj => absurd hj (by omega)
  obtain ⟨o, h1, h2⟩ := C66_leading_orders (⟨MvPolynomial.X 0 ^ 2, 1 + MvPolynomial.X 0⟩ : Rational ℚ 1) (fun i : Fin 1 => i) (fun _ => 7)
    (by
      refine ⟨by norm_num, by norm_num, fun i => ?_⟩
      rw [Subsingleton.elim i 0]
      dsimp only
      rw [l1, l2, ev, ev, r1, r2]
      simp) 999999
  refine ⟨o, h1, ?_⟩
  have := h2 0 (by dsimp only; rw [l1, l2]; norm_num)
  rw [this]
  dsimp only
  rw [l1, l2]
  norm_num

end Leading

/-! ### The expansion in the C++ library -/

/-- C66: the expansion of a coefficient which the library reads is long enough if the leading order of the coefficient is at most one (or if
no more than the first order is needed): the requested orders of coefficient times integral are not changed by the truncation. -/
theorem C66_required_orders {K : Type*} [Field K] {n : ℕ} (requested lowestCoefficient lowest lowestPrefactor : Fin n → ℤ)
    (h : ∀ i, lowestCoefficient i ≤ 1 ∨ requested i - lowest i - lowestPrefactor i ≤ 1)
    (c I : (Fin n → ℤ) →₀ K) (hI : ∀ b, I b ≠ 0 → ∀ i, lowest i + lowestPrefactor i ≤ b i) (m : Fin n → ℤ) (hm : ∀ i, m i ≤ requested i) :
    productAt (truncate (fun i => requiredOrder (requested i) (lowestCoefficient i) (lowest i) (lowestPrefactor i)) c) I m = productAt c I m := by
  classical
  unfold productAt truncate Finsupp.sum
  rw [Finsupp.support_filter, Finset.sum_filter]
  refine Finset.sum_congr rfl fun a _ => ?_
  split
  · rename_i hk
    rw [Finsupp.filter_apply_pos _ _ hk]
  · rename_i hk
    have : I (m - a) = 0 := by
      by_contra hne
      refine hk fun i => ?_
      have h1 := hI _ hne i
      have h2 := hm i
      have h3 := h i
      simp only [Pi.sub_apply] at h1
      unfold requiredOrder
      dsimp only
      split <;> omega
    show (0 : K) = c a * I (m - a)
    rw [this, mul_zero]

/-- A defect of the library: a coefficient of order two or more is truncated too early.  With the coefficient `eps^2`, an integral with the
double pole `1/eps^2` and the requested order zero, the product is 1; the library computes 0. -/
theorem C66_required_orders_defect :
    let c : (Fin 1 → ℤ) →₀ ℚ := Finsupp.single (fun _ => 2) 1
    let I : (Fin 1 → ℤ) →₀ ℚ := Finsupp.single (fun _ => -2) 1
    productAt c I 0 = 1 ∧ productAt (truncate (fun _ => requiredOrder 0 2 (-2) 0) c) I 0 = 0 := by
  classical
  intro c I
  have e : (0 : Fin 1 → ℤ) - (fun _ => 2) = fun _ => -2 := by funext; simp
  constructor
  · show productAt (Finsupp.single _ _) (Finsupp.single _ _) 0 = 1
    unfold productAt
    rw [Finsupp.sum_single_index (by simp), e, Finsupp.single_eq_same, mul_one]
  · have : truncate (fun _ => requiredOrder 0 2 (-2) 0) c = 0 := by
      unfold truncate
      refine (Finsupp.filter_eq_zero_iff _ _).2 fun a ha => ?_
      show Finsupp.single _ _ a = 0
      rw [Finsupp.single_apply, if_neg]
      rintro rfl
      have := ha 0
      simp [requiredOrder] at this
    rw [this]
    simp [productAt]

/-- With the coefficient `1/eps + eps` nothing is lost. -/
example (I : (Fin 1 → ℤ) →₀ ℚ) (hI : ∀ b, I b ≠ 0 → ∀ i, -2 ≤ b i) :
    productAt (truncate (fun _ => requiredOrder 0 (-1) (-2) 0) (Finsupp.single (fun _ => -1) 1 + Finsupp.single (fun _ => 1) 1)) I 0 =
      productAt (Finsupp.single (fun _ => -1) 1 + Finsupp.single (fun _ => 1) 1) I 0 :=
  C66_required_orders (fun _ => 0) (fun _ => -1) (fun _ => -2) (fun _ => 0) (fun _ => .inl (by norm_num)) _ I (fun b hb i => by simpa using hI b hb i)
    0 (fun _ => le_rfl)

/-- C66: a coefficient in a file with one line (with or without a line break at the end) is read as it was written. -/
theorem C66_file {K : Type*} [Field K] {base : List Char → K → Prop} {expo : List Char → ℕ → Prop} (hok : Ok base expo) {s : List Char} {x : K}
    (h : Means base expo .sum s x) (hnl : '\n' ∉ s) : assigned s = some s ∧ assigned (s ++ ['\n']) = some s ∧ assigned (python s) = some s := by
  have hne : s ≠ [] := (means_shape hok h).1.1
  have one : ∀ t : List Char, t ≠ [] → '\n' ∉ t → linesOf t = [t] ∧ linesOf (t ++ ['\n']) = [t] := by
    intro t ht hn
    have ha : ∀ y ∈ t, decide (y ≠ '\n') = true := fun y hy => by
      simp only [decide_eq_true_eq]; rintro rfl; exact hn hy
    cases t with
    | nil => exact (ht rfl).elim
    | cons c t =>
      constructor
      · rw [linesOf, List.takeWhile_eq_self_iff.2 ha, List.dropWhile_eq_nil_iff.2 ha]
        simp [linesOf]
      · rw [List.cons_append, linesOf, ← List.cons_append, List.takeWhile_append_of_pos ha, List.dropWhile_append_of_pos ha]
        simp [linesOf]
  have hc : caret s = s := (C66_powers hok h []).2
  have hp : caret (python s) = s := (C66_powers hok h []).1
  have hpne : python s ≠ [] := fun e => hne (by rw [← hp, e]; rfl)
  have hpn : '\n' ∉ python s := by
    unfold python
    rw [List.mem_flatMap]
    rintro ⟨c, hc, hm⟩
    split at hm
    · simp at hm
    · simp only [List.mem_singleton] at hm; exact hnl (hm ▸ hc)
  unfold assigned
  rw [(one s hne hnl).1, (one s hne hnl).2, (one _ hpne hpn).1]
  simp [hc, hp]

/-- A defect of the library: of a coefficient written on several lines only the last line is used, here `+b` of `a` and `+b`. -/
theorem C66_lines_defect : assigned "a\n+b".toList = some "+b".toList := by
  simp [assigned, linesOf, caret]

/-! ### The sums -/

/-- C66: a sum keeps every coefficient but those which are zero, with its index; whatever the values of the coefficients (`val`, where the text
`0` has the value zero) and of the integrals are, the sum is the one which was asked for. -/
theorem C66_sums {R : Type*} [CommRing R] (val : List Char → R) (h0 : val ['0'] = 0) (int : ℤ → R) (s : GivenSum) :
    ((prepare s).map fun t => val t.2 * int t.1).sum = (s.pairs.map fun t => val t.2.expr * int t.1).sum := by
  unfold prepare
  rw [List.map_map]
  induction s.pairs with
  | nil => rfl
  | cons t l ih =>
    rw [List.filter_cons]
    split
    · rw [List.map_cons, List.sum_cons, List.map_cons, List.sum_cons, ih]; rfl
    · rename_i hk
      rw [List.map_cons, List.sum_cons, ih]
      have : val t.2.expr = 0 := by
        rcases t with ⟨i, g⟩
        cases g with
        | none => simp [Given.keep] at hk
        | coefficient c => simp [Given.keep] at hk
        | other u =>
          simp only [Given.keep, ne_eq, decide_not, Bool.not_eq_eq_eq_not, Bool.not_true, Bool.not_eq_true] at hk
          simp at hk
          subst hk
          simpa [Given.expr, caret] using h0
      rw [this]; ring

/-- C66: a sum given as a list has the coefficient number `i` of the list for the integral number `i`; an absent coefficient (`None`) is one. -/
theorem C66_indices (l : List Given) (gens : ℕ) (h : (GivenSum.list l).ok gens) :
    ((GivenSum.list l).pairs.map fun t => t.1) = (List.range gens).map (fun i : ℕ => (i : ℤ)) ∧
      (GivenSum.list l).pairs.map (fun t => t.2) = l ∧ Given.none.expr = ['1'] := by
  refine ⟨?_, ?_, rfl⟩
  · have hl : l.length = gens := h
    simp only [GivenSum.pairs, List.map_map]
    rw [← hl, List.range_eq_range', ← List.zipIdx_map_snd 0 l, List.map_map]
    rfl
  · simp only [GivenSum.pairs, List.map_map]
    conv_rhs => rw [← List.zipIdx_map_fst 0 l]
    rfl

/-- C66: if the checks of the indices pass, every coefficient that is kept belongs to one of the integrals. -/
theorem C66_indices_exist (s : GivenSum) (gens : ℕ) (h : s.ok gens) : ∀ t ∈ prepare s, ∃ i : Fin gens, t.1 = ((i : ℕ) : ℤ) := by
  intro t ht
  unfold prepare at ht
  rw [List.mem_map] at ht
  obtain ⟨u, hu, rfl⟩ := ht
  have hu := (List.mem_filter.1 hu).1
  cases s with
  | list l =>
    have hl : l.length = gens := h
    simp only [GivenSum.pairs, List.mem_map] at hu
    obtain ⟨v, hv, rfl⟩ := hu
    have := (List.mem_zipIdx hv).2.1
    exact ⟨⟨v.2, by omega⟩, rfl⟩
  | dict d =>
    have := h u hu
    exact ⟨⟨u.1.toNat, by omega⟩, by dsimp only; omega⟩

example : GivenSum.ok 3 (.dict [(2, .none), (0, .other ['0'])]) ∧ prepare (.dict [(2, .none), (0, .other ['0'])]) = [(2, ['1'])] := by
  refine ⟨?_, rfl⟩
  intro t ht
  simp at ht
  rcases ht with rfl | rfl <;> decide

/-- C66: a coefficient given as a text of Python has its value: it is kept, with `**` read as a power. -/
theorem C66_given {K : Type*} [Field K] {base : List Char → K → Prop} {expo : List Char → ℕ → Prop} (hok : Ok base expo) {s : List Char} {x : K}
    (h : Means base expo .sum s x) : Means base expo .sum (Given.other (python s)).expr x ∧ Means base expo .sum (Given.other s).expr x := by
  have h1 : (Given.other (python s)).expr = s := (C66_powers hok h []).1
  have h2 : (Given.other s).expr = s := (C66_powers hok h []).2
  rw [h1, h2]
  exact ⟨h, h⟩

end Coeff
end SecDec
