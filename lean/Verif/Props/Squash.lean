import Mathlib.MeasureTheory.Constructions.Pi
import Mathlib.MeasureTheory.Measure.Lebesgue.Basic
import Mathlib.MeasureTheory.Integral.Bochner.Set
import Verif.Proof.Squash
import Verif.Props.MatrixSort
/-
C14: squashing of sectors related by a permutation of the integration variables.
-/
set_option linter.unusedSectionVars false
namespace SecDec.Squash
open SecDec MatrixSort

/-- C14: `_collision_safe_hash` terminates for every hash function, and afterwards two objects have
the same hash exactly if they are equal. -/
theorem C14_collision_safe_hash {α : Type} [DecidableEq α] (hash : α → Int) (objs : List α) :
    (∃ fuel hs, safeHash hash fuel objs = some hs) ∧
    ∀ fuel hs, safeHash hash fuel objs = some hs → hs.length = objs.length ∧
      ∀ (i j : Nat) (hi : i < objs.length) (hj : j < objs.length) (hi' : i < hs.length)
        (hj' : j < hs.length), hs[i] = hs[j] ↔ objs[i] = objs[j] := by
  refine ⟨safeHashLoop_terminates objs hash, ?_⟩
  intro fuel hs h
  obtain ⟨g, rfl, hg⟩ := safeHashLoop_spec objs fuel hash hs h
  refine ⟨by simp, ?_⟩
  intro i j hi hj _ _
  simp only [List.getElem_map]
  exact ⟨hg _ (List.getElem_mem hi) _ (List.getElem_mem hj), fun h => by rw [h]⟩

section
variable {n : Nat} {K E : Type} [Field K] [DecidableEq K] [DecidableEq E]

/-- A sort function that only permutes rows and columns other than the first: all functions of
`matrix_sort.py` (see C13). -/
def OnlyPermutes (n : Nat) (sortf : Mat → Option Mat) : Prop :=
  ∀ M R, HasCols n M → sortf M = some R → SameUpToPermutation n M R

theorem zip_sorted {β : Type} (arrays : List Mat) (sectors : List β)
    (hl : arrays.length = sectors.length) :
    takeIdx (arrays.zip sectors) (argsortND arrays) =
      (arrays.zip sectors).mergeSort (fun a b => rowLe a.1.flatten b.1.flatten) := by
  have := takeIdx_argsort2D_map (arrays.zip sectors) (fun p => p.1.flatten)
  rw [← this]
  unfold argsortND
  congr 2
  conv_lhs => rw [← List.map_fst_zip (l₁ := arrays) (l₂ := sectors) (by omega)]
  rw [List.map_map]
  rfl

theorem forall₂_mem_zip {α β : Type} {P : α → β → Prop} {l : List α} {l' : List β}
    (h : List.Forall₂ P l l') : ∀ p ∈ l'.zip l, P p.2 p.1 := by
  induction h with
  | nil => simp
  | cons h _ ih =>
    intro p hp
    rw [List.zip_cons_cons, List.mem_cons] at hp
    rcases hp with rfl | hp
    · exact h
    · exact ih p hp

/-- equal canonical arrays come from sectors that agree up to a permutation of the variables -/
theorem perm_of_same_array {g : TCoeff K E → Int} {sortf : Mat → Option Mat}
    (hsort : OnlyPermutes (n+1) sortf) {s t : Sector n K E} {M : Mat}
    (hinj : ∀ p ∈ sector2array s, ∀ q ∈ sector2array t, g p.2 = g q.2 → p.2 = q.2)
    (h1 : sortf (hashed g (sector2array s)) = some M)
    (h2 : sortf (hashed g (sector2array t)) = some M) :
    ∃ π : Equiv.Perm (Fin n), ((sector2array s).map (fun r => (r.1 ∘ π, r.2))).Perm (sector2array t) := by
  apply exists_variable_perm hinj
  have a := hsort _ _ (hashed_hasCols g _) h1
  have b := hsort _ _ (hashed_hasCols g _) h2
  exact PermutedBy.trans fixesFirst_mul a (PermutedBy.symm fixesFirst_inv (hashed_hasCols g _) b)

/-- C14: squashing never changes the total.  Let the integrand of a sector be any function `Φ` of the
Jacobian monomial and of the values and exponents of its polynomials, and let the integral be
any operation that is invariant under permutations of the variables.  Then the sum over the returned
sectors of Jacobian coefficient times integral equals that over the given sectors, whatever the hash
function. -/
theorem C14_squash_preserves_total {V : Type} [AddCommGroup V] [Module K V]
    (I : ((Fin n → K) → K) → V) (hI : SymmetricIntegral I) (Φ : Value K E → K)
    (hash : TCoeff K E → Int) (fuel : Nat) (sortf : Mat → Option Mat)
    (hsort : OnlyPermutes (n+1) sortf) (sectors out : List (Sector n K E))
    (hnz : ∀ s ∈ sectors, NonZero s) (hsh : ∀ s ∈ sectors, ∀ t ∈ sectors, SameShape s t)
    (h : squash hash fuel sortf sectors = some out) :
    (out.map (fun s => s.jac.2 • I (fun x => Φ (s.value x)))).sum =
      (sectors.map (fun s => s.jac.2 • I (fun x => Φ (s.value x)))).sum := by
  unfold squash squashWith at h
  rw [Option.bind_eq_some_iff] at h
  obtain ⟨arrays, ha, h⟩ := h
  obtain ⟨_, g, hinj, hfa⟩ := canonicalArrays_spec ha
  have hl : arrays.length = sectors.length := hfa.length_eq.symm
  rw [zip_sorted arrays sectors hl] at h
  have hperm := List.mergeSort_perm (arrays.zip sectors) (fun a b => rowLe a.1.flatten b.1.flatten)
  set L := (arrays.zip sectors).mergeSort (fun a b => rowLe a.1.flatten b.1.flatten) with hL
  let w : Sector n K E → V := fun s => I (fun x => Φ (s.value x))
  have hw : ∀ p ∈ L, ∀ q ∈ L, p.1 = q.1 → w p.2 = w q.2 := by
    intro p hp q hq hpq
    have hp' := hperm.mem_iff.1 hp
    have hq' := hperm.mem_iff.1 hq
    have ep := forall₂_mem_zip hfa p hp'
    have eq := forall₂_mem_zip hfa q hq'
    have mp := (List.of_mem_zip (show (p.1, p.2) ∈ _ from hp')).2
    have mq := (List.of_mem_zip (show (q.1, q.2) ∈ _ from hq')).2
    rw [← hpq] at eq
    obtain ⟨π, hπ⟩ := perm_of_same_array hsort (hinj p.2 mp q.2 mq) ep eq
    have hv := value_perm hπ (hnz _ mp) (hsh _ mp _ mq)
    show I (fun x => Φ (p.2.value x)) = I (fun x => Φ (q.2.value x))
    rw [← hI.perm (fun x => Φ (p.2.value x)) π.symm]
    apply hI.congr
    intro x hx
    rw [hv x hx]
  cases hLc : L with
  | nil => rw [hLc] at h; simp at h
  | cons x rest =>
    rw [hLc] at h hw hperm
    simp only [Option.some.injEq] at h
    subst h
    have := prune_wsum w (fun s t => rfl) rest { done := [], arr := x.1, cur := x.2 }
      (fun p hp he => hw p (List.mem_cons_of_mem _ hp) x (by simp) he)
      (fun p hp q hq => hw p (List.mem_cons_of_mem _ hp) q (List.mem_cons_of_mem _ hq))
    unfold wsum at this
    rw [this]
    have h2 := (hperm.map (fun p => p.2.jac.2 • w p.2)).sum_eq
    have h3 : (sectors.map (fun s => s.jac.2 • w s)) =
        (arrays.zip sectors).map (fun p => p.2.jac.2 • w p.2) := by
      conv_lhs => rw [← List.map_snd_zip (l₁ := arrays) (l₂ := sectors) (by omega)]
      rw [List.map_map]; rfl
    show _ = (sectors.map (fun s => s.jac.2 • w s)).sum
    rw [h3, ← h2]
    simp [Function.comp_def]

/-- C14: with `Pak_sort` all symmetries are found: no two returned sectors are related by a
permutation of the variables. -/
theorem C14_pak_finds_all_symmetries (hn : 1 ≤ n)
    (hash : TCoeff K E → Int) (fuel : Nat) (sectors out : List (Sector n K E))
    (h : squash hash fuel (fun M => pakSort (n+1) M) sectors = some out) :
    out.Pairwise (fun s t => ∀ π : Equiv.Perm (Fin n), ¬ PermutedSector π s t) := by
  unfold squash squashWith at h
  rw [Option.bind_eq_some_iff] at h
  obtain ⟨arrays, ha, h⟩ := h
  obtain ⟨hlen, g, hinj, hfa⟩ := canonicalArrays_spec ha
  have hl : arrays.length = sectors.length := hfa.length_eq.symm
  rw [zip_sorted arrays sectors hl] at h
  have hperm := List.mergeSort_perm (arrays.zip sectors) (fun a b => rowLe a.1.flatten b.1.flatten)
  have hsorted := sorted_mergeSort_key (arrays.zip sectors) (fun p => p.1.flatten)
  set L := (arrays.zip sectors).mergeSort (fun a b => rowLe a.1.flatten b.1.flatten) with hL
  have hrel : ∀ p ∈ L, p.2 ∈ sectors ∧ pakSort (n+1) (hashed g (sector2array p.2)) = some p.1 ∧
      HasCols (n+1) p.1 := by
    intro p hp
    have hp' := hperm.mem_iff.1 hp
    have e := forall₂_mem_zip hfa p hp'
    refine ⟨(List.of_mem_zip (show (p.1, p.2) ∈ _ from hp')).2, e, ?_⟩
    obtain ⟨R, e', hR⟩ := C13_pak_only_permutes (hashed_hasCols g (sector2array p.2))
    rw [e] at e'
    cases e'
    exact hR.hasCols
  cases hLc : L with
  | nil => rw [hLc] at h; simp at h
  | cons x rest =>
    rw [hLc] at h hrel hsorted
    simp only [Option.some.injEq] at h
    subst h
    rw [List.pairwise_cons] at hsorted
    have hinjf : ∀ p ∈ x :: rest, ∀ q ∈ x :: rest, p.1.flatten = q.1.flatten → p.1 = q.1 :=
      fun p hp q hq he => flatten_inj (Nat.le_add_left 1 n) (hrel p hp).2.2 (hrel q hq).2.2 he
    obtain ⟨reps, h1, h2, h3⟩ := prune_distinct rest { done := [], arr := x.1, cur := x.2 } [x]
      List.flatten
      (fun p hp q hq => hinjf p (List.mem_cons_of_mem _ hp) q (List.mem_cons_of_mem _ hq))
      (fun p hp => hinjf p (List.mem_cons_of_mem _ hp) x (by simp)) hsorted.2 hsorted.1
      (by simp) ⟨[], x.2, rfl⟩ (by simp)
    have hmem : ∀ p ∈ reps, p ∈ x :: rest := by
      intro p hp
      rcases h3 p hp with h | h
      · rw [List.mem_singleton] at h; simp [h]
      · exact List.mem_cons_of_mem _ h
    set out := (rest.foldl pruneStep { done := [], arr := x.1, cur := x.2 }).done ++
      [(rest.foldl pruneStep { done := [], arr := x.1, cur := x.2 }).cur] with hout
    -- PermutedSector does not see the Jacobian coefficient
    let zero : Sector n K E → Sector n K E := fun s => { s with jac := (s.jac.1, (0 : K)) }
    have hP : ∀ π s t, PermutedSector π s t ↔ PermutedSector π (zero s) (zero t) :=
      fun π s t => Iff.rfl
    have key : (out.map zero).Pairwise
        (fun s t => ∀ π : Equiv.Perm (Fin n), ¬ PermutedSector π s t) := by
      rw [← h1, List.pairwise_map]
      refine List.Pairwise.imp_of_mem ?_ h2
      intro p q hp hq hne π hπ
      have hπ' : PermutedSector π p.2 q.2 := hπ
      have harr := array_of_permuted hπ'
      apply hne
      have hp' := hrel p (hmem p hp)
      have hq' := hrel q (hmem q hq)
      have hsame : SameUpToPermutation (n+1) (hashed g (sector2array p.2)) (hashed g (sector2array q.2)) := by
        -- extend π to all columns
        refine ⟨⟨Fin.cases 0 (fun i => (π i).succ), Fin.cases 0 (fun i => (π.symm i).succ),
          ?_, ?_⟩, ?_, ?_⟩
        · intro i; refine Fin.cases ?_ (fun i => ?_) i <;> simp
        · intro i; refine Fin.cases ?_ (fun i => ?_) i <;> simp
        · intro c hc
          have : c = 0 := Fin.ext hc
          subst this; rfl
        · have := harr.map (fun r : Expo n × TCoeff K E => g r.2 :: List.ofFn r.1)
          unfold hashed
          rw [List.map_map] at this ⊢
          convert this using 2
          funext r
          simp [permuteCols, List.ofFn_succ, Function.comp_def]
      have := C13_pak_canonical (Nat.succ_le_succ hn) (hashed_hasCols g _) hsame
      rw [hp'.2.1, hq'.2.1, Option.some.injEq] at this
      rw [this]
    rw [List.pairwise_map] at key
    exact key.imp (fun h π hp => h π ((hP π _ _).1 hp))

/-- C14: with `Pak_sort`, squashing succeeds on every nonempty list of sectors with equally many terms. -/
theorem C14_squash_succeeds (hash : TCoeff K E → Int) (sectors : List (Sector n K E))
    (h0 : sectors ≠ [])
    (hlen : ∀ s ∈ sectors, ∀ t ∈ sectors, (sector2array s).length = (sector2array t).length) :
    ∃ fuel out, squash hash fuel (fun M => pakSort (n+1) M) sectors = some out := by
  obtain ⟨fuel, hs, e⟩ := safeHashLoop_terminates
    ((sectors.map sector2array).flatMap (fun a => a.map (·.2))) hash
  refine ⟨fuel, ?_⟩
  unfold squash squashWith
  obtain ⟨g, hg, _⟩ := safeHashLoop_spec _ _ _ _ e
  have hca : ∃ arrays, canonicalArrays hash fuel (fun M => pakSort (n+1) M) sectors = some arrays ∧
      arrays.length = sectors.length := by
    unfold canonicalArrays
    simp only []
    rw [if_pos]
    · unfold safeHash
      rw [e, Option.bind_some]
      have hh : ∀ (l : List Mat), (∀ M ∈ l, HasCols (n+1) M) →
          ∃ as, l.mapM (fun M => pakSort (n+1) M) = some as ∧ as.length = l.length := by
        intro l hl
        induction l with
        | nil => exact ⟨[], rfl, rfl⟩
        | cons M l ih =>
          obtain ⟨R, hR, _⟩ := C13_pak_only_permutes (hl M (by simp))
          obtain ⟨as, has, hlas⟩ := ih (fun M hM => hl M (List.mem_cons_of_mem _ hM))
          exact ⟨R :: as, by rw [List.mapM_cons, hR, has]; rfl, by simp [hlas]⟩
      subst hg
      have e1 : ((sectors.map sector2array).flatMap (fun a => a.map (·.2))).map g =
          (sectors.map sector2array).flatMap (fun a => a.map (fun r => g r.2)) := by
        rw [List.map_flatMap]
        congr 1; funext a; rw [List.map_map]; rfl
      rw [e1, splitLike_map, List.zipWith_map_right, List.zipWith_self]
      obtain ⟨as, h1, h2⟩ := hh ((sectors.map sector2array).map
        (fun a => hashedArray a (a.map (fun r => g r.2)))) (by
          intro M hM
          obtain ⟨a, _, rfl⟩ := List.mem_map.1 hM
          unfold hashedArray
          rw [List.zipWith_map_left, List.zipWith_self]
          exact hashed_hasCols g a)
      exact ⟨as, h1, by simpa using h2⟩
    · intro a ha b hb
      obtain ⟨s, hs, rfl⟩ := List.mem_map.1 ha
      obtain ⟨t, ht, rfl⟩ := List.mem_map.1 hb
      exact hlen s hs t ht
  obtain ⟨arrays, ha, hal⟩ := hca
  rw [ha, Option.bind_some, zip_sorted arrays sectors hal]
  have hlen' : ((arrays.zip sectors).mergeSort
      (fun a b => rowLe a.1.flatten b.1.flatten)).length = sectors.length := by
    rw [(List.mergeSort_perm _ _).length_eq]; simp [hal]
  cases hL : (arrays.zip sectors).mergeSort (fun a b => rowLe a.1.flatten b.1.flatten) with
  | nil =>
    rw [hL] at hlen'
    exact absurd (List.length_eq_zero_iff.1 hlen'.symm) h0
  | cons x rest => exact ⟨_, rfl⟩

end

/-! ### the integral over the unit cube -/
open MeasureTheory

theorem symmetric_unit_cube (n : Nat) : SymmetricIntegral (K := ℝ) (n := n)
    (fun f => ∫ x in Set.Icc (0 : Fin n → ℝ) 1, f x) := by
  constructor
  · intro f g hfg
    apply integral_congr_ae
    apply ae_restrict_of_ae
    have : ∀ᵐ x : Fin n → ℝ, ∀ i, x i ≠ 0 := by
      rw [ae_all_iff]
      intro i
      exact Measure.ae_eval_ne (μ := fun _ : Fin n => (volume : Measure ℝ)) i 0
    filter_upwards [this] with x hx using hfg x hx
  · intro f π
    have hmp := volume_measurePreserving_piCongrLeft (fun _ : Fin n => ℝ) π.symm
    have hpre : (MeasurableEquiv.piCongrLeft (fun _ : Fin n => ℝ) π.symm) ⁻¹'
        (Set.Icc (0 : Fin n → ℝ) 1) = Set.Icc 0 1 := by
      ext x
      simp only [Set.mem_preimage, Set.mem_Icc, Pi.le_def]
      constructor
      · rintro ⟨h1, h2⟩
        refine ⟨fun i => ?_, fun i => ?_⟩
        · simpa [MeasurableEquiv.coe_piCongrLeft, Equiv.piCongrLeft_apply] using h1 (π.symm i)
        · simpa [MeasurableEquiv.coe_piCongrLeft, Equiv.piCongrLeft_apply] using h2 (π.symm i)
      · rintro ⟨h1, h2⟩
        refine ⟨fun i => ?_, fun i => ?_⟩
        · simpa [MeasurableEquiv.coe_piCongrLeft, Equiv.piCongrLeft_apply] using h1 (π i)
        · simpa [MeasurableEquiv.coe_piCongrLeft, Equiv.piCongrLeft_apply] using h2 (π i)
    have := hmp.setIntegral_preimage_emb (MeasurableEquiv.measurableEmbedding _) f (Set.Icc 0 1)
    rw [hpre] at this
    show (∫ x in Set.Icc (0 : Fin n → ℝ) 1, f (x ∘ π)) = ∫ x in Set.Icc (0 : Fin n → ℝ) 1, f x
    rw [← this]
    congr 1
    funext x
    congr 1
    funext i
    simp [MeasurableEquiv.coe_piCongrLeft, Equiv.piCongrLeft_apply]

/-- C14 for the unit hypercube: the sum over sectors of coefficient times Lebesgue integral of
Jacobian monomial times any function of the polynomials is unchanged. -/
theorem C14_squash_unit_cube {n : Nat} {E : Type} [DecidableEq E]
    (F : List (ℝ × Option E) → List (ℝ × Option E) → ℝ) [DecidableEq ℝ]
    (hash : TCoeff ℝ E → Int) (fuel : Nat) (sortf : Mat → Option Mat)
    (hsort : OnlyPermutes (n+1) sortf) (sectors out : List (Sector n ℝ E))
    (hnz : ∀ s ∈ sectors, NonZero s) (hsh : ∀ s ∈ sectors, ∀ t ∈ sectors, SameShape s t)
    (h : squash hash fuel sortf sectors = some out) :
    (out.map (fun s => s.jac.2 * ∫ x in Set.Icc (0 : Fin n → ℝ) 1,
        (s.value x).jac * F (s.value x).cast (s.value x).other)).sum =
    (sectors.map (fun s => s.jac.2 * ∫ x in Set.Icc (0 : Fin n → ℝ) 1,
        (s.value x).jac * F (s.value x).cast (s.value x).other)).sum :=
  C14_squash_preserves_total _ (symmetric_unit_cube n) (fun v => v.jac * F v.cast v.other)
    hash fuel sortf hsort sectors out hnz hsh h

/-! ### defect: `indices` and the Jacobian -/

/-- `x0^0 * x1^a` as Jacobian, one `cast` polynomial `x0`. -/
def badSector (a : Int) : Sector 2 ℚ Unit :=
  { jac := (![0, a], 1)
    cast := [{ mono := (![1, 0], 1), poly := { terms := [(![0, 0], 1)], exponent := none } }]
    other := [] }

/-- Defect: when a variable is excluded by `indices`, its power in the Jacobian is ignored (it is moved
to the Jacobian coefficient, which `_sector2array` replaces by one).  The two sectors with Jacobian
`x1` and `1` are identified although their integrands differ. -/
theorem C14_indices_ignore_jacobian_power (sym : ℚ) :
    sector2array (removeVar 1 sym (badSector 1)) = sector2array (removeVar 1 sym (badSector 0)) ∧
    ∃ x : Fin 2 → ℚ, ((badSector 1).value x).jac ≠ ((badSector 0).value x).jac := by
  refine ⟨?_, ![1, 2], ?_⟩
  · simp [sector2array, removeVar, badSector, removeVarTerms, Poly.replaceRemove, castRows,
      tagCoeff, Poly.replaceCoeff]
    decide
  · simp [Sector.value, badSector, Poly.mono, Fin.prod_univ_two]

/-! ### non-vacuity -/

/-- The sectors of the doc string of `squash_symmetry_redundant_sectors_sort` with numbers as
coefficients. -/
def docSector (c : ℚ) (i j : Fin 2 → Int) : Sector 2 ℚ Unit :=
  { jac := (i, c)
    cast := [{ mono := (![0, 0], 1), poly := { terms := [(i, 7), (j, 11)], exponent := none } }]
    other := [] }

example : PermutedSector (Equiv.swap 0 1) (docSector 3 ![1, 0] ![0, 1]) (docSector 5 ![0, 1] ![1, 0]) := by
  refine ⟨by decide, ?_, by simp [docSector]⟩
  simp only [docSector, List.forall₂_cons, SProd.expanded]
  refine ⟨⟨trivial, ?_⟩, .nil⟩
  simp only [List.map_cons, List.map_nil]
  rw [show ((![1, 0] + ![0, 0] : Fin 2 → Int) ∘ (Equiv.swap 0 1 : Equiv.Perm (Fin 2))) = ![0,1] + ![0,0] by decide,
    show ((![0, 1] + ![0, 0] : Fin 2 → Int) ∘ (Equiv.swap 0 1 : Equiv.Perm (Fin 2))) = ![1,0] + ![0,0] by decide]

example : NonZero (docSector 3 ![1, 0] ![0, 1]) ∧
    SameShape (docSector 3 ![1, 0] ![0, 1]) (docSector 5 ![0, 1] ![1, 0]) := by
  refine ⟨⟨?_, by simp [docSector]⟩, rfl, rfl⟩
  intro p hp
  simp only [docSector, List.mem_singleton] at hp
  subst hp
  exact ⟨by norm_num, (![1, 0], 7), by simp, by norm_num⟩

/-- the squash of the two sectors exists, and preserves the sum over any symmetric integral -/
example : ∃ fuel out, squash (fun _ => 0) fuel (fun M => pakSort 3 M)
    [docSector 3 ![1, 0] ![0, 1], docSector 5 ![0, 1] ![1, 0]] = some out :=
  C14_squash_succeeds _ _ (by simp) (by
    intro s hs t ht
    simp only [List.mem_cons, List.not_mem_nil, or_false] at hs ht
    rcases hs with rfl | rfl <;> rcases ht with rfl | rfl <;> rfl)

example : OnlyPermutes 3 (fun M => pakSort 3 M) := by
  intro M R hM h
  obtain ⟨R', h', hR⟩ := C13_pak_only_permutes hM
  simp only [h', Option.some.injEq] at h; subst h; exact hR

example : OnlyPermutes 3 (fun M => lightPakSort 3 M) := by
  intro M R hM h
  obtain ⟨R', h', hR⟩ := C13_light_only_permutes (by norm_num) hM
  simp only [h', Option.some.injEq] at h; subst h; exact hR

end SecDec.Squash
