import Mathlib.Algebra.BigOperators.Group.Finset.Basic
import Mathlib.Algebra.Order.BigOperators.Group.Finset
import Mathlib.Data.Int.Order.Basic
import Mathlib.Tactic.Linarith
import Mathlib.Tactic.Ring
import Mathlib.Data.Finset.Max
import Mathlib.Data.Int.Interval
import Verif.Model.Squash
namespace SecDec.Squash

variable {α : Type} [DecidableEq α]

theorem bump_map (objs : List α) (f : α → Int) (i : Nat) :
    bump objs (objs.map f) i = objs.map (fun o => if objs[i]? = some o then f o + 1 else f o) := by
  unfold bump
  rw [List.zipWith_map_right, List.zipWith_self]

theorem countDistinct_map_eq_iff (objs : List α) (f : α → Int) :
    countDistinct objs = countDistinct (objs.map f) ↔ ∀ a ∈ objs, ∀ b ∈ objs, f a = f b → a = b := by
  unfold countDistinct
  have : (objs.map f).toFinset = objs.toFinset.image f := by
    ext; simp
  rw [this, eq_comm, Finset.card_image_iff]
  constructor
  · intro h a ha b hb hab
    exact h (by simpa using ha) (by simpa using hb) hab
  · intro h a ha b hb hab
    exact h a (by simpa using ha) b (by simpa using hb) hab

theorem safeHashLoop_spec (objs : List α) (fuel : Nat) (f : α → Int) (hs : List Int)
    (h : safeHashLoop objs fuel (objs.map f) = some hs) :
    ∃ g : α → Int, hs = objs.map g ∧ ∀ a ∈ objs, ∀ b ∈ objs, g a = g b → a = b := by
  induction fuel generalizing f with
  | zero => simp [safeHashLoop] at h
  | succ fuel ih =>
    rw [safeHashLoop] at h
    split at h
    · rename_i hc
      simp only [Option.some.injEq] at h
      exact ⟨f, h.symm, (countDistinct_map_eq_iff objs f).1 hc⟩
    · rw [bump_map] at h
      exact ih _ h

/-- While there is a collision the search finds an object whose hash also belongs to another one. -/
theorem collisionIndex_spec (objs : List α) (f : α → Int)
    (h : ¬ ∀ a ∈ objs, ∀ b ∈ objs, f a = f b → a = b) :
    ∃ o b, objs[collisionIndex objs (objs.map f)]? = some o ∧ o ∈ objs ∧ b ∈ objs ∧
      b ≠ o ∧ f b = f o := by
  -- there is an index where `collidesAt` holds
  have hex : ∃ i, i < (objs.map f).length ∧ collidesAt objs (objs.map f) i = true := by
    -- choose colliding a, b; take last occurrences
    have last : ∀ a ∈ objs, ∃ i, ∃ hi : i < objs.length, objs[i] = a ∧ a ∉ objs.drop (i+1) := by
      clear h
      intro a ha
      induction objs with
      | nil => simp at ha
      | cons x xs ih =>
        by_cases hx : a ∈ xs
        · obtain ⟨i, hi, h1, h2⟩ := ih hx
          exact ⟨i+1, by simpa using hi, by simpa using h1, by simpa using h2⟩
        · have : a = x := by simpa [hx] using ha
          subst this
          exact ⟨0, by simp, by simp, by simpa using hx⟩
    have main : ∀ a ∈ objs, ∀ b ∈ objs, f a = f b → a ≠ b →
        ∃ i, i < (objs.map f).length ∧ collidesAt objs (objs.map f) i = true := by
      intro a ha b hb hf hne
      obtain ⟨i, hi, hia, hil⟩ := last a ha
      obtain ⟨j, hj, hjb, hjl⟩ := last b hb
      have key : ∀ (i j : Nat) (hi : i < objs.length) (hj : j < objs.length), i < j →
          f objs[i] = f objs[j] → objs[i] ∉ objs.drop (i+1) →
          collidesAt objs (objs.map f) i = true := by
        intro i j hi hj hij hfe hno
        unfold collidesAt
        simp only [List.getElem?_eq_getElem hi, List.getElem?_map, Option.map_some,
          Bool.and_eq_true, decide_eq_true_eq]
        refine ⟨?_, hno⟩
        rw [← List.map_drop, List.mem_map]
        refine ⟨objs[j], ?_, hfe.symm⟩
        rw [List.mem_iff_getElem]
        refine ⟨j - (i+1), by simp; omega, ?_⟩
        simp only [List.getElem_drop]
        congr 1; omega
      rcases Nat.lt_trichotomy i j with hij | hij | hij
      · exact ⟨i, by simpa using hi, key i j hi hj hij (by rw [hia, hjb, hf]) (by rw [hia]; exact hil)⟩
      · subst hij
        exact absurd (hia.symm.trans hjb) hne
      · exact ⟨j, by simpa using hj, key j i hj hi hij (by rw [hia, hjb, hf]) (by rw [hjb]; exact hjl)⟩
    by_contra hno
    apply h
    intro a ha b hb hf
    by_contra hne
    exact hno (main a ha b hb hf hne)
  obtain ⟨i0, hi0, hc0⟩ := hex
  unfold collisionIndex
  cases hfind : (List.range (objs.map f).length).find? (collidesAt objs (objs.map f)) with
  | none =>
    rw [List.find?_eq_none] at hfind
    exact absurd hc0 (hfind i0 (List.mem_range.2 hi0))
  | some i =>
    have hi := List.find?_some hfind
    simp only [Option.getD_some]
    unfold collidesAt at hi
    split at hi
    · rename_i o hv ho hh
      simp only [Bool.and_eq_true, decide_eq_true_eq] at hi
      obtain ⟨h1, h2⟩ := hi
      have hfo : hv = f o := by
        rw [List.getElem?_map, ho] at hh
        simpa using hh.symm
      rw [← List.map_drop, List.mem_map] at h1
      obtain ⟨b, hb, hfb⟩ := h1
      refine ⟨o, b, ho, List.mem_of_getElem? ho, List.mem_of_mem_drop hb, ?_, by rw [hfb, hfo]⟩
      rintro rfl
      exact h2 hb
    · simp at hi

/-- All hash values `H0 .. H0+k` up to the current maximum stay in use, so the loop ends. -/
theorem safeHashLoop_terminates (objs : List α) (f : α → Int) :
    ∃ fuel hs, safeHashLoop objs fuel (objs.map f) = some hs := by
  classical
  -- bound of the initial hashes
  obtain ⟨H, hH⟩ : ∃ H : Int, ∀ a ∈ objs, f a ≤ H := by
    clear * -
    induction objs with
    | nil => exact ⟨0, by simp⟩
    | cons x xs ih =>
      obtain ⟨H, hH⟩ := ih
      refine ⟨max H (f x), ?_⟩
      intro a ha
      rcases List.mem_cons.1 ha with rfl | ha
      · exact le_max_right _ _
      · exact (hH a ha).trans (le_max_left _ _)
  set S := objs.toFinset with hS
  have hmem : ∀ a, a ∈ S ↔ a ∈ objs := by intro a; simp [hS]
  -- invariant: every value in (H, g a] is the hash of some object
  let Inv : (α → Int) → Prop := fun g => ∀ a ∈ S, ∀ v : Int, H < v → v ≤ g a → ∃ b ∈ S, g b = v
  have hbound : ∀ g, Inv g → ∀ a ∈ S, g a ≤ H + S.card := by
    intro g hg a ha
    by_contra hlt
    have hsub : Finset.Ioc H (g a) ⊆ S.image g := by
      intro v hv
      rw [Finset.mem_Ioc] at hv
      obtain ⟨b, hb, hbv⟩ := hg a ha v hv.1 hv.2
      exact Finset.mem_image.2 ⟨b, hb, hbv⟩
    have h1 := Finset.card_le_card hsub
    have h2 := Finset.card_image_le (s := S) (f := g)
    rw [Int.card_Ioc] at h1
    omega
  have main : ∀ (k : Nat) (g : α → Int), Inv g →
      (∑ a ∈ S, (H + S.card - g a)).toNat ≤ k →
      ∃ fuel hs, safeHashLoop objs fuel (objs.map g) = some hs := by
    intro k
    induction k with
    | zero =>
      intro g hg hk
      by_cases hc : countDistinct objs = countDistinct (objs.map g)
      · exact ⟨1, objs.map g, by rw [safeHashLoop, if_pos hc]⟩
      · exfalso
        obtain ⟨o, b, hi, ho, hb, hne, hfe⟩ := collisionIndex_spec objs g
          (by rw [← countDistinct_map_eq_iff]; exact hc)
        -- the sum is positive because both share a hash and otherwise the bound is violated
        have hnn : ∀ a ∈ S, 0 ≤ H + S.card - g a := fun a ha => by have := hbound g hg a ha; omega
        have hz : ∑ a ∈ S, (H + S.card - g a) = 0 := by
          have := Finset.sum_nonneg hnn; omega
        rw [Finset.sum_eq_zero_iff_of_nonneg hnn] at hz
        have h1 := hz o ((hmem o).2 ho)
        -- H < .. ≤ g o all in use by fewer than card objects
        have hsub : Finset.Ioc H (g o) ⊆ S.image g := by
          intro v hv
          rw [Finset.mem_Ioc] at hv
          obtain ⟨b, hb, hbv⟩ := hg o ((hmem o).2 ho) v hv.1 hv.2
          exact Finset.mem_image.2 ⟨b, hb, hbv⟩
        have h2 := Finset.card_le_card hsub
        rw [Int.card_Ioc] at h2
        have h3 : (S.image g).card < S.card := by
          refine lt_of_le_of_ne Finset.card_image_le ?_
          rw [Ne, Finset.card_image_iff]
          intro hinj
          exact hne (hinj (by simpa using (hmem b).2 hb) (by simpa using (hmem o).2 ho) hfe)
        omega
    | succ k ih =>
      intro g hg hk
      by_cases hc : countDistinct objs = countDistinct (objs.map g)
      · exact ⟨1, objs.map g, by rw [safeHashLoop, if_pos hc]⟩
      · obtain ⟨o, b, hi, ho, hb, hne, hfe⟩ := collisionIndex_spec objs g
          (by rw [← countDistinct_map_eq_iff]; exact hc)
        set g' : α → Int := fun a => if some o = some a then g a + 1 else g a with hg'
        have hgo : g' o = g o + 1 := by simp [hg']
        have hga : ∀ a, a ≠ o → g' a = g a := by
          intro a ha; simp [hg', Ne.symm ha]
        have hgb : g' b = g o := by rw [hga b hne, hfe]
        have hinv' : Inv g' := by
          intro a ha v hv1 hv2
          by_cases hvo : v = g o + 1
          · exact ⟨o, (hmem o).2 ho, by rw [hgo, hvo]⟩
          · have hv3 : v ≤ g a ∨ (a = o ∧ v ≤ g o) := by
              by_cases hao : a = o
              · subst hao; rw [hgo] at hv2; right; exact ⟨rfl, by omega⟩
              · left; rw [hga a hao] at hv2; exact hv2
            have hv4 : v ≤ g a := by
              rcases hv3 with h | ⟨rfl, h⟩ <;> exact h
            obtain ⟨c, hc1, hc2⟩ := hg a ha v hv1 hv4
            by_cases hco : c = o
            · subst hco
              exact ⟨b, (hmem b).2 hb, by rw [hgb, hc2]⟩
            · exact ⟨c, hc1, by rw [hga c hco, hc2]⟩
        have hsum : ∑ a ∈ S, (H + S.card - g' a) = ∑ a ∈ S, (H + S.card - g a) - 1 := by
          have hoS := (hmem o).2 ho
          rw [← Finset.add_sum_erase _ _ hoS, ← Finset.add_sum_erase (f := fun a => H + S.card - g a) _ hoS]
          rw [Finset.sum_congr rfl (fun a ha => by rw [hga a (Finset.ne_of_mem_erase ha)])]
          simp only [hgo]; ring
        have hnn' : 0 ≤ ∑ a ∈ S, (H + S.card - g' a) :=
          Finset.sum_nonneg (fun a ha => by have := hbound g' hinv' a ha; omega)
        obtain ⟨fuel, hs, e⟩ := ih g' hinv' (by omega)
        refine ⟨fuel+1, hs, ?_⟩
        rw [safeHashLoop, if_neg hc, bump_map, hi]
        exact e
  refine main _ f ?_ (le_refl _)
  intro a ha v hv1 hv2
  exact absurd (hH a ((hmem a).1 ha)) (by omega)

end SecDec.Squash
