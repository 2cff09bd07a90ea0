import Verif.Spec.Params
import Mathlib.Data.List.Forall2
import Mathlib.Data.List.Induction

namespace SecDec
namespace Params

theorem get_set {α : Type} (k : String) (v : α) (p : String) : ∀ d : Dict α, Dict.get? (Dict.set d k v) p = if k = p then some v else Dict.get? d p
  | [] => by simp [Dict.set, Dict.get?]
  | q :: d => by
    unfold Dict.set
    by_cases h : q.1 = k
    · rw [if_pos h]
      unfold Dict.get?
      dsimp only
      by_cases hk : k = p
      · simp [hk]
      · rw [if_neg hk, if_neg hk, if_neg (by rw [h]; exact hk)]
    · rw [if_neg h]
      unfold Dict.get?
      by_cases hq : q.1 = p
      · rw [if_pos hq, if_pos hq, if_neg (fun e => h (hq.trans e.symm))]
      · rw [if_neg hq, if_neg hq, get_set k v p d]

theorem mem_of_get {α : Type} {p : String} {v : α} : ∀ {d : Dict α}, Dict.get? d p = some v → (p, v) ∈ d
  | q :: d, h => by
    unfold Dict.get? at h
    by_cases hq : q.1 = p
    · rw [if_pos hq] at h
      obtain rfl := Option.some.inj h
      rw [← hq]
      exact List.mem_cons_self
    · rw [if_neg hq] at h
      exact List.mem_cons_of_mem _ (mem_of_get h)

theorem mem_set {α : Type} {k : String} {v : α} {q : String × α} : ∀ {d : Dict α}, q ∈ Dict.set d k v → q = (k, v) ∨ q ∈ d
  | [], h => by simpa [Dict.set] using h
  | a :: d, h => by
    unfold Dict.set at h
    by_cases ha : a.1 = k
    · rw [if_pos ha] at h
      rcases List.mem_cons.1 h with h | h
      · exact Or.inl h
      · exact Or.inr (List.mem_cons_of_mem _ h)
    · rw [if_neg ha] at h
      rcases List.mem_cons.1 h with h | h
      · exact Or.inr (h ▸ List.mem_cons_self)
      · rcases mem_set h with h | h
        · exact Or.inl h
        · exact Or.inr (List.mem_cons_of_mem _ h)

theorem assign_snd : ∀ (ns : List String) (vs : List Value) (d : Dict Value), (assign ns vs d).2 = decide (ns.length < vs.length)
  | _, [], d => by simp [assign]
  | [], _ :: _, d => by simp [assign]
  | n :: ns, v :: vs, d => by
    unfold assign
    rw [assign_snd ns vs]
    simp

theorem atPlace_mem {ns : List String} {vs : List Value} {p : String} {v : Value} (h : AtPlace ns vs p v) : p ∈ ns ∧ v ∈ vs := by
  obtain ⟨i, h1, h2⟩ := h
  exact ⟨List.mem_of_getElem? h1, List.mem_of_getElem? h2⟩

theorem atPlace_cons {n : String} {ns : List String} {w : Value} {vs : List Value} {p : String} {v : Value} :
    AtPlace (n :: ns) (w :: vs) p v ↔ (n = p ∧ w = v) ∨ AtPlace ns vs p v := by
  constructor
  · rintro ⟨i, h1, h2⟩
    cases i with
    | zero => exact Or.inl ⟨by simpa using h1, by simpa using h2⟩
    | succ i => exact Or.inr ⟨i, by simpa using h1, by simpa using h2⟩
  · rintro (⟨rfl, rfl⟩ | ⟨i, h1, h2⟩)
    · exact ⟨0, by simp, by simp⟩
    · exact ⟨i + 1, by simpa using h1, by simpa using h2⟩

theorem assign_other : ∀ (ns : List String) (vs : List Value) (d : Dict Value) (p : String), (∀ v, ¬ AtPlace ns vs p v) →
    Dict.get? (assign ns vs d).1 p = Dict.get? d p
  | _, [], d, p, _ => by simp [assign]
  | [], _ :: _, d, p, _ => by simp [assign]
  | n :: ns, v :: vs, d, p, h => by
    unfold assign
    rw [assign_other ns vs _ p (fun w hw => h w (atPlace_cons.2 (Or.inr hw))), get_set]
    rw [if_neg]
    intro e
    exact h v (atPlace_cons.2 (Or.inl ⟨e, rfl⟩))

theorem assign_at : ∀ (ns : List String) (vs : List Value) (d : Dict Value) (p : String) (v : Value), ns.Nodup → AtPlace ns vs p v →
    Dict.get? (assign ns vs d).1 p = some v
  | _, [], d, p, v, _, h => by
    obtain ⟨i, _, h⟩ := h
    simp at h
  | [], _ :: _, d, p, v, _, h => by
    obtain ⟨i, h, _⟩ := h
    simp at h
  | n :: ns, w :: vs, d, p, v, hn, h => by
    unfold assign
    rw [List.nodup_cons] at hn
    rcases atPlace_cons.1 h with ⟨rfl, rfl⟩ | h
    · rw [assign_other ns vs _ n (fun v hv => hn.1 (atPlace_mem hv).1), get_set, if_pos rfl]
    · exact assign_at ns vs _ p v hn.2 h

theorem mem_assign : ∀ {ns : List String} {vs : List Value} {d : Dict Value} {q : String × Value}, q ∈ (assign ns vs d).1 → q.2 ∈ vs ∨ q ∈ d
  | _, [], d, q, h => by
    unfold assign at h
    exact Or.inr h
  | [], _ :: _, d, q, h => by
    unfold assign at h
    exact Or.inr h
  | n :: ns, v :: vs, d, q, h => by
    unfold assign at h
    rcases mem_assign h with h | h
    · exact Or.inl (List.mem_cons_of_mem _ h)
    · rcases mem_set h with rfl | h
      · exact Or.inl List.mem_cons_self
      · exact Or.inr h

theorem fill_snd (c : Call) (d : Dict Value) :
    (c.fill d).2 = false ↔ c.reals.length ≤ c.lib.realp.length ∧ c.complexes.length ≤ c.lib.complexp.length := by
  unfold Call.fill
  by_cases h : c.reals = [] ∧ c.complexes = []
  · rw [if_pos h, h.1, h.2]
    simp
  · rw [if_neg h]
    dsimp only
    rw [assign_snd]
    by_cases h1 : c.lib.realp.length < c.reals.length
    · simp only [h1, decide_true, if_true]
      constructor
      · intro h
        rw [assign_snd] at h
        simp [h1] at h
      · intro h; omega
    · simp only [h1, decide_false]
      rw [if_neg (by simp), assign_snd]
      simp
      omega

theorem fill_gives {c : Call} (hw : (c.lib.realp ++ c.lib.complexp).Nodup) (d : Dict Value) {p : String} {v : Value} (hg : c.Gives p v) :
    Dict.get? (c.fill d).1 p = some v := by
  have hn := List.nodup_append.1 hw
  have hne : ¬ (c.reals = [] ∧ c.complexes = []) := by
    rintro ⟨h1, h2⟩
    rcases hg with hg | ⟨_, hg⟩
    · rw [h1] at hg
      simpa using (atPlace_mem hg).2
    · rw [h2] at hg
      simpa using (atPlace_mem hg).2
  unfold Call.fill
  rw [if_neg hne]
  dsimp only
  rw [assign_snd]
  by_cases h1 : c.lib.realp.length < c.reals.length
  · simp only [h1, decide_true, if_true]
    rcases hg with hg | ⟨h, _⟩
    · exact assign_at _ _ _ _ _ hn.1 hg
    · omega
  · simp only [h1, decide_false]
    rw [if_neg (by simp)]
    rcases hg with hg | ⟨_, hg⟩
    · rw [assign_other _ _ _ _ (fun w hw => hn.2.2 p (atPlace_mem hg).1 p (atPlace_mem hw).1 rfl)]
      exact assign_at _ _ _ _ _ hn.1 hg
    · exact assign_at _ _ _ _ _ hn.2.1 hg

theorem fill_other (c : Call) (d : Dict Value) {p : String} (hg : ∀ v, ¬ c.Gives p v) : Dict.get? (c.fill d).1 p = Dict.get? d p := by
  unfold Call.fill
  by_cases h : c.reals = [] ∧ c.complexes = []
  · rw [if_pos h]
  · rw [if_neg h]
    dsimp only
    rw [assign_snd]
    have e : Dict.get? (assign c.lib.realp c.reals d).1 p = Dict.get? d p := assign_other _ _ _ _ (fun v hv => hg v (Or.inl hv))
    by_cases h1 : c.lib.realp.length < c.reals.length
    · simp only [h1, decide_true, if_true]
      exact e
    · simp only [h1, decide_false]
      rw [if_neg (by simp), assign_other _ _ _ _ (fun v hv => hg v (Or.inr ⟨by omega, hv⟩)), e]

theorem mem_fill {c : Call} {d : Dict Value} {q : String × Value} (h : q ∈ (c.fill d).1) : q.2 ∈ c.reals ∨ q.2 ∈ c.complexes ∨ q ∈ d := by
  unfold Call.fill at h
  by_cases h0 : c.reals = [] ∧ c.complexes = []
  · rw [if_pos h0] at h
    exact Or.inr (Or.inr h)
  · rw [if_neg h0] at h
    dsimp only at h
    split_ifs at h with h1
    · rcases mem_assign h with h | h
      · exact Or.inl h
      · exact Or.inr (Or.inr h)
    · rcases mem_assign h with h | h
      · exact Or.inr (Or.inl h)
      · rcases mem_assign h with h | h
        · exact Or.inl h
        · exact Or.inr (Or.inr h)

/-! ### The value maps -/

open Classical in
/-- The text for a coefficient variable. -/
noncomputable def coeffText (v : Value) (z : ℂ) : String :=
  if v.isComplex then (if z.im = 0 then v.reText else v.reText ++ " + (" ++ v.imText ++ ")*I") else v.text

theorem valueMaps_cons (key : String) (v : Value) (d : Dict Value) :
    valueMaps ((key, v) :: d) = (v.num).bind (fun z => (valueMaps d).map (fun m => ((key, z) :: m.1, (key, coeffText v z) :: m.2))) := by
  conv_lhs => unfold valueMaps
  cases v.num with
  | none => rfl
  | some z =>
    dsimp only [Option.bind_some]
    cases valueMaps d with
    | none => rfl
    | some m =>
      obtain ⟨vi, vc⟩ := m
      dsimp only [Option.map_some]
      unfold coeffText
      by_cases hz : z.im = 0
      · rw [if_pos hz, if_pos hz]
      · rw [if_neg hz, if_neg hz]

theorem valueMaps_get : ∀ {d : Dict Value} {vi : Dict ℂ} {vc : Dict String}, valueMaps d = some (vi, vc) → ∀ p,
    (∀ v, Dict.get? d p = some v → ∃ z, v.num = some z ∧ Dict.get? vi p = some z ∧ Dict.get? vc p = some (coeffText v z)) ∧
    (Dict.get? d p = none → Dict.get? vi p = none ∧ Dict.get? vc p = none)
  | [], vi, vc, h, p => by
    obtain ⟨rfl, rfl⟩ := Prod.mk.inj (Option.some.inj h)
    exact ⟨fun v hv => by simp [Dict.get?] at hv, fun _ => ⟨rfl, rfl⟩⟩
  | (key, w) :: d, vi, vc, h, p => by
    rw [valueMaps_cons] at h
    obtain ⟨z, hz, h⟩ := Option.bind_eq_some_iff.1 h
    obtain ⟨⟨vi', vc'⟩, hm, h⟩ := Option.map_eq_some_iff.1 h
    obtain ⟨rfl, rfl⟩ := Prod.mk.inj h
    have ih := valueMaps_get hm p
    unfold Dict.get?
    dsimp only
    by_cases hk : key = p
    · simp only [hk, if_true]
      refine ⟨fun v hv => ?_, fun hv => by simp at hv⟩
      obtain rfl := Option.some.inj hv
      exact ⟨z, hz, rfl, rfl⟩
    · simp only [hk, if_false]
      exact ih

theorem valueMaps_some : ∀ {d : Dict Value}, (∀ q ∈ d, q.2.num.isSome) → ∃ m, valueMaps d = some m
  | [], _ => ⟨_, rfl⟩
  | (key, v) :: d, h => by
    obtain ⟨z, hz⟩ := Option.isSome_iff_exists.1 (h (key, v) List.mem_cons_self)
    obtain ⟨m, hm⟩ := valueMaps_some (d := d) (fun q hq => h q (List.mem_cons_of_mem _ hq))
    rw [valueMaps_cons]
    rw [show (v.num) = some z from hz, hm]
    exact ⟨_, rfl⟩

theorem lookupAll_ok {vi : Dict ℂ} : ∀ {ps : List String} {zs : List ℂ}, lookupAll vi ps = .ok zs →
    List.Forall₂ (fun p z => Dict.get? vi p = some z) ps zs
  | [], zs, h => by
    obtain rfl := Except.ok.inj h
    exact List.Forall₂.nil
  | p :: ps, zs, h => by
    unfold lookupAll at h
    cases hp : Dict.get? vi p with
    | none => rw [hp] at h; cases h
    | some z =>
      rw [hp] at h
      dsimp only at h
      cases hr : lookupAll vi ps with
      | error e => rw [hr] at h; cases h
      | ok ys =>
        rw [hr] at h
        obtain rfl := Except.ok.inj h
        exact List.Forall₂.cons hp (lookupAll_ok hr)

theorem lookupAll_total {vi : Dict ℂ} : ∀ {ps : List String}, (∀ p ∈ ps, ∃ z, Dict.get? vi p = some z) → ∃ zs, lookupAll vi ps = .ok zs
  | [], _ => ⟨_, rfl⟩
  | p :: ps, h => by
    obtain ⟨z, hz⟩ := h p List.mem_cons_self
    obtain ⟨zs, hzs⟩ := lookupAll_total (ps := ps) (fun q hq => h q (List.mem_cons_of_mem _ hq))
    unfold lookupAll
    rw [hz, hzs]
    exact ⟨_, rfl⟩

theorem familyArgs_ok {vi : Dict ℂ} {f : List String × List String} {a : List ℝ × List (ℝ × ℝ)} (h : familyArgs vi f = .ok a) :
    List.Forall₂ (fun p (x : ℝ) => Dict.get? vi p = some (x : ℂ)) f.1 a.1 ∧
    List.Forall₂ (fun p (x : ℝ × ℝ) => Dict.get? vi p = some ⟨x.1, x.2⟩) f.2 a.2 := by
  unfold familyArgs at h
  cases h1 : lookupAll vi f.1 with
  | error e => rw [h1] at h; cases h
  | ok rs =>
    rw [h1] at h
    dsimp only at h
    cases h2 : lookupAll vi f.2 with
    | error e => rw [h2] at h; cases h
    | ok cs =>
      rw [h2] at h
      dsimp only at h
      split_ifs at h with hr
      obtain rfl := Except.ok.inj h
      constructor
      · rw [List.forall₂_map_right_iff]
        have := lookupAll_ok h1
        refine (List.forall₂_iff_get.2 ⟨(List.forall₂_iff_get.1 this).1, fun i hi hj => ?_⟩)
        have e := (List.forall₂_iff_get.1 this).2 i hi hj
        rw [e]
        congr 1
        have := hr _ (List.get_mem rs ⟨i, hj⟩)
        exact Complex.ext (by simp) (by simpa using this)
      · rw [List.forall₂_map_right_iff]
        exact lookupAll_ok h2

theorem familyArgs_total {vi : Dict ℂ} {f : List String × List String} (hr : ∀ p ∈ f.1, ∃ z, Dict.get? vi p = some z ∧ z.im = 0)
    (hc : ∀ p ∈ f.2, ∃ z, Dict.get? vi p = some z) : ∃ a, familyArgs vi f = .ok a := by
  obtain ⟨rs, h1⟩ := lookupAll_total (ps := f.1) (fun p hp => ⟨_, (hr p hp).choose_spec.1⟩)
  obtain ⟨cs, h2⟩ := lookupAll_total hc
  unfold familyArgs
  rw [h1, h2]
  dsimp only
  rw [if_pos]
  · exact ⟨_, rfl⟩
  · intro z hz
    obtain ⟨i, hi, rfl⟩ := List.mem_iff_getElem.1 hz
    have := List.forall₂_iff_get.1 (lookupAll_ok h1)
    have e := this.2 i (by rw [this.1]; exact hi) hi
    obtain ⟨z, hz, hi0⟩ := hr _ (List.get_mem f.1 ⟨i, by rw [this.1]; exact hi⟩)
    rw [hz] at e
    have := Option.some.inj e
    simp only [List.get_eq_getElem] at this
    rw [← this]
    exact hi0

theorem familiesArgs_ok {vi : Dict ℂ} : ∀ {fs : List (List String × List String)} {as : List (List ℝ × List (ℝ × ℝ))}, familiesArgs vi fs = .ok as →
    List.Forall₂ (fun (f : List String × List String) (a : List ℝ × List (ℝ × ℝ)) => familyArgs vi f = .ok a) fs as
  | [], as, h => by
    obtain rfl := Except.ok.inj h
    exact List.Forall₂.nil
  | f :: fs, as, h => by
    unfold familiesArgs at h
    cases hf : familyArgs vi f with
    | error e => rw [hf] at h; cases h
    | ok a =>
      rw [hf] at h
      dsimp only at h
      cases hr : familiesArgs vi fs with
      | error e => rw [hr] at h; cases h
      | ok ys =>
        rw [hr] at h
        obtain rfl := Except.ok.inj h
        exact List.Forall₂.cons hf (familiesArgs_ok hr)

theorem familiesArgs_total {vi : Dict ℂ} : ∀ {fs : List (List String × List String)}, (∀ f ∈ fs, ∃ a, familyArgs vi f = .ok a) →
    ∃ as, familiesArgs vi fs = .ok as
  | [], _ => ⟨_, rfl⟩
  | f :: fs, h => by
    obtain ⟨a, ha⟩ := h f List.mem_cons_self
    obtain ⟨as, has⟩ := familiesArgs_total (fs := fs) (fun g hg => h g (List.mem_cons_of_mem _ hg))
    unfold familiesArgs
    rw [ha, has]
    exact ⟨_, rfl⟩

theorem firstMissing_none {vi : Dict ℂ} : ∀ {ps : List String}, firstMissing vi ps = none ↔ ∀ p ∈ ps, (Dict.get? vi p).isSome
  | [] => by simp [firstMissing]
  | p :: ps => by
    unfold firstMissing
    cases h : Dict.get? vi p with
    | none => simp [h]
    | some z => simp [h, firstMissing_none (ps := ps)]

theorem firstMissing_some {vi : Dict ℂ} {q : String} : ∀ {ps : List String}, firstMissing vi ps = some q → q ∈ ps ∧ Dict.get? vi q = none
  | p :: ps, h => by
    unfold firstMissing at h
    split_ifs at h with hp
    · obtain rfl := Option.some.inj h
      exact ⟨List.mem_cons_self, by simpa using hp⟩
    · have := firstMissing_some h
      exact ⟨List.mem_cons_of_mem _ this.1, this.2⟩

/-- The content of the dictionary determines the values sent. -/
theorem evalDict_ok {L : Library} {d : Dict Value} {s : Sent} (h : evalDict L d = .ok s) :
    Faithful L (fun p z => ∃ v, Dict.get? d p = some v ∧ v.num = some z) s ∧
    (∀ p ∈ L.realp ++ L.complexp, ∃ v z, Dict.get? d p = some v ∧ v.num = some z) ∧
    (∀ p v, Dict.get? d p = some v → ∃ z, v.num = some z ∧ Dict.get? s.coeffs p = some (coeffText v z)) ∧
    (∀ p, Dict.get? d p = none → Dict.get? s.coeffs p = none) := by
  unfold evalDict at h
  cases hm : valueMaps d with
  | none => rw [hm] at h; cases h
  | some m =>
    obtain ⟨vi, vc⟩ := m
    rw [hm] at h
    dsimp only at h
    unfold doEval at h
    cases hf : firstMissing vi (L.realp ++ L.complexp) with
    | some p => rw [hf] at h; cases h
    | none =>
      rw [hf] at h
      dsimp only at h
      cases hg : familiesArgs vi L.families with
      | error e => rw [hg] at h; cases h
      | ok vs =>
        rw [hg] at h
        obtain rfl := Except.ok.inj h
        have key : ∀ p z, Dict.get? vi p = some z → ∃ v, Dict.get? d p = some v ∧ v.num = some z := by
          intro p z hz
          cases hd : Dict.get? d p with
          | none =>
            rw [((valueMaps_get hm p).2 hd).1] at hz
            cases hz
          | some v =>
            obtain ⟨z', h1, h2, _⟩ := (valueMaps_get hm p).1 v hd
            rw [h2] at hz
            obtain rfl := Option.some.inj hz
            exact ⟨v, rfl, h1⟩
        refine ⟨?_, ?_, ?_, ?_⟩
        · refine List.Forall₂.imp (fun f a hfa => ?_) (familiesArgs_ok hg)
          have := familyArgs_ok hfa
          exact ⟨List.Forall₂.imp (fun p x hx => key p _ hx) this.1, List.Forall₂.imp (fun p x hx => key p _ hx) this.2⟩
        · intro p hp
          obtain ⟨z, hz⟩ := Option.isSome_iff_exists.1 (firstMissing_none.1 hf p hp)
          obtain ⟨v, h1, h2⟩ := key p z hz
          exact ⟨v, z, h1, h2⟩
        · intro p v hv
          obtain ⟨z, h1, _, h3⟩ := (valueMaps_get hm p).1 v hv
          exact ⟨z, h1, h3⟩
        · intro p hp
          exact ((valueMaps_get hm p).2 hp).2

/-- Success. -/
theorem evalDict_total {L : Library} (hw : L.WF) {d : Dict Value} (hn : ∀ q ∈ d, q.2.num.isSome)
    (hr : ∀ p ∈ L.realp, ∃ v, Dict.get? d p = some v ∧ v.Real) (hc : ∀ p ∈ L.complexp, ∃ v, Dict.get? d p = some v) :
    ∃ s, evalDict L d = .ok s := by
  obtain ⟨⟨vi, vc⟩, hm⟩ := valueMaps_some hn
  have hvr : ∀ p ∈ L.realp, ∃ z, Dict.get? vi p = some z ∧ z.im = 0 := by
    intro p hp
    obtain ⟨v, h1, z, h2, h3⟩ := hr p hp
    obtain ⟨z', h4, h5, _⟩ := (valueMaps_get hm p).1 v h1
    rw [h2] at h4
    obtain rfl := Option.some.inj h4
    exact ⟨z, h5, h3⟩
  have hvc : ∀ p ∈ L.complexp, ∃ z, Dict.get? vi p = some z := by
    intro p hp
    obtain ⟨v, h1⟩ := hc p hp
    obtain ⟨z, _, h5, _⟩ := (valueMaps_get hm p).1 v h1
    exact ⟨z, h5⟩
  unfold evalDict
  rw [hm]
  dsimp only
  unfold doEval
  rw [firstMissing_none.2 (fun p hp => by
    rcases List.mem_append.1 hp with hp | hp
    · obtain ⟨z, hz, _⟩ := hvr p hp
      rw [hz]; rfl
    · obtain ⟨z, hz⟩ := hvc p hp
      rw [hz]; rfl)]
  dsimp only
  obtain ⟨as, has⟩ := familiesArgs_total (vi := vi) (fs := L.families) (fun f hf =>
    familyArgs_total (fun p hp => hvr p ((hw.families f hf).1 p hp)) (fun p hp => hvc p ((hw.families f hf).2 p hp)))
  rw [has]
  exact ⟨_, rfl⟩

/-- A parameter without a value is an error. -/
theorem evalDict_missing {L : Library} {d : Dict Value} {p : String} (hp : p ∈ L.realp ++ L.complexp) (hd : Dict.get? d p = none)
    (hn : ∀ q ∈ d, q.2.num.isSome) : ∃ q, evalDict L d = .error (.missing q) ∧ q ∈ L.realp ++ L.complexp ∧ Dict.get? d q = none := by
  obtain ⟨⟨vi, vc⟩, hm⟩ := valueMaps_some hn
  unfold evalDict
  rw [hm]
  dsimp only
  unfold doEval
  cases hf : firstMissing vi (L.realp ++ L.complexp) with
  | none =>
    have := firstMissing_none.1 hf p hp
    rw [((valueMaps_get hm p).2 hd).1] at this
    cases this
  | some q =>
    have := firstMissing_some hf
    refine ⟨q, rfl, this.1, ?_⟩
    cases hq : Dict.get? d q with
    | none => rfl
    | some v =>
      obtain ⟨z, _, h, _⟩ := (valueMaps_get hm q).1 v hq
      rw [this.2] at h
      cases h

/-! ### Histories -/

theorem history_snoc (es : List Event) (e : Event) : history (es ++ [e]) = Event.step (history es) e := by
  unfold history
  rw [List.foldl_append]
  rfl

theorem run_obj (c : Call) (h : Heap) : (c.run h).1 c.obj = (c.fill (h c.obj)).1 := by
  unfold Call.run
  simp

theorem run_other (c : Call) (h : Heap) {o : ℕ} (ho : o ≠ c.obj) : (c.run h).1 o = h o := by
  unfold Call.run
  simp [ho]

theorem history_numbers : ∀ (es : List Event), (∀ e ∈ es, e.Numbers) → ∀ o, ∀ q ∈ history es o, q.2.num.isSome := by
  intro es
  induction es using List.reverseRecOn with
  | nil => intro _ o q hq; simp [history] at hq
  | append_singleton es e ih =>
    intro hn o q hq
    have ih := ih (fun e he => hn e (by simp [he]))
    have he := hn e (by simp)
    rw [history_snoc] at hq
    cases e with
    | call c =>
      unfold Event.step at hq
      dsimp only at hq
      by_cases ho : o = c.obj
      · rw [ho, run_obj] at hq
        rcases mem_fill hq with h | h | h
        · exact he.1 _ h
        · exact he.2 _ h
        · exact ih _ _ h
      · rw [run_other c _ ho] at hq
        exact ih _ _ hq
    | set o' k v =>
      unfold Event.step at hq
      dsimp only at hq
      by_cases ho : o = o' + 1
      · rw [ho, Function.update_self] at hq
        rcases mem_set hq with rfl | h
        · exact he
        · exact ih _ _ h
      · rw [Function.update_of_ne ho] at hq
        exact ih _ _ hq

/-- The content of the default dictionary. -/
theorem history_default : ∀ (es : List Event), (∀ c, Event.call c ∈ es → c.lib.WF) → ∀ p v,
    Dict.get? (history es 0) p = some v ↔ LastGiven es p v := by
  intro es
  induction es using List.reverseRecOn with
  | nil =>
    intro _ p v
    constructor
    · intro h; simp [history, Dict.get?] at h
    · rintro ⟨b, c, a, h, _⟩
      simp at h
  | append_singleton es e ih =>
    intro hw p v
    have ih := ih (fun c hc => hw c (by simp [hc])) p
    rw [history_snoc]
    have old : (∀ c, e = .call c → c.dict = none → ∀ v', ¬ c.Gives p v') → (LastGiven (es ++ [e]) p v ↔ LastGiven es p v) := by
      intro hno
      constructor
      · rintro ⟨b, c, a, h1, h2, h3, h4⟩
        rcases List.eq_nil_or_concat a with rfl | ⟨a, e', rfl⟩
        · have := List.append_inj' h1 rfl
          obtain rfl := (List.cons.inj this.2).1
          exact absurd h3 (hno c rfl h2 v)
        · rw [List.concat_eq_append, ← List.cons_append, ← List.append_assoc] at h1
          have := List.append_inj' h1 rfl
          exact ⟨b, c, a, this.1, h2, h3, fun c' hc' => h4 c' (by simp [hc'])⟩
      · rintro ⟨b, c, a, rfl, h2, h3, h4⟩
        refine ⟨b, c, a ++ [e], by simp, h2, h3, fun c' hc' hd => ?_⟩
        rcases List.mem_append.1 hc' with h | h
        · exact h4 c' h hd
        · exact hno c' (List.mem_singleton.1 h).symm hd
    cases e with
    | set o k w =>
      rw [old (fun c hc => by cases hc), ← ih v]
      unfold Event.step
      dsimp only
      rw [Function.update_of_ne (by omega)]
    | call c =>
      unfold Event.step
      dsimp only
      cases hd : c.dict with
      | some o =>
        rw [old (fun c' hc' hd' => by cases hc'; rw [hd] at hd'; cases hd'), ← ih v]
        rw [run_other c _ (by unfold Call.obj; rw [hd]; exact (Nat.succ_ne_zero o).symm)]
      | none =>
        have ho : c.obj = 0 := by unfold Call.obj; rw [hd]
        have e0 : (c.run (history es)).1 0 = (c.fill (history es 0)).1 := by
          have := run_obj c (history es)
          rwa [ho] at this
        rw [e0]
        by_cases hg : ∃ w, c.Gives p w
        · obtain ⟨w, hg⟩ := hg
          have hfill := fill_gives (hw c (by simp)).nodup (history es 0) hg
          rw [hfill]
          constructor
          · intro h
            obtain rfl := Option.some.inj h
            exact ⟨es, c, [], rfl, hd, hg, fun c' hc' => by simp at hc'⟩
          · rintro ⟨b, c', a, h1, h2, h3, h4⟩
            rcases List.eq_nil_or_concat a with rfl | ⟨a, e', rfl⟩
            · have := List.append_inj' h1 rfl
              obtain rfl := Event.call.inj (List.cons.inj this.2).1
              have := fill_gives (hw c (by simp)).nodup (history es 0) h3
              rwa [hfill] at this
            · rw [List.concat_eq_append, ← List.cons_append, ← List.append_assoc] at h1
              have := List.append_inj' h1 rfl
              obtain rfl := (List.cons.inj this.2).1
              exact absurd hg (h4 c (by simp) hd w)
        · have hg' : ∀ w, ¬ c.Gives p w := fun w hw => hg ⟨w, hw⟩
          rw [fill_other c _ hg', old (fun c' hc' _ => by cases hc'; exact hg'), ih v]

/-- The content of a dictionary of the caller. -/
theorem history_own (o : ℕ) : ∀ (es : List Event), NotMixed es o → ∀ p v,
    Dict.get? (history es (o + 1)) p = some v ↔ LastSet es o p v := by
  intro es
  induction es using List.reverseRecOn with
  | nil =>
    intro _ p v
    constructor
    · intro h; simp [history, Dict.get?] at h
    · rintro ⟨b, a, h, _⟩
      simp at h
  | append_singleton es e ih =>
    intro hm p v
    have ih := ih (fun c hc => hm c (by simp [hc])) p
    rw [history_snoc]
    have old : (∀ v', e ≠ .set o p v') → (LastSet (es ++ [e]) o p v ↔ LastSet es o p v) := by
      intro hno
      constructor
      · rintro ⟨b, a, h1, h4⟩
        rcases List.eq_nil_or_concat a with rfl | ⟨a, e', rfl⟩
        · have := List.append_inj' h1 rfl
          exact absurd (List.cons.inj this.2).1 (hno v)
        · rw [List.concat_eq_append, ← List.cons_append, ← List.append_assoc] at h1
          have := List.append_inj' h1 rfl
          exact ⟨b, a, this.1, fun v' hv' => h4 v' (by simp [hv'])⟩
      · rintro ⟨b, a, rfl, h4⟩
        refine ⟨b, a ++ [e], by simp, fun v' hv' => ?_⟩
        rcases List.mem_append.1 hv' with h | h
        · exact h4 v' h
        · exact hno v' (List.mem_singleton.1 h).symm
    cases e with
    | call c =>
      rw [old (fun v' h => by cases h), ← ih v]
      unfold Event.step
      dsimp only
      by_cases ho : o + 1 = c.obj
      · have hd : c.dict = some o := by
          unfold Call.obj at ho
          cases hd : c.dict with
          | none => rw [hd] at ho; simp at ho
          | some o' => rw [hd] at ho; simp at ho; rw [ho]
        rw [ho, run_obj]
        have := hm c (by simp) hd
        unfold Call.fill
        rw [if_pos this]
      · rw [run_other c _ ho]
    | set o' k w =>
      unfold Event.step
      dsimp only
      by_cases ho : o = o'
      · subst ho
        rw [Function.update_self, get_set]
        by_cases hk : k = p
        · subst hk
          rw [if_pos rfl]
          constructor
          · intro h
            obtain rfl := Option.some.inj h
            exact ⟨es, [], rfl, fun v' => by simp⟩
          · rintro ⟨b, a, h1, h4⟩
            rcases List.eq_nil_or_concat a with rfl | ⟨a, e', rfl⟩
            · have := List.append_inj' h1 rfl
              have := (List.cons.inj this.2).1
              injection this with _ _ h
              rw [h]
            · rw [List.concat_eq_append, ← List.cons_append, ← List.append_assoc] at h1
              have := List.append_inj' h1 rfl
              obtain rfl := (List.cons.inj this.2).1
              exact absurd (by simp) (h4 w)
        · rw [if_neg hk, ih v, old (fun v' h => by injection h with _ h; exact hk h)]
      · rw [Function.update_of_ne (by omega), ih v, old (fun v' h => by injection h with h; exact ho h.symm)]

end Params
end SecDec
