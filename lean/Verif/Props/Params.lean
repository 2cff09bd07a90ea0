import Verif.Proof.Params
import Mathlib.Tactic.NormNum
import Mathlib.Tactic.Linarith

/-!
# C56: the values of the parameters reach the integrator

Every theorem is about a process in which an arbitrary sequence `es` of calls (of any libraries) and assignments has happened before.
-/

namespace SecDec
namespace Params

/-- **C56** A call with a value for each of the parameters in its lists, after any history: the workers receive exactly these values, in the order of the parameters
of each of the integrals, whatever was passed to earlier calls. -/
theorem C56_lists_exact (es : List Event) (c : Call) (hw : c.lib.WF) (hf : c.Full) (s : Sent)
    (h : (c.run (history es)).2 = .ok s) :
    Faithful c.lib (fun p z => ∃ v, c.Gives p v ∧ v.num = some z) s := by
  unfold Call.run at h
  dsimp only at h
  split_ifs at h with h2
  have hok := (evalDict_ok h).1
  have key : ∀ p ∈ c.lib.realp ++ c.lib.complexp, ∃ v, c.Gives p v := by
    intro p hp
    rcases List.mem_append.1 hp with hp | hp
    · obtain ⟨i, hi, rfl⟩ := List.mem_iff_getElem.1 hp
      exact ⟨c.reals[i]'(by rw [hf.reals]; exact hi), Or.inl ⟨i, List.getElem?_eq_getElem hi, List.getElem?_eq_getElem _⟩⟩
    · obtain ⟨i, hi, rfl⟩ := List.mem_iff_getElem.1 hp
      exact ⟨c.complexes[i]'(by rw [hf.complexes]; exact hi),
        Or.inr ⟨hf.reals.le, i, List.getElem?_eq_getElem hi, List.getElem?_eq_getElem _⟩⟩
  have conv : ∀ p ∈ c.lib.realp ++ c.lib.complexp, ∀ z, (∃ v, Dict.get? (c.fill (history es c.obj)).1 p = some v ∧ v.num = some z) →
      ∃ v, c.Gives p v ∧ v.num = some z := by
    rintro p hp z ⟨v, h1, h2⟩
    obtain ⟨w, hw'⟩ := key p hp
    rw [fill_gives hw.nodup _ hw'] at h1
    obtain rfl := Option.some.inj h1
    exact ⟨_, hw', h2⟩
  unfold Faithful at hok ⊢
  rw [List.forall₂_iff_get] at hok ⊢
  refine ⟨hok.1, fun i hi hj => ?_⟩
  have := hok.2 i hi hj
  have hfam := hw.families _ (List.get_mem c.lib.families ⟨i, hi⟩)
  constructor
  · have h1 := this.1
    rw [List.forall₂_iff_get] at h1 ⊢
    exact ⟨h1.1, fun k hk hk' => conv _ (List.mem_append_left _ (hfam.1 _ (List.get_mem _ ⟨k, hk⟩))) _ (h1.2 k hk hk')⟩
  · have h1 := this.2
    rw [List.forall₂_iff_get] at h1 ⊢
    exact ⟨h1.1, fun k hk hk' => conv _ (List.mem_append_right _ (hfam.2 _ (List.get_mem _ ⟨k, hk⟩))) _ (h1.2 k hk hk')⟩

/-- **C56** Such a call succeeds, if all the values passed to it and before it are numbers and the values of its real parameters are real. -/
theorem C56_lists_succeed (es : List Event) (c : Call) (hw : c.lib.WF) (hf : c.Full) (hes : ∀ e ∈ es, e.Numbers)
    (hr : ∀ v ∈ c.reals, v.Real) (hc : ∀ v ∈ c.complexes, v.Number) : ∃ s, (c.run (history es)).2 = .ok s := by
  unfold Call.run
  dsimp only
  rw [(fill_snd c _).2 ⟨hf.reals.le, hf.complexes.le⟩]
  simp only [Bool.false_eq_true, if_false]
  refine evalDict_total hw ?_ ?_ ?_
  · intro q hq
    rcases mem_fill hq with h | h | h
    · obtain ⟨z, hz, _⟩ := hr _ h
      rw [hz]; rfl
    · exact hc _ h
    · exact history_numbers es hes _ _ h
  · intro p hp
    obtain ⟨i, hi, rfl⟩ := List.mem_iff_getElem.1 hp
    have hi' : i < c.reals.length := by rw [hf.reals]; exact hi
    exact ⟨c.reals[i], fill_gives hw.nodup _ (Or.inl ⟨i, List.getElem?_eq_getElem hi, List.getElem?_eq_getElem _⟩), hr _ (List.getElem_mem hi')⟩
  · intro p hp
    obtain ⟨i, hi, rfl⟩ := List.mem_iff_getElem.1 hp
    have hi' : i < c.complexes.length := by rw [hf.complexes]; exact hi
    exact ⟨c.complexes[i], fill_gives hw.nodup _ (Or.inr ⟨hf.reals.le, i, List.getElem?_eq_getElem hi, List.getElem?_eq_getElem _⟩)⟩

/-- **C56** More values than parameters are refused. -/
theorem C56_too_many (es : List Event) (c : Call) (h : c.lib.realp.length < c.reals.length ∨ c.lib.complexp.length < c.complexes.length) :
    (c.run (history es)).2 = .error .index := by
  unfold Call.run
  dsimp only
  rw [if_pos]
  by_contra hne
  have := (fill_snd c (history es c.obj)).1 (by simpa using hne)
  omega

/-- **C56** A call with the caller's own dictionary only: the values sent are the ones that the caller has assigned last, whatever other calls were made with other dictionaries
or with lists. No dictionary is changed. -/
theorem C56_own_dictionary (es : List Event) (c : Call) (o : ℕ) (hd : c.dict = some o) (hl : c.reals = [] ∧ c.complexes = [])
    (hm : NotMixed es o) : (c.run (history es)).1 = history es ∧
    ∀ s, (c.run (history es)).2 = .ok s → Faithful c.lib (fun p z => ∃ v, LastSet es o p v ∧ v.num = some z) s := by
  have ho : c.obj = o + 1 := by unfold Call.obj; rw [hd]
  have hfill : c.fill (history es (o + 1)) = (history es (o + 1), false) := by unfold Call.fill; rw [if_pos hl]
  unfold Call.run
  dsimp only
  rw [ho, hfill]
  refine ⟨Function.update_eq_self _ _, fun s h => ?_⟩
  simp only [Bool.false_eq_true, if_false] at h
  have := (evalDict_ok h).1
  simp only [history_own o es hm] at this
  exact this

/-- **C56** A parameter to which the caller has not assigned a value is reported. -/
theorem C56_own_dictionary_missing (es : List Event) (c : Call) (o : ℕ) (hd : c.dict = some o) (hl : c.reals = [] ∧ c.complexes = [])
    (hm : NotMixed es o) (hes : ∀ e ∈ es, e.Numbers) (p : String) (hp : p ∈ c.lib.realp ++ c.lib.complexp) (hno : ∀ v, ¬ LastSet es o p v) :
    ∃ q, (c.run (history es)).2 = .error (.missing q) ∧ q ∈ c.lib.realp ++ c.lib.complexp ∧ ∀ v, ¬ LastSet es o q v := by
  have ho : c.obj = o + 1 := by unfold Call.obj; rw [hd]
  have hfill : c.fill (history es (o + 1)) = (history es (o + 1), false) := by unfold Call.fill; rw [if_pos hl]
  have none_iff : ∀ q, Dict.get? (history es (o + 1)) q = none ↔ ∀ v, ¬ LastSet es o q v := by
    intro q
    constructor
    · intro h v hv
      rw [← history_own o es hm, h] at hv
      cases hv
    · intro h
      cases hq : Dict.get? (history es (o + 1)) q with
      | none => rfl
      | some v => exact absurd ((history_own o es hm q v).1 hq) (h v)
  obtain ⟨q, h1, h2, h3⟩ := evalDict_missing hp ((none_iff p).2 hno) (history_numbers es hes (o + 1))
  refine ⟨q, ?_, h2, (none_iff q).1 h3⟩
  unfold Call.run
  dsimp only
  rw [ho, hfill]
  simpa using h1

/-- **C56** A call without a dictionary: a parameter has the value given in the lists of the call, or else the value given by the last one of the earlier calls, of this or of
another library, whose lists contained one. (So it is not true that a missing parameter is always reported.) -/
theorem C56_omitted (es : List Event) (c : Call) (hd : c.dict = none) (hw : c.lib.WF) (hes : ∀ c', Event.call c' ∈ es → c'.lib.WF) (s : Sent)
    (h : (c.run (history es)).2 = .ok s) :
    Faithful c.lib (fun p z => ∃ v, LastGiven (es ++ [.call c]) p v ∧ v.num = some z) s := by
  have e1 : history (es ++ [.call c]) 0 = (c.fill (history es 0)).1 := by
    rw [history_snoc]
    have := run_obj c (history es)
    have ho : c.obj = 0 := by unfold Call.obj; rw [hd]
    rw [ho] at this
    exact this
  have ho : c.obj = 0 := by unfold Call.obj; rw [hd]
  unfold Call.run at h
  dsimp only at h
  rw [ho] at h
  split_ifs at h with h2
  rw [← e1] at h
  have := (evalDict_ok h).1
  have hwf : ∀ c', Event.call c' ∈ es ++ [.call c] → c'.lib.WF := by
    intro c' hc'
    rcases List.mem_append.1 hc' with h | h
    · exact hes c' h
    · obtain rfl := Event.call.inj (List.mem_singleton.1 h)
      exact hw
  simp only [history_default _ hwf] at this
  exact this

/-- **C56** The text of a coefficient variable is read as the value that the integrals use, and there is a text for exactly the variables which have a value. -/
theorem C56_coefficient_texts (denotes : String → ℂ → Prop) (hR : Reader denotes) (es : List Event) (c : Call) (s : Sent)
    (h : (c.run (history es)).2 = .ok s) (d : Dict Value) (hd : (c.run (history es)).1 c.obj = d) (hp : ∀ q ∈ d, q.2.Printed denotes) (p : String) :
    (∀ t, Dict.get? s.coeffs p = some t → ∃ v z, Dict.get? d p = some v ∧ v.num = some z ∧ denotes t z) ∧
    (∀ v, Dict.get? d p = some v → ∃ t, Dict.get? s.coeffs p = some t) := by
  rw [run_obj] at hd
  unfold Call.run at h
  dsimp only at h
  split_ifs at h with h2
  rw [hd] at h
  obtain ⟨_, _, h3, h4⟩ := evalDict_ok h
  constructor
  · intro t ht
    cases hv : Dict.get? d p with
    | none =>
      rw [h4 p hv] at ht
      cases ht
    | some v =>
      obtain ⟨z, hz, hc⟩ := h3 p v hv
      rw [hc] at ht
      obtain rfl := Option.some.inj ht
      refine ⟨v, z, rfl, hz, ?_⟩
      have hpr := hp _ (mem_of_get hv) z hz
      unfold coeffText
      split_ifs at hpr ⊢ with h5 h6
      · have : ((z.re : ℂ)) = z := Complex.ext (by simp) (by simp [h6])
        rw [this] at hpr
        exact hpr.1
      · have := hR.complex _ _ _ _ hpr.1 hpr.2
        rwa [Complex.re_add_im] at this
      · exact hpr
  · intro v hv
    obtain ⟨z, _, hc⟩ := h3 p v hv
    exact ⟨_, hc⟩

/-! ### The command line -/

theorem splitEq_some {a k v : List Char} : splitEq a = some (k, v) ↔ '=' ∉ k ∧ a = k ++ '=' :: v := by
  induction a generalizing k with
  | nil => simp [splitEq]
  | cons c cs ih =>
    unfold splitEq
    by_cases hc : c = '='
    · subst hc
      rw [if_pos rfl]
      constructor
      · intro h
        obtain ⟨rfl, rfl⟩ := Prod.mk.inj (Option.some.inj h)
        simp
      · rintro ⟨h1, h2⟩
        cases k with
        | nil => simp at h2; rw [h2]
        | cons d k => simp at h1 h2; exact absurd h2.1 h1.1
    · rw [if_neg hc, Option.map_eq_some_iff]
      constructor
      · rintro ⟨⟨k', v'⟩, h1, h2⟩
        obtain ⟨rfl, rfl⟩ := Prod.mk.inj h2
        obtain ⟨h3, rfl⟩ := ih.1 h1
        exact ⟨by simp [h3, Ne.symm hc], rfl⟩
      · rintro ⟨h1, h2⟩
        cases k with
        | nil => simp at h2; exact absurd h2.1 hc
        | cons d k =>
          simp at h1 h2
          obtain ⟨rfl, h2⟩ := h2
          exact ⟨(k, v), ih.2 ⟨h1.2, h2⟩, rfl⟩

theorem getC_putC {α : Type} (k : List Char) (v : α) (p : List Char) : ∀ d, getC (putC d k v) p = if k = p then some v else getC d p
  | [] => by simp [putC, getC]
  | q :: d => by
    unfold putC
    by_cases h : q.1 = k
    · rw [if_pos h]
      unfold getC
      dsimp only
      by_cases hk : k = p
      · simp [hk]
      · rw [if_neg hk, if_neg hk, if_neg (by rw [h]; exact hk)]
    · rw [if_neg h]
      unfold getC
      by_cases hq : q.1 = p
      · rw [if_pos hq, if_pos hq, if_neg (fun e => h (hq.trans e.symm))]
      · rw [if_neg hq, if_neg hq, getC_putC k v p d]

/-- What one argument gives. -/
theorem gives_split {a key t : List Char} (h : splitEq a = some (key, t)) (x t' : List Char) :
    (GivesInt a x t' ↔ t' = t ∧ ((¬ "coeff-".toList <+: key ∧ ¬ "int-".toList <+: key ∧ x = key) ∨ ("int-".toList <+: key ∧ x = key.drop 4))) ∧
    (GivesCoeff a x t' ↔ t' = t ∧ ((¬ "coeff-".toList <+: key ∧ ¬ "int-".toList <+: key ∧ x = key) ∨ ("coeff-".toList <+: key ∧ x = key.drop 6))) := by
  have hk := splitEq_some.1 h
  have uniq : ∀ x' t'', '=' ∉ x' → a = x' ++ '=' :: t'' → x' = key ∧ t'' = t := by
    intro x' t'' h1 h2
    have := splitEq_some.2 ⟨h1, h2⟩
    rw [h] at this
    obtain ⟨rfl, rfl⟩ := Prod.mk.inj (Option.some.inj this)
    exact ⟨rfl, rfl⟩
  have hi : '=' ∉ "int-".toList := by decide
  have hc : '=' ∉ "coeff-".toList := by decide
  constructor
  · constructor
    · rintro ⟨hx, ⟨ha, h1, h2⟩ | ha⟩
      · obtain ⟨rfl, rfl⟩ := uniq x t' hx ha
        exact ⟨rfl, Or.inl ⟨h1, h2, rfl⟩⟩
      · obtain ⟨rfl, rfl⟩ := uniq ("int-".toList ++ x) t' (by rw [List.mem_append]; exact fun h => h.elim hi hx) ha
        exact ⟨rfl, Or.inr ⟨⟨x, rfl⟩, rfl⟩⟩
    · rintro ⟨rfl, ⟨h1, h2, rfl⟩ | ⟨⟨y, rfl⟩, rfl⟩⟩
      · exact ⟨hk.1, Or.inl ⟨hk.2, h1, h2⟩⟩
      · refine ⟨fun h => hk.1 (List.mem_append_right _ h), Or.inr ?_⟩
        exact hk.2
  · constructor
    · rintro ⟨hx, ⟨ha, h1, h2⟩ | ha⟩
      · obtain ⟨rfl, rfl⟩ := uniq x t' hx ha
        exact ⟨rfl, Or.inl ⟨h1, h2, rfl⟩⟩
      · obtain ⟨rfl, rfl⟩ := uniq ("coeff-".toList ++ x) t' (by rw [List.mem_append]; exact fun h => h.elim hc hx) ha
        exact ⟨rfl, Or.inr ⟨⟨x, rfl⟩, rfl⟩⟩
    · rintro ⟨rfl, ⟨h1, h2, rfl⟩ | ⟨⟨y, rfl⟩, rfl⟩⟩
      · exact ⟨hk.1, Or.inl ⟨hk.2, h1, h2⟩⟩
      · refine ⟨fun h => hk.1 (List.mem_append_right _ h), Or.inr ?_⟩
        exact hk.2

theorem lastArg_cons {g : List Char → List Char → List Char → Prop} {a : List Char} {as : List (List Char)} {x t : List Char} :
    LastArg g (a :: as) x t ↔ LastArg g as x t ∨ (g a x t ∧ ∀ a' ∈ as, ∀ t', ¬ g a' x t') := by
  constructor
  · rintro ⟨b, a', l, h1, h2, h3⟩
    cases b with
    | nil =>
      obtain ⟨rfl, rfl⟩ := List.cons.inj h1
      exact Or.inr ⟨h2, h3⟩
    | cons b bs =>
      obtain ⟨rfl, rfl⟩ := List.cons.inj h1
      exact Or.inl ⟨bs, a', l, rfl, h2, h3⟩
  · rintro (⟨b, a', l, rfl, h2, h3⟩ | ⟨h2, h3⟩)
    · exact ⟨a :: b, a', l, rfl, h2, h3⟩
    · exact ⟨[], a, as, rfl, h2, h3⟩

theorem exists_last {g : List Char → List Char → List Char → Prop} (x : List Char) : ∀ as : List (List Char),
    (∃ t, LastArg g as x t) ∨ ∀ a' ∈ as, ∀ t', ¬ g a' x t'
  | [] => Or.inr (fun a' h => by simp at h)
  | a :: as => by
    rcases exists_last (g := g) x as with ⟨t, h⟩ | h
    · exact Or.inl ⟨t, lastArg_cons.2 (Or.inl h)⟩
    · by_cases ha : ∃ t, g a x t
      · obtain ⟨t, ha⟩ := ha
        exact Or.inl ⟨t, lastArg_cons.2 (Or.inr ⟨ha, h⟩)⟩
      · refine Or.inr (fun a' ha' t' hg => ?_)
        rcases List.mem_cons.1 ha' with rfl | h'
        · exact ha ⟨t', hg⟩
        · exact h a' h' t' hg

theorem cli_aux {N : Type} (parse : List Char → Option N) : ∀ (args : List (List Char)) (vi : List (List Char × N)) (vc : List (List Char × List Char))
    (vi' : List (List Char × N)) (vc' : List (List Char × List Char)), cli parse args vi vc = some (vi', vc') → ∀ x,
    ((∀ t, LastArg GivesInt args x t → ∃ f, parse t = some f ∧ getC vi' x = some f) ∧
      ((∀ a ∈ args, ∀ t, ¬ GivesInt a x t) → getC vi' x = getC vi x)) ∧
    ((∀ t, LastArg GivesCoeff args x t → getC vc' x = some t) ∧
      ((∀ a ∈ args, ∀ t, ¬ GivesCoeff a x t) → getC vc' x = getC vc x))
  | [], vi, vc, vi', vc', h, x => by
    obtain ⟨rfl, rfl⟩ := Prod.mk.inj (Option.some.inj h)
    refine ⟨⟨?_, fun _ => rfl⟩, ⟨?_, fun _ => rfl⟩⟩
    · rintro t ⟨b, a, l, h, _⟩
      simp at h
    · rintro t ⟨b, a, l, h, _⟩
      simp at h
  | a :: as, vi, vc, vi', vc', h, x => by
    unfold cli at h
    cases hs : splitEq a with
    | none => rw [hs] at h; cases h
    | some kv =>
      obtain ⟨key, sv⟩ := kv
      rw [hs] at h
      dsimp only at h
      cases hf : parse sv with
      | none => rw [hf] at h; cases h
      | some f =>
        rw [hf] at h
        dsimp only at h
        have hg := fun x t => gives_split hs x t
        simp only [List.isPrefixOf_iff_prefix] at h
        have hboth : ¬ ("coeff-".toList <+: key ∧ "int-".toList <+: key) := by
          rintro ⟨⟨y, rfl⟩, ⟨z, hz⟩⟩
          have h1 : ("int-".toList ++ z).head? = some 'i' := rfl
          rw [hz] at h1
          have h2 : ("coeff-".toList ++ y).head? = some 'c' := rfl
          rw [h2] at h1
          exact absurd h1 (by decide)
        -- the state after the first argument
        obtain ⟨vi1, vc1, hrec, e1, e2⟩ : ∃ vi1 vc1, cli parse as vi1 vc1 = some (vi', vc') ∧
            ((∀ t, GivesInt a x t → getC vi1 x = some f ∧ t = sv) ∧ ((∀ t, ¬ GivesInt a x t) → getC vi1 x = getC vi x)) ∧
            ((∀ t, GivesCoeff a x t → getC vc1 x = some t) ∧ ((∀ t, ¬ GivesCoeff a x t) → getC vc1 x = getC vc x)) := by
          by_cases hc : "coeff-".toList <+: key
          · rw [if_pos hc] at h
            refine ⟨_, _, h, ⟨fun t ht => ?_, fun _ => rfl⟩, ⟨fun t ht => ?_, fun hn => ?_⟩⟩
            · rcases ((hg x t).1.1 ht).2 with h' | h'
              · exact absurd hc h'.1
              · exact absurd ⟨hc, h'.1⟩ hboth
            · rcases (hg x t).2.1 ht with ⟨rfl, h' | h'⟩
              · exact absurd hc h'.1
              · rw [getC_putC, if_pos h'.2.symm]
            · rw [getC_putC, if_neg]
              exact fun e => hn sv ((hg x sv).2.2 ⟨rfl, Or.inr ⟨hc, e.symm⟩⟩)
          · rw [if_neg hc] at h
            by_cases hi : "int-".toList <+: key
            · rw [if_pos hi] at h
              refine ⟨_, _, h, ⟨fun t ht => ?_, fun hn => ?_⟩, ⟨fun t ht => ?_, fun _ => rfl⟩⟩
              · rcases (hg x t).1.1 ht with ⟨rfl, h' | h'⟩
                · exact absurd hi h'.2.1
                · rw [getC_putC, if_pos h'.2.symm]
                  exact ⟨rfl, rfl⟩
              · rw [getC_putC, if_neg]
                exact fun e => hn sv ((hg x sv).1.2 ⟨rfl, Or.inr ⟨hi, e.symm⟩⟩)
              · rcases ((hg x t).2.1 ht).2 with h' | h'
                · exact absurd hi h'.2.1
                · exact absurd h'.1 hc
            · rw [if_neg hi] at h
              refine ⟨_, _, h, ⟨fun t ht => ?_, fun hn => ?_⟩, ⟨fun t ht => ?_, fun hn => ?_⟩⟩
              · rcases (hg x t).1.1 ht with ⟨rfl, h' | h'⟩
                · rw [getC_putC, if_pos h'.2.2.symm]
                  exact ⟨rfl, rfl⟩
                · exact absurd h'.1 hi
              · rw [getC_putC, if_neg]
                exact fun e => hn sv ((hg x sv).1.2 ⟨rfl, Or.inl ⟨hc, hi, e.symm⟩⟩)
              · rcases (hg x t).2.1 ht with ⟨rfl, h' | h'⟩
                · rw [getC_putC, if_pos h'.2.2.symm]
                · exact absurd h'.1 hc
              · rw [getC_putC, if_neg]
                exact fun e => hn sv ((hg x sv).2.2 ⟨rfl, Or.inl ⟨hc, hi, e.symm⟩⟩)
        have ih := cli_aux parse as vi1 vc1 vi' vc' hrec x
        refine ⟨⟨fun t ht => ?_, fun hn => ?_⟩, ⟨fun t ht => ?_, fun hn => ?_⟩⟩
        · rcases lastArg_cons.1 ht with h' | ⟨h', h''⟩
          · exact ih.1.1 t h'
          · obtain ⟨h3, rfl⟩ := e1.1 t h'
            exact ⟨f, hf, by rw [ih.1.2 h'', h3]⟩
        · rw [ih.1.2 (fun a' ha' => hn a' (List.mem_cons_of_mem _ ha')), e1.2 (hn a List.mem_cons_self)]
        · rcases lastArg_cons.1 ht with h' | ⟨h', h''⟩
          · exact ih.2.1 t h'
          · rw [ih.2.2 h'', e2.1 t h']
        · rw [ih.2.2 (fun a' ha' => hn a' (List.mem_cons_of_mem _ ha')), e2.2 (hn a List.mem_cons_self)]

/-- **C56** The command line: an integral variable has the number given by the last argument for it, `x=...` or `int-x=...`; a coefficient variable has the text given by the
last argument for it, `x=...` or `coeff-x=...`; other variables have none. -/
theorem C56_command_line {N : Type} (parse : List Char → Option N) (args : List (List Char)) (vi : List (List Char × N)) (vc : List (List Char × List Char))
    (h : cli parse args [] [] = some (vi, vc)) (x : List Char) :
    (∀ f, getC vi x = some f ↔ ∃ t, LastArg GivesInt args x t ∧ parse t = some f) ∧
    (∀ t, getC vc x = some t ↔ LastArg GivesCoeff args x t) := by
  have := cli_aux parse args [] [] vi vc h x
  constructor
  · intro f
    constructor
    · intro hf
      rcases exists_last (g := GivesInt) x args with ⟨t, ht⟩ | hn
      · obtain ⟨f', h1, h2⟩ := this.1.1 t ht
        rw [hf] at h2
        obtain rfl := Option.some.inj h2
        exact ⟨t, ht, h1⟩
      · rw [this.1.2 hn] at hf
        cases hf
    · rintro ⟨t, ht, hp⟩
      obtain ⟨f', h1, h2⟩ := this.1.1 t ht
      rw [hp] at h1
      obtain rfl := Option.some.inj h1
      exact h2
  · intro t
    constructor
    · intro hf
      rcases exists_last (g := GivesCoeff) x args with ⟨t', ht⟩ | hn
      · rw [this.2.1 t' ht] at hf
        obtain rfl := Option.some.inj hf
        exact ht
      · rw [this.2.2 hn] at hf
        cases hf
    · exact this.2.1 t

/-- **C56** The command line is refused only if an argument has no `=` or the text after it is not a number. -/
theorem C56_command_line_total {N : Type} (parse : List Char → Option N) : ∀ (args : List (List Char)) (vi : List (List Char × N)) (vc : List (List Char × List Char)),
    (∀ a ∈ args, ∃ x t f, '=' ∉ x ∧ a = x ++ '=' :: t ∧ parse t = some f) → ∃ r, cli parse args vi vc = some r
  | [], vi, vc, _ => ⟨_, rfl⟩
  | a :: as, vi, vc, h => by
    obtain ⟨x, t, f, h1, h2, h3⟩ := h a List.mem_cons_self
    have h' : ∀ a' ∈ as, ∃ x t f, '=' ∉ x ∧ a' = x ++ '=' :: t ∧ parse t = some f := fun a' ha' => h a' (List.mem_cons_of_mem _ ha')
    unfold cli
    rw [splitEq_some.2 ⟨h1, h2⟩]
    dsimp only
    rw [h3]
    dsimp only
    split_ifs
    · exact C56_command_line_total parse as _ _ h'
    · exact C56_command_line_total parse as _ _ h'
    · exact C56_command_line_total parse as _ _ h'

theorem splitX_none {a : List Char} (h : 'x' ∉ a) : splitX a = none := by
  induction a with
  | nil => rfl
  | cons c cs ih =>
    simp only [List.mem_cons, not_or] at h
    unfold splitX
    rw [if_neg (Ne.symm h.1), ih h.2]
    rfl

theorem splitX_some {n : List Char} (h : 'x' ∉ n) (v : List Char) : splitX (n ++ 'x' :: v) = some (n, v) := by
  induction n with
  | nil => simp [splitX]
  | cons c cs ih =>
    simp only [List.mem_cons, not_or] at h
    rw [List.cons_append]
    unfold splitX
    rw [if_neg (Ne.symm h.1), ih h.2]
    rfl

theorem splitComma_plain {a : List Char} (h : ',' ∉ a) : splitComma a = [a] := by
  induction a with
  | nil => rfl
  | cons c cs ih =>
    simp only [List.mem_cons, not_or] at h
    unfold splitComma
    rw [if_neg (Ne.symm h.1), ih h.2]

theorem splitComma_cons {a : List Char} (h : ',' ∉ a) (b : List Char) : splitComma (a ++ ',' :: b) = a :: splitComma b := by
  induction a with
  | nil => simp [splitComma]
  | cons c cs ih =>
    simp only [List.mem_cons, not_or] at h
    rw [List.cons_append]
    conv_lhs => unfold splitComma
    rw [if_neg (Ne.symm h.1), ih h.2]

/-- The items of a shorthand array: no commas, no `x` in counts and values; the texts are read as numbers. -/
structure ItemOK {F : Type} (float : List Char → Option F) (int : List Char → Option ℤ) (a : Option (List Char) × List Char) (r : List F) : Prop where
  comma : ',' ∉ itemText a
  x_value : 'x' ∉ a.2
  x_count : ∀ n, a.1 = some n → 'x' ∉ n
  reads : ∃ v, float a.2 = some v ∧ (a.1 = none → r = [v]) ∧ ∀ n, a.1 = some n → ∃ k, int n = some k ∧ r = List.replicate k.toNat v

/-- **C56** `--epsrel=2x1,3x2,3`: an item `n x value` stands for `n` copies of the value. -/
theorem C56_array_shorthand {F : Type} (float : List Char → Option F) (int : List Char → Option ℤ) (items : List (Option (List Char) × List Char))
    (rs : List (List F)) (hne : items ≠ []) (h : List.Forall₂ (ItemOK float int) items rs) :
    arrayShorthand float int (arrayText items) = some rs.flatten := by
  unfold arrayShorthand
  have h1 : ∀ (items : List (Option (List Char) × List Char)), items ≠ [] → (∀ a ∈ items, ',' ∉ itemText a) →
      splitComma (arrayText items) = items.map itemText := by
    intro items
    induction items with
    | nil => intro h; exact absurd rfl h
    | cons a l ih =>
      intro _ hc
      cases l with
      | nil =>
        unfold arrayText
        exact splitComma_plain (hc a List.mem_cons_self)
      | cons b l =>
        unfold arrayText
        rw [splitComma_cons (hc a List.mem_cons_self), ih (by simp) (fun a' ha' => hc a' (List.mem_cons_of_mem _ ha'))]
        rfl
  rw [h1 items hne (fun a ha => by
    obtain ⟨i, hi, rfl⟩ := List.mem_iff_getElem.1 ha
    have := (List.forall₂_iff_get.1 h)
    exact (this.2 i hi (by rw [← this.1]; exact hi)).comma)]
  clear h1 hne
  have h2 : ∀ (items : List (Option (List Char) × List Char)) (rs : List (List F)), List.Forall₂ (ItemOK float int) items rs →
      (items.map itemText).mapM (readItem float int) = some rs := by
    intro items rs h
    induction h with
    | nil => rfl
    | @cons a r l rs' ha hl ih =>
      rw [List.map_cons, List.mapM_cons, ih]
      obtain ⟨v, hv, hnone, hsome⟩ := ha.reads
      obtain ⟨n, value⟩ := a
      cases n with
      | none =>
        have e : itemText (none, value) = value := rfl
        unfold readItem
        rw [e, splitX_none ha.x_value]
        dsimp only at hv ⊢
        rw [hv, hnone rfl]
        rfl
      | some n =>
        have e : itemText (some n, value) = n ++ 'x' :: value := rfl
        unfold readItem
        rw [e, splitX_some (ha.x_count n rfl)]
        obtain ⟨k, hk, rfl⟩ := hsome n rfl
        dsimp only at hv ⊢
        rw [hv, hk]
        rfl
  rw [h2 items rs h]
  rfl

/-- **C56** `--timeout=2h`: a number followed by `s`, `m`, `h` or `d`, or a number of seconds. -/
theorem C56_time_units (float : List Char → Option ℝ) (t : List Char) (x : ℝ) (hx : float t = some x) :
    parseUnit float (t ++ ['s']) timeUnits = some x ∧ parseUnit float (t ++ ['m']) timeUnits = some (x * 60) ∧
    parseUnit float (t ++ ['h']) timeUnits = some (x * 3600) ∧ parseUnit float (t ++ ['d']) timeUnits = some (x * 86400) ∧
    ((∀ u ∈ ['s', 'm', 'h', 'd'], ¬ [u] <:+ t) → parseUnit float t timeUnits = some x) := by
  have hsuf : ∀ c d : Char, ([c] <:+ t ++ [d]) ↔ c = d := by
    intro c d
    constructor
    · rintro ⟨y, hy⟩
      exact (List.cons.inj (List.append_inj' hy rfl).2).1
    · rintro rfl
      exact ⟨t, rfl⟩
  have htake : ∀ c : Char, List.take ((t ++ [c]).length - [c].length) (t ++ [c]) = t := by
    intro c
    simp
  unfold timeUnits
  refine ⟨?_, ?_, ?_, ?_, ?_⟩
  · unfold parseUnit
    rw [if_pos (List.isSuffixOf_iff_suffix.2 ((hsuf _ _).2 rfl)), htake, hx]
    simp
  · simp only [parseUnit, List.isSuffixOf_iff_suffix, hsuf, htake, hx]
    simp
  · simp only [parseUnit, List.isSuffixOf_iff_suffix, hsuf, htake, hx]
    simp
    norm_num
  · simp only [parseUnit, List.isSuffixOf_iff_suffix, hsuf, htake, hx]
    simp
    norm_num
  · intro h
    simp only [parseUnit, List.isSuffixOf_iff_suffix]
    rw [if_neg (h 's' (by simp)), if_neg (h 'm' (by simp)), if_neg (h 'h' (by simp)), if_neg (h 'd' (by simp)), hx]

/-! ### Non-trivial cases and defects -/

/-- A real number. -/
noncomputable def realValue (x : ℝ) (t : String) : Value := ⟨some (x : ℂ), false, t, t, "0.0"⟩

/-- A text that is not a number. -/
def badValue : Value := ⟨none, false, "abc", "", ""⟩

/-- A library with the two real parameters `s`, `t`, and one integral, which has them in the other order. -/
def box : Library := ⟨["s", "t"], [], [(["t", "s"], [])]⟩

/-- A library with one real parameter. -/
def bubble : Library := ⟨["m"], [], [(["m"], [])]⟩

theorem box_wf : box.WF := ⟨by decide, by decide⟩

theorem bubble_wf : bubble.WF := ⟨by decide, by decide⟩

/-- A call of `box` with all the parameters in the list. -/
noncomputable def fullCall (x y : ℝ) : Call := ⟨box, none, [realValue x "x", realValue y "y"], []⟩

theorem fullCall_full (x y : ℝ) : (fullCall x y).Full := ⟨rfl, rfl⟩

theorem fullCall_real (x y : ℝ) : ∀ v ∈ (fullCall x y).reals, v.Real := by
  intro v hv
  simp only [fullCall, List.mem_cons, List.not_mem_nil, or_false] at hv
  rcases hv with rfl | rfl <;> exact ⟨_, rfl, Complex.ofReal_im _⟩

/-- Non-trivial case: two calls with different values, one after the other; the second one sends its own values, `t` first, since the integral has the
parameters in this order. -/
example : ∃ s, ((fullCall 3 4).run (history [.call (fullCall 1 2)])).2 = .ok s ∧ s.values = [([4, 3], [])] := by
  obtain ⟨s, hs⟩ := C56_lists_succeed [.call (fullCall 1 2)] (fullCall 3 4) box_wf (fullCall_full 3 4) (by
    intro e he
    rw [List.mem_singleton.1 he]
    exact ⟨fun v hv => by obtain ⟨z, hz, _⟩ := fullCall_real 1 2 v hv; rw [hz]; rfl, fun v hv => by simp [fullCall] at hv⟩)
    (fullCall_real 3 4) (fun v hv => by simp [fullCall] at hv)
  refine ⟨s, hs, ?_⟩
  have := C56_lists_exact _ _ box_wf (fullCall_full 3 4) s hs
  unfold Faithful at this
  have hfam : (fullCall 3 4).lib.families = [(["t", "s"], [])] := rfl
  rw [hfam] at this
  generalize s.values = vals at this ⊢
  cases this with
  | @cons _ a _ as h1 h2 =>
    cases h2
    obtain ⟨a1, a2⟩ := a
    obtain ⟨hr, hc⟩ := h1
    dsimp only at hr hc
    cases hc
    cases hr with
    | @cons _ x _ xs hx hr =>
      cases hr with
      | @cons _ y _ ys hy hr =>
        cases hr
        have place : ∀ p v, (fullCall 3 4).Gives p v → (p = "s" ∧ v = realValue 3 "x") ∨ (p = "t" ∧ v = realValue 4 "y") := by
          rintro p v (h | ⟨_, h⟩)
          · simp only [fullCall, box] at h
            rcases atPlace_cons.1 h with ⟨rfl, rfl⟩ | h
            · exact Or.inl ⟨rfl, rfl⟩
            · rcases atPlace_cons.1 h with ⟨rfl, rfl⟩ | h
              · exact Or.inr ⟨rfl, rfl⟩
              · have := (atPlace_mem h).1
                simp at this
          · have := (atPlace_mem h).1
            simp [fullCall, box] at this
        obtain ⟨v, hv, hz⟩ := hx
        obtain ⟨w, hw, hz'⟩ := hy
        rcases place _ _ hv with ⟨h, _⟩ | ⟨_, rfl⟩
        · exact absurd h (by decide)
        · rcases place _ _ hw with ⟨_, rfl⟩ | ⟨h, _⟩
          · have e1 : (x : ℂ) = ((4 : ℝ) : ℂ) := (Option.some.inj hz).symm
            have e2 : (y : ℂ) = ((3 : ℝ) : ℂ) := (Option.some.inj hz').symm
            rw [Complex.ofReal_inj] at e1 e2
            rw [e1, e2]
          · exact absurd h (by decide)

/-- The evaluation of a dictionary with the two real parameters of `box`. -/
theorem eval_box {d : Dict Value} {v w : Value} {x y : ℝ} (hs : Dict.get? d "s" = some v) (hx : v.num = some (x : ℂ)) (ht : Dict.get? d "t" = some w)
    (hy : w.num = some (y : ℂ)) (hn : ∀ q ∈ d, q.2.num.isSome) : ∃ s, evalDict box d = .ok s ∧ s.values = [([y, x], [])] := by
  obtain ⟨⟨vi, vc⟩, hm⟩ := valueMaps_some hn
  obtain ⟨z, h1, h2, _⟩ := (valueMaps_get hm "s").1 v hs
  rw [hx] at h1
  obtain rfl := Option.some.inj h1
  obtain ⟨z', h3, h4, _⟩ := (valueMaps_get hm "t").1 w ht
  rw [hy] at h3
  obtain rfl := Option.some.inj h3
  refine ⟨⟨[([y, x], [])], vc⟩, ?_, rfl⟩
  unfold evalDict
  rw [hm]
  simp [doEval, box, firstMissing, h2, h4, familiesArgs, familyArgs, lookupAll]

theorem run_no_lists (c : Call) (h : Heap) (h1 : c.reals = []) (h2 : c.complexes = []) : (c.run h).2 = evalDict c.lib (h c.obj) := by
  have e : c.fill (h c.obj) = (h c.obj, false) := by unfold Call.fill; rw [if_pos ⟨h1, h2⟩]
  unfold Call.run
  dsimp only
  rw [e]
  rfl

/-- **C56, defect** After a call with lists, a call with no values at all is not refused: it silently uses the values of the earlier call. -/
theorem C56_stale_values : ∃ s, ((⟨box, none, [], []⟩ : Call).run (history [.call (fullCall 1 2)])).2 = .ok s ∧ s.values = [([2, 1], [])] := by
  have e : history [.call (fullCall 1 2)] 0 = [("s", realValue 1 "x"), ("t", realValue 2 "y")] := by
    show ((fullCall 1 2).run (fun _ => [])).1 (fullCall 1 2).obj = _
    rw [run_obj]
    rfl
  have : ((⟨box, none, [], []⟩ : Call).run (history [.call (fullCall 1 2)])).2 = evalDict box [("s", realValue 1 "x"), ("t", realValue 2 "y")] := by
    rw [run_no_lists _ _ rfl rfl, ← e]
    rfl
  rw [this]
  exact eval_box (v := realValue 1 "x") (w := realValue 2 "y") rfl rfl rfl rfl (by
    intro q hq
    simp only [List.mem_cons, List.not_mem_nil, or_false] at hq
    rcases hq with rfl | rfl <;> rfl)

/-- **C56, defect** A call with a value which is not a number makes all the later calls of the *other* libraries (with lists) fail. -/
theorem C56_poisoned : ((⟨bubble, none, [badValue], []⟩ : Call).run (history [])).2 = .error .number ∧
    ∀ x y, ((fullCall x y).run (history [.call ⟨bubble, none, [badValue], []⟩])).2 = .error .number := by
  constructor
  · rfl
  · intro x y
    have e : history [.call ⟨bubble, none, [badValue], []⟩] 0 = [("m", badValue)] := by
      show ((⟨bubble, none, [badValue], []⟩ : Call).run (fun _ => [])).1 (⟨bubble, none, [badValue], []⟩ : Call).obj = _
      rw [run_obj]
      rfl
    unfold Call.run
    dsimp only
    rw [show (fullCall x y).obj = 0 from rfl, e]
    rfl

/-- **C56, defect** A call with the caller's dictionary and a list changes the caller's dictionary; a later call with the dictionary only uses the value from the list. -/
theorem C56_callers_dictionary_changed : ∃ es : List Event, ∃ c : Call, c.dict = some 0 ∧
    LastSet es 0 "s" (realValue 5 "five") ∧ Dict.get? ((c.run (history es)).1 1) "s" = some (realValue 1 "x") := by
  refine ⟨[.set 0 "s" (realValue 5 "five")], { fullCall 1 2 with dict := some 0 }, rfl, ⟨[], [], rfl, fun v' => by simp⟩, ?_⟩
  have := run_obj { fullCall 1 2 with dict := some 0 } (history [.set 0 "s" (realValue 5 "five")])
  rw [show ({ fullCall 1 2 with dict := some 0 } : Call).obj = 1 from rfl] at this
  rw [this]
  rfl

/-- Non-trivial case: the caller's dictionary `0`, filled by the caller in several steps, between calls of other libraries with lists. -/
example : ∃ s, ((⟨box, some 0, [], []⟩ : Call).run (history [.set 0 "t" (realValue 7 "7"), .call (fullCall 1 2), .set 0 "s" (realValue 5 "5"),
    .set 0 "t" (realValue 6 "6")])).2 = .ok s ∧ s.values = [([6, 5], [])] := by
  have e : history [.set 0 "t" (realValue 7 "7"), .call (fullCall 1 2), .set 0 "s" (realValue 5 "5"), .set 0 "t" (realValue 6 "6")] 1
      = [("t", realValue 6 "6"), ("s", realValue 5 "5")] := rfl
  have : ((⟨box, some 0, [], []⟩ : Call).run (history [.set 0 "t" (realValue 7 "7"), .call (fullCall 1 2), .set 0 "s" (realValue 5 "5"),
    .set 0 "t" (realValue 6 "6")])).2 = evalDict box [("t", realValue 6 "6"), ("s", realValue 5 "5")] := by
    rw [run_no_lists _ _ rfl rfl, ← e]
    rfl
  rw [this]
  exact eval_box (v := realValue 5 "5") (w := realValue 6 "6") rfl rfl rfl rfl (by
    intro q hq
    simp only [List.mem_cons, List.not_mem_nil, or_false] at hq
    rcases hq with rfl | rfl <;> rfl)

/-- The dictionary of the example is not mixed with lists, and it is missing a parameter before the last but one assignment. -/
example : NotMixed [.set 0 "t" (realValue 7 "7"), .call (fullCall 1 2)] 0 ∧
    ∃ q, ((⟨box, some 0, [], []⟩ : Call).run (history [.set 0 "t" (realValue 7 "7"), .call (fullCall 1 2)])).2 = .error (.missing q) := by
  have hm : NotMixed [.set 0 "t" (realValue 7 "7"), .call (fullCall 1 2)] 0 := by
    intro c hc hd
    simp only [List.mem_cons, List.not_mem_nil, or_false] at hc
    rcases hc with h | h
    · cases h
    · obtain rfl := Event.call.inj h
      cases hd
  refine ⟨hm, ?_⟩
  obtain ⟨q, hq, _⟩ := C56_own_dictionary_missing _ ⟨box, some 0, [], []⟩ 0 rfl ⟨rfl, rfl⟩ hm (by
    intro e he
    simp only [List.mem_cons, List.not_mem_nil, or_false] at he
    rcases he with rfl | rfl
    · rfl
    · exact ⟨fun v hv => by obtain ⟨z, hz, _⟩ := fullCall_real 1 2 v hv; rw [hz]; rfl, fun v hv => by simp [fullCall] at hv⟩) "s"
    (by decide) (by
      rintro v ⟨b, a, h, _⟩
      have : Event.set 0 "s" v ∈ [Event.set 0 "t" (realValue 7 "7"), Event.call (fullCall 1 2)] := by rw [h]; simp
      simp only [List.mem_cons, List.not_mem_nil, or_false] at this
      rcases this with h | h
      · injection h with _ h
        exact absurd h (by decide)
      · cases h)
  exact ⟨q, hq⟩

/-- A reader of texts. -/
inductive Reads : String → ℂ → Prop
  | one : Reads "1.0" ((1 : ℝ) : ℂ)
  | two : Reads "2.0" ((2 : ℝ) : ℂ)
  | cplx (a b : String) (x y : ℂ) (hx : Reads a x) (hy : Reads b y) : Reads (a ++ " + (" ++ b ++ ")*I") (x + y * Complex.I)

/-- Non-trivial case for the coefficient texts: the value `1+2j` of a complex parameter is sent as the text `1.0 + (2.0)*I`. -/
example : Reader Reads ∧ (⟨some ⟨1, 2⟩, true, "(1+2j)", "1.0", "2.0"⟩ : Value).Printed Reads ∧
    coeffText ⟨some ⟨1, 2⟩, true, "(1+2j)", "1.0", "2.0"⟩ ⟨1, 2⟩ = "1.0 + (2.0)*I" := by
  refine ⟨⟨fun a b x y => Reads.cplx a b x y⟩, ?_, ?_⟩
  · intro z hz
    obtain rfl := Option.some.inj hz
    exact ⟨Reads.one, Reads.two⟩
  · unfold coeffText
    simp

/-- Non-trivial case for the command line: `s=1 int-s=2 coeff-s=3`. -/
example : cli (fun t => some t) ["s=1".toList, "int-s=2".toList, "coeff-s=3".toList] [] [] = some ([("s".toList, "2".toList)], [("s".toList, "3".toList)]) := by
  decide +kernel

/-- Non-trivial case for the array: `2x1,3`. -/
example : arrayShorthand (fun t => some t) (fun _ => some 2) "2x1,3".toList = some [['1'], ['1'], ['3']] := by
  decide +kernel

end Params
end SecDec
