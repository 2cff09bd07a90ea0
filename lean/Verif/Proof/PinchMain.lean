import Verif.Proof.Pinch
import Verif.Proof.PinchGraph
import Mathlib.Data.List.Dedup
/-
The graph of the lines that remain is the contracted graph.
-/
namespace SecDec
namespace FromGraph

variable {N A K D S : Type} [DecidableEq N] [DecidableEq K] [Zero K] {V P E V' P' : Nat}

theorem idxOf?_some {l : List N} {a : N} {k : Nat} (h : l.idxOf? a = some k) : l[k]? = some a := by
  unfold List.idxOf? at h
  obtain ⟨h1, h2, -⟩ := List.findIdx?_eq_some_iff_getElem.1 h
  rw [List.getElem?_eq_getElem h1]
  simpa using h2

theorem idxOf?_of {l : List N} (hl : l.Nodup) {a : N} {k : Nat} (h : l[k]? = some a) : l.idxOf? a = some k := by
  obtain ⟨h1, h2⟩ := List.getElem?_eq_some_iff.1 h
  unfold List.idxOf?
  rw [List.findIdx?_eq_some_iff_getElem]
  refine ⟨h1, by simp [h2], fun j hj => ?_⟩
  have : l[j] ≠ a := by
    intro hja
    have := (List.Nodup.getElem_inj_iff hl (hi := by omega) (hj := h1)).1 (hja.trans h2.symm)
    omega
  simpa using this

/-- the names of the vertices -/
theorem numbered_names {s : Lines N A K D S} {mass : Fin P → A} {g : Graph V P E} (h : Numbered s mass g) :
    ∃ ν : Fin (V+1) → N, Function.Injective ν ∧ (∀ v, ∃ l ∈ s.internal, ν v = l.2.1 ∨ ν v = l.2.2) ∧ s.P = P ∧
      s.internal = List.ofFn (fun i => (mass i, ν (g.edges i).1, ν (g.edges i).2)) ∧ s.ext = List.ofFn (fun e => ν (g.ext e)) := by
  obtain ⟨vs, ⟨hnd, hmem⟩, h1, h2, h3, h4, h5, h6⟩ := h
  have hν : ∀ (v : Fin (V+1)) {a}, vs[v.val]? = some a → vs[v.val]'(by omega) = a := by
    intro v a hv
    rw [List.getElem?_eq_getElem (by omega)] at hv
    simpa using hv
  refine ⟨fun v => vs[v.val]'(by omega), ?_, ?_, h2, ?_, ?_⟩
  · intro a b hab
    exact Fin.ext ((List.Nodup.getElem_inj_iff hnd).1 hab)
  · intro v
    exact (hmem _).1 (List.getElem_mem _)
  · apply List.ext_getElem? 
    intro i
    by_cases hi : i < P
    · obtain ⟨a, b, e1, e2, e3⟩ := h5 ⟨i, hi⟩
      rw [List.getElem?_ofFn, dif_pos hi, e1]
      dsimp only
      rw [hν _ (idxOf?_some e2), hν _ (idxOf?_some e3)]
    · rw [List.getElem?_eq_none (by omega), List.getElem?_eq_none (by simp; omega)]
  · apply List.ext_getElem?
    intro i
    by_cases hi : i < E
    · obtain ⟨a, e1, e2⟩ := h6 ⟨i, hi⟩
      rw [List.getElem?_ofFn, dif_pos hi, e1]
      dsimp only
      rw [hν _ (idxOf?_some e2)]
    · rw [List.getElem?_eq_none (by omega), List.getElem?_eq_none (by simp; omega)]

/-- the numbers of the lines that remain -/
def kept (P : Nat) (powers : List K) : List (Fin P) := (List.finRange P).filter (fun i => decide (i ∉ zeroLines P powers))

theorem zip_ofFn {α : Type} {powers : List K} (hp : powers.length = P) (f : Fin P → α) :
    powers.zip (List.ofFn f) = (List.finRange P).map (fun i => (powers[i.val]'(by omega), f i)) := by
  apply List.ext_getElem
  · simp [hp]
  · intro n h1 h2
    simp

theorem keep_ofFn {α : Type} {powers : List K} (hp : powers.length = P) (f : Fin P → α) :
    keep powers (List.ofFn f) = (kept P powers).map f := by
  unfold keep kept
  rw [zip_ofFn hp, List.filter_map, List.map_map]
  congr 1
  refine List.filter_congr fun i _ => ?_
  have hi : powers[i.val]? = some (powers[i.val]'(by omega)) := List.getElem?_eq_getElem _
  simp only [Function.comp_apply, zeroLines, Finset.mem_filter, Finset.mem_univ, true_and, hi, Option.some.injEq, ne_eq]

theorem mem_zeros_ofFn {α : Type} {powers : List K} (hp : powers.length = P) (f : Fin P → α) (a : α) :
    a ∈ zeros powers (List.ofFn f) ↔ ∃ i ∈ zeroLines P powers, f i = a := by
  unfold zeros
  rw [zip_ofFn hp, List.filter_map, List.map_map]
  simp only [List.mem_map, List.mem_filter, List.mem_finRange, true_and, Function.comp_apply, decide_eq_true_eq, zeroLines,
    Finset.mem_filter, Finset.mem_univ]
  refine exists_congr fun i => and_congr_left fun _ => ?_
  have hi : powers[i.val]? = some (powers[i.val]'(by omega)) := List.getElem?_eq_getElem _
  rw [hi, Option.some.injEq]

/-- connected by lines, in terms of numbers or names -/
theorem conn_iff (g : Graph V P E) {powers : List K} (hp : powers.length = P) (mass : Fin P → A) {ν : Fin (V+1) → N}
    (hν : Function.Injective ν) (a b : Fin (V+1)) :
    Conn (zeros powers (List.ofFn (fun i => (mass i, ν (g.edges i).1, ν (g.edges i).2)))) (ν a) (ν b) ↔
      (sub g (zeroLines P powers)).Reachable a b := by
  constructor
  · intro h
    have key : ∀ x y, Conn (zeros powers (List.ofFn (fun i => (mass i, ν (g.edges i).1, ν (g.edges i).2)))) x y →
        x = y ∨ ∃ a b, x = ν a ∧ y = ν b ∧ (sub g (zeroLines P powers)).Reachable a b := by
      intro x y hxy
      induction hxy with
      | rel x y h =>
        obtain ⟨m, hm⟩ := h
        obtain ⟨i, hi, he⟩ := (mem_zeros_ofFn hp _ _).1 hm
        simp only [Prod.mk.injEq] at he
        exact Or.inr ⟨_, _, he.2.1.symm, he.2.2.symm, reach_line g hi⟩
      | refl x => exact Or.inl rfl
      | symm x y _ ih =>
        rcases ih with rfl | ⟨a, b, h1, h2, h3⟩
        · exact Or.inl rfl
        · exact Or.inr ⟨b, a, h2, h1, h3.symm⟩
      | trans x y z _ _ ih1 ih2 =>
        rcases ih1 with rfl | ⟨a, b, h1, h2, h3⟩
        · exact ih2
        · rcases ih2 with rfl | ⟨c, d, h4, h5, h6⟩
          · exact Or.inr ⟨a, b, h1, h2, h3⟩
          · have := hν (h2.symm.trans h4); subst this
            exact Or.inr ⟨a, d, h1, h5, h3.trans h6⟩
    rcases key _ _ h with h | ⟨c, d, h1, h2, h3⟩
    · rw [hν h]
    · rw [hν h1, hν h2]; exact h3
  · intro h
    refine reach_of g (zeroLines P powers)
      (fun a b => Conn (zeros powers (List.ofFn (fun i => (mass i, ν (g.edges i).1, ν (g.edges i).2)))) (ν a) (ν b))
      (fun _ => Relation.EqvGen.refl _) (fun _ _ h => Relation.EqvGen.symm _ _ h) (fun _ _ _ h1 h2 => Relation.EqvGen.trans _ _ _ h1 h2) ?_ h
    intro i hi
    exact Relation.EqvGen.rel _ _ ⟨mass i, (mem_zeros_ofFn hp _ _).2 ⟨i, hi, rfl⟩⟩

/-- every vertex is renamed to a vertex of a line that remains -/
theorem vertex_remains {s : Lines N A K D S} (hs : s.WellFormed) {mass : Fin P → A} {g : Graph V P E} {ν : Fin (V+1) → N}
    (hP : s.P = P) (hint : s.internal = List.ofFn (fun i => (mass i, ν (g.edges i).1, ν (g.edges i).2)))
    {r : N → N} (hr : ∀ a b, r a = r b ↔ Conn (zeros s.powers s.internal) a b)
    (hc : (sub g Finset.univ).Connected) (hk : ∃ p ∈ s.powers, p ≠ 0) (v : Fin (V+1)) :
    ∃ l ∈ (keep s.powers s.internal).map (mapLine r), r (ν v) = l.2.1 ∨ r (ν v) = l.2.2 := by
  have hp : s.powers.length = P := by rw [hs.2.1, hP]
  have hline : ∀ i : Fin P, i ∉ zeroLines P s.powers →
      (mass i, r (ν (g.edges i).1), r (ν (g.edges i).2)) ∈ (keep s.powers s.internal).map (mapLine r) := by
    intro i hi
    rw [hint, keep_ofFn hp, List.map_map]
    refine List.mem_map.2 ⟨i, ?_, rfl⟩
    unfold kept
    rw [List.mem_filter]
    exact ⟨List.mem_finRange i, by simpa using hi⟩
  obtain ⟨p, hpm, hp0⟩ := hk
  obtain ⟨n, hn, hpn⟩ := List.getElem_of_mem hpm
  have hi0 : (⟨n, by omega⟩ : Fin P) ∉ zeroLines P s.powers := by
    simp only [zeroLines, Finset.mem_filter, Finset.mem_univ, true_and]
    rw [List.getElem?_eq_getElem hn, hpn]
    simpa using hp0
  refine reach_of g Finset.univ (fun a b => (∃ l ∈ (keep s.powers s.internal).map (mapLine r), r (ν a) = l.2.1 ∨ r (ν a) = l.2.2) ↔
      ∃ l ∈ (keep s.powers s.internal).map (mapLine r), r (ν b) = l.2.1 ∨ r (ν b) = l.2.2) (fun _ => Iff.rfl) (fun _ _ h => h.symm)
      (fun _ _ _ h1 h2 => h1.trans h2) ?_ (hc.preconnected (g.edges ⟨n, by omega⟩).1 v) |>.1 ⟨_, hline _ hi0, Or.inl rfl⟩
  intro i _
  by_cases hi : i ∈ zeroLines P s.powers
  · have : r (ν (g.edges i).1) = r (ν (g.edges i).2) := by
      rw [hr]
      refine Relation.EqvGen.rel _ _ ⟨mass i, ?_⟩
      rw [hint]
      exact (mem_zeros_ofFn hp _ _).2 ⟨i, hi, rfl⟩
    rw [this]
  · exact ⟨fun _ => ⟨_, hline i hi, Or.inr rfl⟩, fun _ => ⟨_, hline i hi, Or.inl rfl⟩⟩

/-- **the graph after the loop is the contracted graph** -/
theorem contr_of_pinch {s : Lines N A K D S} (hs : s.WellFormed) {mass : Fin P → A} {g : Graph V P E} (hg : Numbered s mass g)
    {mass' : Fin P' → A} {g' : Graph V' P' E} (hg' : Numbered (pinch s) mass' g')
    (hc : (sub g Finset.univ).Connected) (hk : ∃ p ∈ s.powers, p ≠ 0) :
    ∃ φ e, Contr g g' (zeroLines P s.powers) φ e ∧ (∀ k, mass' k = mass (e k)) ∧
      ∀ {α : Type} (f : Fin P → α) (f' : Fin P' → α), List.ofFn f' = keep s.powers (List.ofFn f) ↔ ∀ k, f' k = f (e k) := by
  obtain ⟨ν, hν, hcov, hP, hint, hext⟩ := numbered_names hg
  obtain ⟨ν', hν', hcov', hP', hint', hext'⟩ := numbered_names hg'
  obtain ⟨r, hr, he⟩ := pinch_eq s hs
  have hp : s.powers.length = P := by rw [hs.2.1, hP]
  have hrem := fun v => vertex_remains hs hP hint hr hc hk v
  rw [he] at hcov' hP' hint' hext'
  dsimp only at hcov' hP' hint' hext'
  have hlen : (kept P s.powers).length = P' := by
    rw [hint, keep_ofFn hp, List.length_map] at hP'; exact hP'
  let e : Fin P' → Fin P := fun k => (kept P s.powers)[k.val]'(by omega)
  have hkeep : ∀ {α : Type} (f : Fin P → α), keep s.powers (List.ofFn f) = List.ofFn (fun k => f (e k)) := by
    intro α f
    rw [keep_ofFn hp]
    apply List.ext_getElem
    · simp [hlen]
    · intro n h1 h2
      simp [e]
  have hmass : ∀ k : Fin P', mass' k = mass (e k) := by
    intro k
    rw [hint, hkeep, List.map_ofFn] at hint'
    have := congrFun (List.ofFn_injective hint') k
    simp only [Function.comp_apply, mapLine, Prod.mk.injEq] at this
    exact this.1.symm
  have hlines : ∀ k : Fin P', ν' (g'.edges k).1 = r (ν (g.edges (e k)).1) ∧ ν' (g'.edges k).2 = r (ν (g.edges (e k)).2) := by
    intro k
    rw [hint, hkeep, List.map_ofFn] at hint'
    have := congrFun (List.ofFn_injective hint') k
    simp only [Function.comp_apply, mapLine, Prod.mk.injEq] at this
    exact ⟨this.2.1.symm, this.2.2.symm⟩
  have hends : ∀ l ∈ (keep s.powers s.internal).map (mapLine r), ∀ x, x = l.2.1 ∨ x = l.2.2 → ∃ k : Fin P',
      x = ν' (g'.edges k).1 ∨ x = ν' (g'.edges k).2 := by
    intro l hl x hx
    rw [hint', List.mem_ofFn'] at hl
    obtain ⟨k, rfl⟩ := hl
    exact ⟨k, hx⟩
  have hφ : ∀ v, ∃ w, ν' w = r (ν v) := by
    intro v
    obtain ⟨l, hl, hv⟩ := hrem v
    obtain ⟨k, hk | hk⟩ := hends l hl _ hv
    · exact ⟨_, hk.symm⟩
    · exact ⟨_, hk.symm⟩
  choose φ hφ using hφ
  refine ⟨φ, e, ⟨?_, ?_, ?_, ?_, ?_, ?_⟩, hmass, ?_⟩
  · intro a b hab
    have hnd : (kept P s.powers).Nodup := (List.nodup_finRange P).filter _
    exact Fin.ext ((List.Nodup.getElem_inj_iff hnd).1 hab)
  · intro i
    constructor
    · rintro ⟨k, rfl⟩
      have : e k ∈ kept P s.powers := List.getElem_mem _
      unfold kept at this
      simpa using (List.mem_filter.1 this).2
    · intro hi
      have : i ∈ kept P s.powers := by
        unfold kept
        rw [List.mem_filter]; exact ⟨List.mem_finRange i, by simpa using hi⟩
      obtain ⟨n, hn, hni⟩ := List.getElem_of_mem this
      exact ⟨⟨n, by omega⟩, hni⟩
  · intro a b
    rw [← conn_iff g hp mass hν, ← hint, ← hr, ← hφ, ← hφ, hν'.eq_iff]
  · intro w
    obtain ⟨l, hl, hw⟩ := hcov' w
    obtain ⟨k, hk | hk⟩ := hends l hl _ hw
    · exact ⟨(g.edges (e k)).1, hν' (by rw [hφ, hk, (hlines k).1])⟩
    · exact ⟨(g.edges (e k)).2, hν' (by rw [hφ, hk, (hlines k).2])⟩
  · intro k
    refine Prod.ext (hν' ?_) (hν' ?_)
    · rw [(hlines k).1, hφ]
    · rw [(hlines k).2, hφ]
  · intro k
    rw [hext, List.map_ofFn] at hext'
    have := congrFun (List.ofFn_injective hext') k
    exact hν' (by rw [hφ]; exact this.symm)
  · intro α f f'
    rw [hkeep]
    constructor
    · intro h k; exact congrFun (List.ofFn_injective h) k
    · intro h; congr 1; funext k; exact h k

/-- the constructor finds a number for every vertex -/
theorem numbered_exists {s : Lines N A K D S} (hs : s.WellFormed) {mass : Fin P → A} {g : Graph V P E} (hg : Numbered s mass g)
    (hc : (sub g Finset.univ).Connected) (hk : ∃ p ∈ s.powers, p ≠ 0) :
    ∃ (V' P' : Nat) (mass' : Fin P' → A) (g' : Graph V' P' E), Numbered (pinch s) mass' g' := by
  obtain ⟨ν, hν, hcov, hP, hint, hext⟩ := numbered_names hg
  obtain ⟨r, hr, he⟩ := pinch_eq s hs
  have hrem := fun v => vertex_remains hs hP hint hr hc hk v
  rw [he]
  generalize hL : (keep s.powers s.internal).map (mapLine r) = L at hrem
  have hlen : (keep s.powers s.internal).length = L.length := by rw [← hL, List.length_map]
  let vs := (L.flatMap (fun l => [l.2.1, l.2.2])).dedup
  have hnd : vs.Nodup := List.nodup_dedup _
  have hmem : ∀ v, v ∈ vs ↔ ∃ l ∈ L, v = l.2.1 ∨ v = l.2.2 := by
    intro v
    simp [vs, List.mem_dedup, List.mem_flatMap]
  have hidx : ∀ v, v ∈ vs → ∃ k : Fin (vs.length), vs.idxOf? v = some k.val := by
    intro v hv
    obtain ⟨n, hn, hnv⟩ := List.getElem_of_mem hv
    exact ⟨⟨n, hn⟩, idxOf?_of hnd (by rw [List.getElem?_eq_getElem hn, hnv])⟩
  have hpos : vs.length = (vs.length - 1) + 1 := by
    have : (r (ν 0)) ∈ vs := (hmem _).2 (hrem 0)
    have := List.length_pos_of_mem this
    omega
  have hidx' : ∀ v, v ∈ vs → ∃ k : Fin ((vs.length - 1) + 1), vs.idxOf? v = some k.val := by
    intro v hv
    obtain ⟨k, hk⟩ := hidx v hv
    exact ⟨Fin.cast hpos k, hk⟩
  have h1 : ∀ i : Fin L.length, ∃ k : Fin ((vs.length - 1) + 1), vs.idxOf? L[i].2.1 = some k.val := fun i =>
    hidx' _ ((hmem _).2 ⟨L[i], List.getElem_mem _, Or.inl rfl⟩)
  have h2 : ∀ i : Fin L.length, ∃ k : Fin ((vs.length - 1) + 1), vs.idxOf? L[i].2.2 = some k.val := fun i =>
    hidx' _ ((hmem _).2 ⟨L[i], List.getElem_mem _, Or.inr rfl⟩)
  have h3 : ∀ e : Fin E, ∃ k : Fin ((vs.length - 1) + 1), vs.idxOf? (r (ν (g.ext e))) = some k.val := fun e =>
    hidx' _ ((hmem _).2 (hrem _))
  choose f1 hf1 using h1
  choose f2 hf2 using h2
  choose f3 hf3 using h3
  refine ⟨vs.length - 1, L.length, fun i => L[i].1, ⟨fun i => (f1 i, f2 i), f3⟩, vs, ⟨hnd, hmem⟩, hpos, hlen, rfl, ?_, ?_, ?_⟩
  · simp [hext]
  · intro i
    exact ⟨_, _, List.getElem?_eq_getElem i.isLt, hf1 i, hf2 i⟩
  · intro e
    refine ⟨_, ?_, hf3 e⟩
    dsimp only
    rw [hext, List.map_ofFn, List.getElem?_ofFn, dif_pos e.isLt]
    rfl

end FromGraph
end SecDec
