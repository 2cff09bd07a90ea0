import Verif.Model.FormDef
import Verif.Proof.FormDef
/-
The names of the files of a package.
-/
namespace SecDec
namespace FormDef

/-- how one order is printed -/
def enc1 (k : ℤ) : List Char := ((toString k).toList).map fun c => if c = '-' then 'n' else c

theorem map_digs (k : ℕ) : (Func.digs k).map (fun c => if c = '-' then 'n' else c) = Func.digs k := by
  conv_rhs => rw [← List.map_id (Func.digs k)]
  refine List.map_congr_left fun c hc => ?_
  have := Func.digs_digit hc
  rw [if_neg (by rintro rfl; simp at this)]; rfl

theorem enc1_ofNat (k : ℕ) : enc1 (k : ℤ) = Func.digs k := by
  have : (toString (k : ℤ)).toList = Func.digs k := rfl
  rw [enc1, this, map_digs]

theorem enc1_negSucc (k : ℕ) : enc1 (Int.negSucc k) = 'n' :: Func.digs (k + 1) := by
  have : (toString (Int.negSucc k)).toList = '-' :: Func.digs (k + 1) := by
    show ("-" ++ Nat.repr (k + 1)).toList = _
    rw [String.toList_append]; rfl
  rw [enc1, this, List.map_cons, map_digs]; simp

theorem enc1_inj {a b : ℤ} (h : enc1 a = enc1 b) : a = b := by
  have hn : ∀ k l, Func.digs k ≠ 'n' :: Func.digs l := by
    intro k l h
    have := Func.digs_digit (k := k) (c := 'n') (by rw [h]; simp)
    simp at this
  cases a with
  | ofNat a =>
    cases b with
    | ofNat b => rw [Int.ofNat_eq_natCast, Int.ofNat_eq_natCast, enc1_ofNat, enc1_ofNat] at h; rw [Func.digs_inj h]
    | negSucc b => rw [Int.ofNat_eq_natCast, enc1_ofNat, enc1_negSucc] at h; exact absurd h (hn _ _)
  | negSucc a =>
    cases b with
    | ofNat b => rw [Int.ofNat_eq_natCast, enc1_ofNat, enc1_negSucc] at h; exact absurd h.symm (hn _ _)
    | negSucc b =>
      rw [enc1_negSucc, enc1_negSucc] at h
      have := Func.digs_inj (List.cons.inj h).2
      rw [show a = b by omega]

theorem enc1_no {k : ℤ} {c : Char} (h : c ∈ enc1 k) : c ≠ '_' ∧ c ≠ '.' := by
  cases k with
  | ofNat k =>
    rw [Int.ofNat_eq_natCast, enc1_ofNat] at h
    have := Func.digs_digit h
    constructor <;> (rintro rfl; simp at this)
  | negSucc k =>
    rw [enc1_negSucc] at h
    rcases List.mem_cons.1 h with rfl | h
    · decide
    · have := Func.digs_digit h
      constructor <;> (rintro rfl; simp at this)

theorem enc1_ne_nil (k : ℤ) : enc1 k ≠ [] := by
  cases k with
  | ofNat k => rw [Int.ofNat_eq_natCast, enc1_ofNat]; exact Func.digs_ne_nil k
  | negSucc k => rw [enc1_negSucc]; simp

/-- the orders joined by `_` -/
def joined : List ℤ → List Char
  | [] => []
  | [a] => enc1 a
  | a :: b :: l => enc1 a ++ '_' :: joined (b :: l)

theorem orderName_eq : ∀ l : List ℤ, orderName l = joined l
  | [] => rfl
  | [a] => by simp [orderName, joined, enc1, List.intercalate]
  | a :: b :: l => by
    have ih := orderName_eq (b :: l)
    rw [joined, ← ih]
    simp only [orderName, List.map_cons, List.intercalate, enc1]
    simp [List.intersperse]

theorem break_at {u v r s : List Char} {d : Char} (hu : ∀ c ∈ u, c ≠ d) (hv : ∀ c ∈ v, c ≠ d) (h : u ++ d :: r = v ++ d :: s) :
    u = v ∧ r = s := by
  induction u generalizing v with
  | nil =>
    cases v with
    | nil => exact ⟨rfl, (List.cons.inj h).2⟩
    | cons c v => exact absurd (List.cons.inj h).1.symm (hv c (by simp))
  | cons a u ih =>
    cases v with
    | nil => exact absurd (List.cons.inj h).1 (hu a (by simp))
    | cons c v =>
      obtain ⟨h1, h2⟩ := List.cons.inj h
      obtain ⟨h3, h4⟩ := ih (fun c hc => hu c (by simp [hc])) (fun c hc => hv c (by simp [hc])) h2
      exact ⟨by rw [h1, h3], h4⟩

theorem joined_ne_nil (a : ℤ) (l : List ℤ) : joined (a :: l) ≠ [] := by
  cases l with
  | nil => exact enc1_ne_nil a
  | cons b l => rw [joined]; simp

theorem joined_inj : ∀ {l m : List ℤ}, joined l = joined m → l = m
  | [], [], _ => rfl
  | [], b :: m, h => absurd h.symm (joined_ne_nil b m)
  | a :: l, [], h => absurd h (joined_ne_nil a l)
  | [a], [b], h => by rw [enc1_inj h]
  | [a], b :: c :: m, h => by
    have : '_' ∈ enc1 a := by
      have h' : enc1 a = enc1 b ++ '_' :: joined (c :: m) := h
      rw [h']; simp
    exact absurd rfl (enc1_no this).1
  | a :: c :: l, [b], h => by
    have : '_' ∈ enc1 b := by
      have h' : enc1 a ++ '_' :: joined (c :: l) = enc1 b := h
      rw [← h']; simp
    exact absurd rfl (enc1_no this).1
  | a :: c :: l, b :: d :: m, h => by
    have h' : enc1 a ++ '_' :: joined (c :: l) = enc1 b ++ '_' :: joined (d :: m) := h
    obtain ⟨h1, h2⟩ := break_at (fun c hc => (enc1_no hc).1) (fun c hc => (enc1_no hc).1) h'
    rw [enc1_inj h1, joined_inj h2]

theorem joined_no : ∀ {l : List ℤ} {c : Char}, c ∈ joined l → c ≠ '.'
  | [], c, h => by simp [joined] at h
  | [a], c, h => (enc1_no h).2
  | a :: b :: l, c, h => by
    rw [joined] at h
    rcases List.mem_append.1 h with h | h
    · exact (enc1_no h).2
    · rcases List.mem_cons.1 h with rfl | h
      · decide
      · exact joined_no h

theorem sectorFile_inj {s t : ℕ} {o p : List ℤ} (h : sectorFile s o = sectorFile t p) : s = t ∧ o = p := by
  unfold sectorFile at h
  rw [orderName_eq, orderName_eq] at h
  simp only [List.append_assoc] at h
  have h' : Func.digs s ++ '_' :: joined o = Func.digs t ++ '_' :: joined p := List.append_cancel_left h
  have hd : ∀ k, ∀ c ∈ Func.digs k, c ≠ '_' := by
    intro k c hc
    have := Func.digs_digit hc
    rintro rfl; simp at this
  obtain ⟨h1, h2⟩ := break_at (hd s) (hd t) h'
  exact ⟨Func.digs_inj h1, joined_inj h2⟩

theorem sectorFile_no {s : ℕ} {o : List ℤ} {c : Char} (h : c ∈ sectorFile s o) : c ≠ '.' := by
  unfold sectorFile at h
  rw [orderName_eq] at h
  simp only [List.mem_append] at h
  rcases h with ((h | h) | h) | h
  · rintro rfl; revert h; decide
  · have := Func.digs_digit (k := s) h
    rintro rfl; simp at this
  · simp only [List.mem_singleton] at h; subst h; decide
  · exact joined_no h

theorem file_inj {pre ext : Name} {s t : ℕ} {o p : List ℤ} (h : pre ++ sectorFile s o ++ ext = pre ++ sectorFile t p ++ ext) :
    s = t ∧ o = p := by
  have := List.append_cancel_right h
  exact sectorFile_inj (List.append_cancel_left this)

theorem differ {u v : List Char} (k : ℕ) (h : u[k]? ≠ v[k]?) : u ≠ v := by rintro rfl; exact h rfl

theorem nodup_map_file (pre ext : Name) (s : ℕ) {os : List (List ℤ)} (h : os.Nodup) :
    (os.map fun o => pre ++ sectorFile s o ++ ext).Nodup :=
  h.map fun _ _ e => (file_inj e).2

theorem main_ne (s t : ℕ) (o : List ℤ) :
    "src/sector_".toList ++ (toString s).toList ++ ".cpp".toList ≠ "src/".toList ++ sectorFile t o ++ ".cpp".toList := by
  intro h
  unfold sectorFile at h
  simp only [List.append_assoc] at h
  have h' : Func.digs s ++ '.' :: "cpp".toList = Func.digs t ++ '_' :: (orderName o ++ ".cpp".toList) :=
    List.append_cancel_left (as := "src/sector_".toList) h
  have hd : ∀ k, ∀ c ∈ Func.digs k, c ≠ '_' ∧ c ≠ '.' := by
    intro k c hc
    have := Func.digs_digit hc
    constructor <;> (rintro rfl; simp at this)
  have hu : ∀ (u v : List Char), (∀ c ∈ u, c ≠ '_' ∧ c ≠ '.') → (∀ c ∈ v, c ≠ '_' ∧ c ≠ '.') → ∀ r r',
      u ++ '.' :: r ≠ v ++ '_' :: r' := by
    intro u
    induction u with
    | nil =>
      intro v _ hv r r' h
      cases v with
      | nil => exact absurd (List.cons.inj h).1 (by decide)
      | cons c v => exact (hv c (by simp)).2 (List.cons.inj h).1.symm
    | cons a u ih =>
      intro v hu hv r r' h
      cases v with
      | nil => exact (hu a (by simp)).1 (List.cons.inj h).1
      | cons c v =>
        exact ih v (fun c hc => hu c (by simp [hc])) (fun c hc => hv c (by simp [hc])) _ _ (List.cons.inj h).2
  exact hu _ _ (hd s) (hd t) _ _ h'

theorem cppFiles_mem {d : Bool} {s : ℕ} {os : List (List ℤ)} {f : Name} (h : f ∈ cppFiles d s os) :
    f = "src/sector_".toList ++ (toString s).toList ++ ".cpp".toList ∨
    ∃ o ∈ os, f = "src/".toList ++ sectorFile s o ++ ".cpp".toList ∨
      f = "src/contour_deformation_".toList ++ sectorFile s o ++ ".cpp".toList ∨
      f = "src/optimize_deformation_parameters_".toList ++ sectorFile s o ++ ".cpp".toList := by
  unfold cppFiles at h
  rcases List.mem_cons.1 h with h | h
  · exact Or.inl h
  · right
    rcases List.mem_append.1 h with h | h
    · obtain ⟨o, ho, rfl⟩ := List.mem_map.1 h
      exact ⟨o, ho, Or.inl rfl⟩
    · cases d with
      | false => simp at h
      | true =>
        rw [if_pos rfl] at h
        rcases List.mem_append.1 h with h | h
        · obtain ⟨o, ho, rfl⟩ := List.mem_map.1 h
          exact ⟨o, ho, Or.inr (Or.inl rfl)⟩
        · obtain ⟨o, ho, rfl⟩ := List.mem_map.1 h
          exact ⟨o, ho, Or.inr (Or.inr rfl)⟩

theorem main_inj {s t : ℕ} (h : "src/sector_".toList ++ (toString s).toList ++ ".cpp".toList =
    "src/sector_".toList ++ (toString t).toList ++ ".cpp".toList) : s = t :=
  Func.digs_inj (List.append_cancel_left (List.append_cancel_right h))

/-- the character which tells the kinds of files apart -/
theorem fourth (r : List Char) :
    ("src/sector_".toList ++ r)[4]? = some 's' ∧ ("src/contour_deformation_".toList ++ r)[4]? = some 'c' ∧
    ("src/optimize_deformation_parameters_".toList ++ r)[4]? = some 'o' := ⟨rfl, rfl, rfl⟩

theorem plain_eq (s : ℕ) (o : List ℤ) : "src/".toList ++ sectorFile s o ++ ".cpp".toList =
    "src/sector_".toList ++ ((toString s).toList ++ ['_'] ++ orderName o ++ ".cpp".toList) := by
  unfold sectorFile
  simp only [List.append_assoc]
  rfl

theorem kinds (s t u : ℕ) (o p q : List ℤ) :
    "src/".toList ++ sectorFile s o ++ ".cpp".toList ≠ "src/contour_deformation_".toList ++ sectorFile t p ++ ".cpp".toList ∧
    "src/".toList ++ sectorFile s o ++ ".cpp".toList ≠ "src/optimize_deformation_parameters_".toList ++ sectorFile u q ++ ".cpp".toList ∧
    "src/contour_deformation_".toList ++ sectorFile t p ++ ".cpp".toList ≠
      "src/optimize_deformation_parameters_".toList ++ sectorFile u q ++ ".cpp".toList ∧
    "src/sector_".toList ++ (toString s).toList ++ ".cpp".toList ≠ "src/contour_deformation_".toList ++ sectorFile t p ++ ".cpp".toList ∧
    "src/sector_".toList ++ (toString s).toList ++ ".cpp".toList ≠
      "src/optimize_deformation_parameters_".toList ++ sectorFile u q ++ ".cpp".toList := by
  rw [plain_eq]
  simp only [List.append_assoc]
  refine ⟨differ 4 ?_, differ 4 ?_, differ 4 ?_, differ 4 ?_, differ 4 ?_⟩ <;>
    simp only [(fourth _).1, (fourth _).2.1, (fourth _).2.2] <;> decide

theorem cppFiles_nodup (d : Bool) (s : ℕ) {os : List (List ℤ)} (h : os.Nodup) : (cppFiles d s os).Nodup := by
  unfold cppFiles
  rw [List.nodup_cons]
  constructor
  · intro hm
    rcases List.mem_append.1 hm with hm | hm
    · obtain ⟨o, _, he⟩ := List.mem_map.1 hm
      exact main_ne s s o he.symm
    · cases d with
      | false => simp at hm
      | true =>
        rw [if_pos rfl] at hm
        rcases List.mem_append.1 hm with hm | hm
        · obtain ⟨o, _, he⟩ := List.mem_map.1 hm
          exact (kinds s s s o o o).2.2.2.1 he.symm
        · obtain ⟨o, _, he⟩ := List.mem_map.1 hm
          exact (kinds s s s o o o).2.2.2.2 he.symm
  · refine List.nodup_append.2 ⟨nodup_map_file _ _ s h, ?_, ?_⟩
    · cases d with
      | false => simp
      | true =>
        rw [if_pos rfl]
        refine List.nodup_append.2 ⟨nodup_map_file _ _ s h, nodup_map_file _ _ s h, ?_⟩
        intro a ha b hb
        obtain ⟨o, _, rfl⟩ := List.mem_map.1 ha
        obtain ⟨p, _, rfl⟩ := List.mem_map.1 hb
        exact (kinds s s s o o p).2.2.1
    · intro a ha b hb
      obtain ⟨o, _, rfl⟩ := List.mem_map.1 ha
      cases d with
      | false => simp at hb
      | true =>
        rw [if_pos rfl] at hb
        rcases List.mem_append.1 hb with hb | hb
        · obtain ⟨p, _, rfl⟩ := List.mem_map.1 hb
          exact (kinds s s s o p p).1
        · obtain ⟨p, _, rfl⟩ := List.mem_map.1 hb
          exact (kinds s s s o p p).2.1

theorem cppFiles_disjoint (d : Bool) {s t : ℕ} (hst : s ≠ t) (os ps : List (List ℤ)) : (cppFiles d s os).Disjoint (cppFiles d t ps) := by
  intro f h1 h2
  rcases cppFiles_mem h1 with rfl | ⟨o, _, rfl | rfl | rfl⟩ <;> rcases cppFiles_mem h2 with e | ⟨p, _, e | e | e⟩
  · exact hst (main_inj e)
  · exact main_ne _ _ _ e
  · exact (kinds s t t p p p).2.2.2.1 e
  · exact (kinds s t t p p p).2.2.2.2 e
  · exact main_ne _ _ _ e.symm
  · exact hst (file_inj e).1
  · exact (kinds s t t o p p).1 e
  · exact (kinds s t t o p p).2.1 e
  · exact (kinds t s s o o o).2.2.2.1 e.symm
  · exact (kinds t s s p o o).1 e.symm
  · exact hst (file_inj e).1
  · exact (kinds s s t o o p).2.2.1 e
  · exact (kinds t s s o o o).2.2.2.2 e.symm
  · exact (kinds t s s p o o).2.1 e.symm
  · exact (kinds s t s o p o).2.2.1 e.symm
  · exact hst (file_inj e).1

theorem ext_ne (s t : ℕ) (o p : List ℤ) :
    "distsrc/".toList ++ sectorFile s o ++ ".cpp".toList ≠ "distsrc/".toList ++ sectorFile t p ++ ".cu".toList := by
  intro h
  have := congrArg List.getLast? h
  rw [List.getLast?_append, List.getLast?_append (l := "distsrc/".toList ++ sectorFile t p)] at this
  have h' : some 'p' = some 'u' := this
  exact absurd h' (by decide)

theorem distFiles_nodup (s : ℕ) {os : List (List ℤ)} (h : os.Nodup) : (distFiles s os).Nodup := by
  unfold distFiles
  refine List.nodup_append.2 ⟨nodup_map_file _ _ s h, nodup_map_file _ _ s h, ?_⟩
  intro a ha b hb
  obtain ⟨o, _, rfl⟩ := List.mem_map.1 ha
  obtain ⟨p, _, rfl⟩ := List.mem_map.1 hb
  exact ext_ne _ _ _ _

theorem distFiles_disjoint {s t : ℕ} (hst : s ≠ t) (os ps : List (List ℤ)) : (distFiles s os).Disjoint (distFiles t ps) := by
  intro f h1 h2
  unfold distFiles at h1 h2
  rcases List.mem_append.1 h1 with h1 | h1 <;> rcases List.mem_append.1 h2 with h2 | h2 <;>
    obtain ⟨o, _, rfl⟩ := List.mem_map.1 h1 <;> obtain ⟨p, _, e⟩ := List.mem_map.1 h2
  · exact hst (file_inj e).1.symm
  · exact ext_ne _ _ _ _ e.symm
  · exact ext_ne _ _ _ _ e
  · exact hst (file_inj e).1.symm

theorem part_prefix (a : Name) (i : ℕ) : "SecDecInternalfDUMMY".toList <+: part a i := by
  unfold part nextLevel
  rw [List.append_assoc, List.append_assoc]
  exact ⟨_, rfl⟩

theorem nm_disjoint {a b : Name} (ha : ¬ "SecDecInternalfDUMMY".toList <+: a) (hb : ¬ "SecDecInternalfDUMMY".toList <+: b) (hab : a ≠ b) :
    ∀ p q : List ℕ, nm a p ≠ nm b q := by
  intro p
  induction p using List.reverseRecOn with
  | nil =>
    intro q h
    rcases List.eq_nil_or_concat' q with rfl | ⟨q, i, rfl⟩
    · exact hab h
    · rw [nm_snoc] at h
      refine ha ?_
      have h : a = part (nm b q) i := h
      exact h ▸ part_prefix _ _
  | append_singleton p j ih =>
    intro q h
    rcases List.eq_nil_or_concat' q with rfl | ⟨q, i, rfl⟩
    · rw [nm_snoc] at h
      refine hb ?_
      have h : part (nm a p) j = b := h
      exact h ▸ part_prefix _ _
    · rw [nm_snoc, nm_snoc] at h
      exact ih q (part_inj h).1

end FormDef
end SecDec
