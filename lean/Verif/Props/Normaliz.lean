import Verif.Proof.Normaliz
/-
C65: the files exchanged with `normaliz`.
-/
namespace SecDec
namespace Normaliz
open SeriesText

/-- C65: whatever white space numpy uses to align the columns and to break long rows, the words of the run card are the dimension, the keyword, the number of rows and
all entries, row by row. -/
theorem C65_run_card {sep : Nat → Nat → Str} (h : Layout sep) (data : Mat) {keyword : Str} (hk : keyword ≠ [] ∧ ∀ c ∈ keyword, c.isWhitespace = false) (dimension : Nat) :
    words (runcard sep data keyword dimension) =
      ["amb_space".toList, dec dimension, keyword, dec data.length] ++ data.flatten.map dec := by
  have h0 : Token "amb_space".toList := ⟨by decide, by decide⟩
  have e : runcard sep data keyword dimension = "amb_space".toList ++ ([' '] ++ (dec dimension ++ (['\n'] ++ (keyword ++ ([' '] ++ (dec data.length ++ (['\n'] ++
      plainText sep data))))))) := by
    unfold runcard
    have : "amb_space ".toList = "amb_space".toList ++ [' '] := by decide
    rw [this]
    simp only [List.append_assoc]
  have sp : ∀ r : Str, Stops ([' '] ++ r) := fun r => stops_cons (by decide) r
  have nl : ∀ r : Str, Stops (['\n'] ++ r) := fun r => stops_cons (by decide) r
  rw [e, words_token h0 (sp _), words_blank (by decide), words_token (dec_token _) (nl _), words_blank (by decide), words_token hk (sp _), words_blank (by decide),
    words_token (dec_token _) (nl _), words_blank (by decide), words_plain h]
  rfl

/-- C65: reading a file with some arrays returns these arrays. -/
theorem C65_read_file (bs : List Block) (h : ∀ b ∈ bs, b.Good) (rest : Str) :
    readFile (bs.flatMap Block.text ++ rest) bs.length = some (bs.map (·.rows)) := readOutputs_blocks bs h rest

/-- One array. -/
theorem read_one {b : Block} (h : b.Good) (rest : Str) : readFile (b.text ++ rest) = some [b.rows] := by
  have := C65_read_file [b] (by simpa using h) rest
  simpa using this

/-- C65: `triangulate` returns the simplicial cones.  `normaliz` answers the run card with the rays (`.tgn`) and a table (`.tri`), whose rows are the numbers of the rays of
a simplicial cone, counted from one, and a determinant. -/
theorem C65_triangulate {sep : Nat → Nat → Str} {normaliz : Str → Str × Str} {cols : Nat} {cone : Mat} {switch : Bool} (hlen : cols < cone.length ∨ cols = cone.length ∧ switch = true)
    {rays table : Block} (hr : rays.Good) (ht : table.Good) (hne : rays.rows ≠ []) {r1 r2 : Str}
    (hn : normaliz (runcard sep cone (if switch then "inequalities".toList else "cone".toList) cols) = (rays.text ++ r1, table.text ++ r2))
    (cones : List (List (Fin rays.rows.length))) (det : List (Fin rays.rows.length) → Int)
    (htab : table.rows = cones.map fun c => (c.map fun k => ((k.val : Int) + 1)) ++ [det c]) :
    triangulate sep normaliz cols cone switch = some (cones.map fun c => c.map fun k => rays.rows.get k) := by
  unfold triangulate
  rw [if_neg (by omega), if_neg (by rintro ⟨h1, h2⟩; rcases hlen with h | ⟨-, h⟩; omega; rw [h] at h2; cases h2)]
  simp only [hn]
  rw [read_one hr, Option.bind_some]
  simp only
  rw [if_neg hne, read_one ht, Option.bind_some]
  simp only
  rw [htab]
  clear htab ht hn
  induction cones with
  | nil => rfl
  | cons c cs ih =>
    rw [List.map_cons, List.mapM_cons, ih, List.dropLast_concat]
    have : ((c.map fun k => ((k.val : Int) + 1)).mapM fun k => pyGet rays.rows (k - 1)) = some (c.map fun k => rays.rows.get k) := by
      clear ih
      induction c with
      | nil => rfl
      | cons k c ih =>
        rw [List.map_cons, List.mapM_cons, ih]
        have hk : pyGet rays.rows ((k.val : Int) + 1 - 1) = some (rays.rows.get k) := by
          unfold pyGet
          rw [if_pos (by omega)]
          have : ((k.val : Int) + 1 - 1).toNat = k.val := by omega
          rw [this]
          simp
        rw [hk]; rfl
    rw [this]; rfl

/-- C65: `triangulate` refuses a cone with fewer rays than dimensions and, unless the representation is switched, one which is simplicial already. -/
theorem C65_triangulate_refuses (sep : Nat → Nat → Str) (normaliz : Str → Str × Str) (cols : Nat) (cone : Mat) (switch : Bool)
    (h : cone.length < cols ∨ cone.length = cols ∧ switch = false) : triangulate sep normaliz cols cone switch = none := by
  unfold triangulate
  by_cases h1 : cone.length < cols
  · rw [if_pos h1]
  · rw [if_neg h1, if_pos (h.resolve_left h1)]

/-- C65: `complete_representation` of a polytope with integer vertices: the vertices, facets and equations which `normaliz` wrote. -/
theorem C65_complete_representation {sep : Nat → Nat → Str} {normaliz : Str → Str × Str} {vertices : Bool} {cols : Nat} {data : Mat} {ext cst equ : Block}
    (h1 : ext.Good) (h2 : cst.Good) (h3 : equ.Good) {r1 r2 : Str}
    (hn : normaliz (if vertices then runcard sep data "polytope".toList (cols + 1) else runcard sep data "inequalities".toList cols) =
      (ext.text ++ r1, cst.text ++ equ.text ++ r2))
    {vs : Mat} (hv : ext.rows = vs.map fun v => v ++ [1]) (hne : vs ≠ []) :
    completeRepresentation sep normaliz vertices cols data = some (vs, cst.rows, equ.rows) := by
  unfold completeRepresentation
  simp only [hn]
  have : readFile (cst.text ++ equ.text ++ r2) 2 = some [cst.rows, equ.rows] := by
    have := C65_read_file [cst, equ] (by intro b hb; simp only [List.mem_cons, List.not_mem_nil, or_false] at hb; rcases hb with rfl | rfl <;> assumption) r2
    simpa using this
  rw [read_one h1, Option.bind_some, this, Option.bind_some]
  simp only
  rw [if_neg (by rw [hv]; simpa using hne), hv, List.map_map]
  have : (List.dropLast ∘ fun v : List Int => v ++ [1]) = id := by funext v; simp
  rw [this, List.map_id]

/-- The answer of `normaliz` to the inequalities x ≥ 0, 1 - 2 x ≥ 0: the vertices 0/1 and 1/2. -/
def halfExt : Block := ⟨2, [[0, 1], [1, 2]], "vertices".toList, fun _ _ => 1⟩
/-- The facets. -/
def halfCst : Block := ⟨2, [[1, 0], [-2, 1]], "inequalities".toList, fun _ _ => 1⟩
/-- There are no equations. -/
def halfEqu : Block := ⟨2, [], "equations".toList, fun _ _ => 1⟩

theorem half_good : halfExt.Good ∧ halfCst.Good ∧ halfEqu.Good := by
  refine ⟨⟨by decide, fun _ _ _ => Nat.one_pos, by decide⟩, ⟨by decide, fun _ _ _ => Nat.one_pos, by decide⟩, ⟨by decide, fun _ _ _ => Nat.one_pos, by decide⟩⟩

/-- C65, a defect: the last column of the vertices, their common denominator, is discarded even if it is not one (`polytope.py:342-343`).  For the polytope
[0, 1/2], given by its facets, the vertices returned are 0 and 1, and 1 does not belong to the polytope. -/
theorem C65_rational_vertices_defect {sep : Nat → Nat → Str} {normaliz : Str → Str × Str}
    (hn : normaliz (runcard sep [[1, 0], [-2, 1]] "inequalities".toList 2) = (halfExt.text, halfCst.text ++ halfEqu.text)) :
    completeRepresentation sep normaliz false 2 [[1, 0], [-2, 1]] = some ([[0], [1]], [[1, 0], [-2, 1]], []) ∧ ¬ (0 : ℤ) ≤ -2 * 1 + 1 := by
  refine ⟨?_, by decide⟩
  unfold completeRepresentation
  simp only [hn, Bool.false_eq_true, if_false]
  have h1 : readFile (halfCst.text ++ halfEqu.text) 2 = some [halfCst.rows, halfEqu.rows] := by
    have := C65_read_file [halfCst, halfEqu] (by
      intro b hb
      simp only [List.mem_cons, List.not_mem_nil, or_false] at hb
      rcases hb with rfl | rfl
      · exact half_good.2.1
      · exact half_good.2.2) []
    simpa using this
  have h2 : readFile halfExt.text = some [halfExt.rows] := by
    have := read_one half_good.1 []
    simpa using this
  rw [h2, Option.bind_some, h1, Option.bind_some]
  rfl

/-! ### examples -/

/-- A cone with three rays in two dimensions. -/
def exRays : Block := ⟨2, [[0, 1], [1, -2], [1, 1]], "original_generators".toList, fun _ j => j⟩
/-- Its triangulation. -/
def exTable : Block := ⟨3, [[1, 3, 1], [3, 2, 3]], "nested".toList, fun _ _ => 1⟩

example (sep : Nat → Nat → Str) (cone : Mat) (hc : cone.length = 3) :
    triangulate sep (fun _ => (exRays.text, exTable.text)) 2 cone false = some [[[0, 1], [1, 1]], [[1, 1], [1, -2]]] := by
  refine C65_triangulate (rays := exRays) (table := exTable) (r1 := []) (r2 := []) (Or.inl (by omega)) ⟨by decide, fun _ j h => h, by decide⟩
    ⟨by decide, fun _ _ _ => Nat.one_pos, by decide⟩ (by decide) (by simp) [[⟨0, by decide⟩, ⟨2, by decide⟩], [⟨2, by decide⟩, ⟨1, by decide⟩]]
    (fun c => if c.map (·.val) = [0, 2] then 1 else 3) (by decide)

example : Layout fun _ j => if j = 0 then [] else if j = 17 then "\n  ".toList else "  ".toList := by
  intro i j
  dsimp only
  split_ifs
  · exact ⟨(fun c hc => by simp at hc), fun h => by omega⟩
  · exact ⟨by intro c hc; revert hc; revert c; decide, fun _ => by decide⟩
  · exact ⟨by intro c hc; revert hc; revert c; decide, fun _ => by decide⟩

example : ∃ b : Block, b.Good ∧ b.text = "2\n3\n 1 0 0\n 0 1 -2\nextreme_rays\n".toList :=
  ⟨⟨3, [[1, 0, 0], [0, 1, -2]], "extreme_rays".toList, fun _ _ => 1⟩, ⟨by decide, fun _ _ _ => Nat.one_pos, by decide⟩, by decide +kernel⟩

end Normaliz
end SecDec
