import Verif.Proof.FormDefTotal
import Verif.Proof.FormFiles
/-
C47: splitting of long expressions into FORM definitions, and the names of the files of the sectors.
-/
namespace SecDec
namespace FormDef
open Expr (Stops)
variable {n : Nat} {F : Type} [CommRing F] [DecidableEq F]

/-- C47: whatever the expression, the limit and the way expressions are printed: if FORM substitutes the written definitions one
after the other, the function has the value of the expression; and this does not depend on anything which is not in the
definitions (`env` is arbitrary). (`limit` is at least the length of an empty product, `1`.) -/
theorem C47_value_preserved (len : Expr n F → ℕ) (limit : ℕ) (hlimit : len (.prod []) ≤ limit) (fuel : ℕ) (name : Name) (e : Expr n F)
    (ls : List (Line n F)) (h : split len limit fuel name e = .ok ls) (φ : F →+* ℂ) (x : Fin n → ℂ) (env : Name → ℂ) :
    substituted φ x env ls name = Expr.eval φ x e :=
  (split_good hlimit fuel name e ls h).value φ x env

/-- C47: no name is defined twice, and every name which is used is defined in a later line, so that nothing remains
unsubstituted. -/
theorem C47_names (len : Expr n F → ℕ) (limit : ℕ) (hlimit : len (.prod []) ≤ limit) (fuel : ℕ) (name : Name) (e : Expr n F)
    (ls : List (Line n F)) (h : split len limit fuel name e = .ok ls) :
    name ∈ ls.map Line.name ∧ (ls.map Line.name).Nodup ∧ Resolved ls :=
  have g := split_good hlimit fuel name e ls h
  ⟨g.first, g.nodup, g.resolved⟩

/-- C47: every printed expression is short, except those of a type which cannot be split. -/
theorem C47_lines_short (len : Expr n F → ℕ) (limit : ℕ) (hlimit : len (.prod []) ≤ limit) (fuel : ℕ) (name : Name) (e : Expr n F)
    (ls : List (Line n F)) (h : split len limit fuel name e = .ok ls) (l : Line n F) (hl : l ∈ ls) (e' : Expr n F)
    (he : l.rhs = .whole e') : len e' ≤ limit ∨ ¬ Splittable e' :=
  (split_good hlimit fuel name e ls h).short l hl e' he

/-- C47: the definitions of two functions do not interfere: if the names are different and do not begin with the internal
prefix, no name is defined in both. -/
theorem C47_functions_disjoint (len : Expr n F → ℕ) (limit : ℕ) (hlimit : len (.prod []) ≤ limit) (fuel fuel' : ℕ) (a b : Name)
    (ha : ¬ "SecDecInternalfDUMMY".toList <+: a) (hb : ¬ "SecDecInternalfDUMMY".toList <+: b) (hab : a ≠ b) (e e' : Expr n F)
    (ls ls' : List (Line n F)) (h : split len limit fuel a e = .ok ls) (h' : split len limit fuel' b e' = .ok ls') :
    (ls.map Line.name).Disjoint (ls'.map Line.name) := by
  intro m hm hm'
  obtain ⟨l, hl, rfl⟩ := List.mem_map.1 hm
  obtain ⟨l', hl', he⟩ := List.mem_map.1 hm'
  obtain ⟨p, hp⟩ := (split_good hlimit fuel a e ls h).under l hl
  obtain ⟨q, hq⟩ := (split_good hlimit fuel' b e' ls' h').under l' hl'
  rw [hp, hq] at he
  exact nm_disjoint ha hb hab p q he.symm

/-- C47: the splitting always ends, for every way of printing and every limit (also a limit which cannot be met). -/
theorem C47_terminates (len : Expr n F → ℕ) (limit : ℕ) (name : Name) (e : Expr n F) :
    ∃ r, Stops Err.outOfFuel (fun fuel => split len limit fuel name e) r :=
  let ⟨r, h, _⟩ := (split_ev len limit _ e le_rfl name).stops
  ⟨r, h⟩

/-- C47: if every single term with a plain number as coefficient fits on a line, the definitions are written. -/
theorem C47_succeeds (len : Expr n F → ℕ) (limit : ℕ) (name : Name) (e : Expr n F) (h : Printable len limit e) :
    ∃ ls, Stops Err.outOfFuel (fun fuel => split len limit fuel name e) (.ok ls) := by
  obtain ⟨r, hr⟩ := C47_terminates len limit name e
  cases r with
  | ok ls => exact ⟨ls, hr⟩
  | error er =>
    by_cases ha : er = .attribute
    · subst ha
      obtain ⟨_, N, hN⟩ := hr
      exact absurd (hN N le_rfl) (split_attr N name e h)
    · refine absurd ?_ hr.1
      cases er
      · exact absurd rfl ha
      · rfl

omit [DecidableEq F] in
/-- C47, defect: a polynomial with a single term whose coefficient is a plain number, printed longer than the limit, makes the
code raise an `AttributeError` instead. -/
theorem C47_single_term_raises (len : Expr n F → ℕ) (limit : ℕ) (name : Name) (t : Expo n) (c : F)
    (hlong : limit < len (.poly [(t, .num c)])) :
    Stops Err.outOfFuel (fun fuel => split len limit fuel name (.poly [(t, .num c)])) (.error .attribute) := by
  refine ⟨by simp, 2, fun fuel hf => ?_⟩
  obtain ⟨k, rfl⟩ : ∃ k, fuel = k + 2 := ⟨fuel - 2, by omega⟩
  simp only [split, if_neg (by omega : ¬ len (.poly [(t, .num c)]) ≤ limit)]
  rfl

/-- a way of printing: a polynomial takes one character per term, a sum ten characters, everything else one -/
def sampleLen : Expr 1 ℚ → ℕ
  | .poly ts => ts.length
  | .sum _ => 10
  | _ => 1

/-- (1 + x + x²) + exp(x) -/
def sampleSum : Expr 1 ℚ :=
  .sum [.poly [((fun _ => 0), .num 1), ((fun _ => 1), .num 1), ((fun _ => 2), .num 1)], .exp (.poly [((fun _ => 1), .num 1)])]

/-- The sum is split, and its first summand again into three pieces: six lines. -/
example : (match split sampleLen 2 5 "f".toList sampleSum with | .ok ls => ls.length | .error _ => 0) = 6 := rfl

example : Printable sampleLen 2 sampleSum :=
  .sum _ fun e he => by
    simp only [List.mem_cons, List.not_mem_nil, or_false] at he
    rcases he with rfl | rfl
    · refine .poly _ (fun t _ c _ => by simp [sampleLen]) (fun t ht hc => ?_)
      simp only [List.mem_cons, List.not_mem_nil, or_false] at ht
      rcases ht with rfl | rfl | rfl <;> exact absurd rfl (hc _)
    · exact .exp _

example : sampleLen (.prod []) ≤ 2 := by decide

/-- C47: the names of the source files of a package are pairwise different, if no sector index and no order of a sector occurs
twice: no file overwrites another. -/
theorem C47_files_distinct (contourDeformation : Bool) (sectors : List (ℕ × List (List ℤ))) (hs : (sectors.map Prod.fst).Nodup)
    (ho : ∀ s ∈ sectors, s.2.Nodup) :
    (sectors.flatMap (fun s => cppFiles contourDeformation s.1 s.2)).Nodup ∧ (sectors.flatMap (fun s => distFiles s.1 s.2)).Nodup := by
  have hp : sectors.Pairwise (fun a b => a.1 ≠ b.1) := List.pairwise_map.1 hs
  constructor
  · exact List.nodup_flatMap.2 ⟨fun s h => cppFiles_nodup _ _ (ho s h), hp.imp fun h => cppFiles_disjoint _ h _ _⟩
  · exact List.nodup_flatMap.2 ⟨fun s h => distFiles_nodup _ (ho s h), hp.imp fun h => distFiles_disjoint h _ _⟩

example : cppFiles true 3 [[-1, 0], [0, -1]] = ["src/sector_3.cpp".toList, "src/sector_3_n1_0.cpp".toList, "src/sector_3_0_n1.cpp".toList,
    "src/contour_deformation_sector_3_n1_0.cpp".toList, "src/contour_deformation_sector_3_0_n1.cpp".toList,
    "src/optimize_deformation_parameters_sector_3_n1_0.cpp".toList, "src/optimize_deformation_parameters_sector_3_0_n1.cpp".toList] := by
  decide +kernel

end FormDef
end SecDec
