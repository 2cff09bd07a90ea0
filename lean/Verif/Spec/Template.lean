import Verif.Model.Template
/-
What names and templates are, independent of the code that checks and parses them.
-/
namespace SecDec
namespace Template

/-- The letters of the ASCII alphabet. -/
def IsLetter (c : Char) : Prop := ('A' ≤ c ∧ c ≤ 'Z') ∨ ('a' ≤ c ∧ c ≤ 'z')
/-- The decimal digits. -/
def IsDigit (c : Char) : Prop := '0' ≤ c ∧ c ≤ '9'

/-- Identifiers of C++ and FORM that start with a letter; FORM does not allow underscores. -/
def Identifier (allowUnderscore : Bool) : Str → Prop
  | [] => False
  | c :: cs => IsLetter c ∧ ∀ d ∈ cs, IsLetter d ∨ IsDigit d ∨ (allowUnderscore = true ∧ d = '_')

/-- A string begins with another one, up to capitalisation. -/
def BeginsWith (s b : Str) : Prop := ∃ t, lower s = lower b ++ t

/-- The parts of a template: text without percent signs, an escaped percent sign, the instructions
`%(key)s`, and `%(key)i` or `%(key)d`. -/
inductive Seg
  | lit : Str → Seg
  | percent : Seg
  | str : Str → Seg
  | num : Str → Char → Seg

/-- How a part is written in the template file. -/
def Seg.source : Seg → Str
  | .lit s => s
  | .percent => ['%', '%']
  | .str k => ['%', '('] ++ k ++ [')', 's']
  | .num k c => ['%', '('] ++ k ++ [')', c]

/-- The template file. -/
def source (t : List Seg) : Str := (t.map Seg.source).flatten

/-- The text of a value: the texts in nested lists are joined. -/
def Value.render : Value → Str
  | .text s => s
  | .int z => intStr z
  | .list l => (l.attach.map (fun v => v.1.render)).flatten
termination_by v => sizeOf v
decreasing_by
  have := List.sizeOf_lt_of_mem v.2
  simp
  omega

/-- What a part is replaced by; `none`: no such key, or not an integer. -/
def Seg.result (repl : Str → Option Value) : Seg → Option Str
  | .lit s => some s
  | .percent => some ['%']
  | .str k => (repl k).map Value.render
  | .num k _ => (repl k).bind (fun v => match v with | .int z => some (intStr z) | _ => none)

/-- The parsed template. -/
def result (repl : Str → Option Value) (t : List Seg) : Option Str := (t.mapM (Seg.result repl)).map List.flatten

/-- The parts are what they should be. -/
def Seg.WF : Seg → Prop
  | .lit s => '%' ∉ s
  | .percent => True
  | .str k => ')' ∉ k
  | .num k c => '(' ∉ k ∧ ')' ∉ k ∧ (c = 'i' ∨ c = 'd')

/-- No escaped percent sign is directly followed by an opening parenthesis. -/
def NoEscapedInstruction : List Seg → Prop
  | [] => True
  | .percent :: t => (source t).head? ≠ some '(' ∧ NoEscapedInstruction t
  | _ :: t => NoEscapedInstruction t

/-- The directory `path ++ [name]` and everything below: directories and files are renamed, and
those whose name is mapped to `None` are left out with everything inside. -/
def copyTree (repl : Str → Option Value) (ren : Str → Option (Option Str)) (path : List Str) : Dir → Option (List DirOut)
  | .mk fs ds => do
    let files ← (fs.filterMap (fun f => (rename ren f.1).map (fun n => (n, f.2)))).mapM
      (fun f => (parse repl f.2).map (fun c => (f.1, c)))
    let subs ← ds.attach.mapM (fun d => match rename ren d.1.1 with
      | none => some []
      | some name => copyTree repl ren (path ++ [name]) d.1.2)
    some (⟨path, files⟩ :: subs.flatten)
termination_by d => sizeOf d
decreasing_by
  obtain ⟨⟨a, b⟩, h⟩ := d
  have := List.sizeOf_lt_of_mem h
  simp at this ⊢
  omega

end Template
end SecDec
