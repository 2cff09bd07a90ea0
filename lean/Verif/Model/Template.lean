import Mathlib.Data.List.Basic
/-
Model of `pySecDec/code_writer/template_parser.py` and of the name check in
`pySecDec/code_writer/make_package.py`.  Strings are lists of characters.
-/
namespace SecDec
namespace Template

abbrev Str := List Char

/-! ### `make_package.py:_validate` -/

/-- `[A-Z,a-z,_]`; the commas are members of the class. -/
def firstClass (c : Char) : Bool :=
  (decide ('A' ≤ c) && decide (c ≤ 'Z')) || c == ',' || (decide ('a' ≤ c) && decide (c ≤ 'z')) || c == '_'

/-- `[A-Z,a-z,0-9,_]` -/
def laterClass (c : Char) : Bool :=
  (decide ('A' ≤ c) && decide (c ≤ 'Z')) || c == ',' || (decide ('a' ≤ c) && decide (c ≤ 'z')) ||
    (decide ('0' ≤ c) && decide (c ≤ '9')) || c == '_'

/-- Python's `$` (without the flag `MULTILINE`): the end, or directly before a newline at the end. -/
def atEnd (s : Str) : Bool := s == [] || s == ['\n']

/-- `[A-Z,a-z,0-9,_]*$` matches at this position. -/
def matchLater : Str → Bool
  | [] => true
  | c :: cs => atEnd (c :: cs) || (laterClass c && matchLater cs)

/-- `make_package.py:127`: `match(r'^[A-Z,a-z,_]+[A-Z,a-z,0-9,_]*$', name)`.  `X+` is one character of the
class and then either more of them or the rest of the expression. -/
def matchName : Str → Bool
  | [] => false
  | c :: cs => firstClass c && (matchName cs || matchLater cs)

/-- `make_package.py:134-161` `banwords`, in the order of the source. -/
def banwords : List Str := [
  "std","alignas","alignof","and","and_eq","asm","atomic_cancel","atomic_commit",
  "atomic_noexcept","auto","bitand","bitor","bool","break","case","catch","char",
  "char16_t","char32_t","class","compl","concept","const","constexpr","const_cast",
  "continue","decltype","default","delete","do","double","dynamic_cast","else",
  "enum","explicit","export","extern","false","float","for","friend","goto","if",
  "import","inline","int","long","module","mutable","namespace","new","noexcept",
  "not","not_eq","nullptr","operator","or","or_eq","private","protected","public",
  "register","reinterpret_cast","requires","return","short","signed",
  "sizeof","static","static_assert","static_cast","struct","switch","synchronized",
  "template","this","thread_local","throw","true","try","typedef","typeid","typename",
  "union","unsigned","using","virtual","void","volatile","wchar_t","while","xor","xor_eq",
  "_Pragma",
  "auto","break","case","char","const","continue","default","do","double","else","enum",
  "extern","float","for","goto","if","inline","int","long","register","restrict","return",
  "short","signed","sizeof","static","struct","switch","typedef","union","unsigned","void",
  "volatile","while","_Alignas","_Alignof","_Atomic","_Bool","_Complex","_Generic",
  "_Imaginary","_Noreturn","_Static_assert","_Thread_local",
  "alignas","alignof","bool","complex","imaginary","noreturn","static_assert",
  "thread_local",
  "log","exp","real","imag","sqrt","I","i_",
  "cubareal","Vegas","llVegas","Suave","llSuave","Cuhre","llCuhre","Divonne","llDivonne",
  "integrand_t","peakfinder_t"].map String.toList

/-- `make_package.py:167` and `:45`: `banstarts`. -/
def banstarts : List Str := ["SecDecInternal", "cuba", "atomic", "_"].map String.toList

/-- `str.lower()`.  Simplification: ASCII (all characters are when this is reached). -/
def lower (s : Str) : Str := s.map Char.toLower

/-- `make_package.py:111-170` `_validate(name, allow_underscore)`; `false` = `NameError`. -/
def validate (name : Str) (allowUnderscore : Bool) : Bool :=
  if matchName name = false then false
  else if allowUnderscore = false ∧ '_' ∈ name then false
  else if name ∈ banwords then false
  else if banstarts.any (fun b => (lower b).isPrefixOf (lower name)) then false
  else true

/-! ### `validate_pylink_qmc_transforms` -/

def digits16 : List Str := ["1","2","3","4","5","6"].map String.toList

/-- `template_parser.py:27-32`; `str(i)` for `i in range(1,7)`. -/
def qmcOptions : List Str :=
  ["none".toList] ++ ["baker".toList] ++
    digits16.flatMap (fun i => digits16.map (fun j => "korobov".toList ++ i ++ ['x'] ++ j)) ++
    digits16.map (fun i => "sidi".toList ++ i)

/-- `template_parser.py:35` -/
def korobovSymmetric : List Str := digits16.map (fun i => "korobov".toList ++ i)

/-- `template_parser.py:36`: `x if x not in ... else 'korobov'+x[7:]+'x'+x[7:]` -/
def canonicalTransform (x : Str) : Str :=
  if x ∈ korobovSymmetric then "korobov".toList ++ x.drop 7 ++ ['x'] ++ x.drop 7 else x

/-- `template_parser.py:37-41` -/
def dedup (l : List Str) : List Str := l.foldl (fun acc i => if i ∈ acc then acc else acc ++ [i]) []

/-- `template_parser.py:10-48` `validate_pylink_qmc_transforms`; the argument `None` is the empty list.
`none` = `AssertionError`. -/
def validateTransforms (l : List Str) : Option (List Str) :=
  let l' := if l ≠ [] then dedup (l.map canonicalTransform) else ["korobov3x3".toList]
  if ∀ x ∈ l', x ∈ qmcOptions then some l' else none

/-! ### `parse_template_file` -/

/-- The values of the dictionary `replacements`: strings, integers and nested lists of them.
Simplification: no other types. -/
inductive Value
  | text : Str → Value
  | int : Int → Value
  | list : List Value → Value

/-- `str(z)` -/
def intStr (z : Int) : Str := (toString z).toList

/-- `template_parser.py:113-119` `write_large`: the text is written in chunks of the given size
(`10**9` in the code). -/
def writeLarge (chunksize : Nat) (text : Str) : Str :=
  (List.range (text.length / chunksize + 1)).flatMap
    (fun chunk => (text.drop (chunk*chunksize)).take ((chunk+1)*chunksize - chunk*chunksize))

/-- `template_parser.py:121-133` `recursive_write`: what is written to the file. -/
def written : Value → Str
  | .text s => writeLarge (1000*10^6) s
  | .int z => writeLarge (1000*10^6) (intStr z)
  | .list l => (l.attach.map (fun v => written v.1)).flatten
termination_by v => sizeOf v
decreasing_by
  have := List.sizeOf_lt_of_mem v.2
  simp
  omega

/-- `%\(([^)]*)\)s` matches at the beginning: the group and the rest of the string. -/
def matchAt (s : Str) : Option (Str × Str) :=
  match s with
  | '%' :: '(' :: cs =>
    match cs.dropWhile (fun c => c != ')') with
    | ')' :: 's' :: rest => some (cs.takeWhile (fun c => c != ')'), rest)
    | _ => none
  | _ => none

theorem matchAt_length {s : Str} {k r : Str} (h : matchAt s = some (k, r)) : r.length < s.length := by
  unfold matchAt at h
  split at h
  · rename_i cs
    split at h
    · rename_i rest h1
      simp only [Option.some.injEq, Prod.mk.injEq] at h
      have h2 := List.takeWhile_append_dropWhile (p := fun c => c != ')') (l := cs)
      rw [h1] at h2
      have := congrArg List.length h2
      simp at this
      rw [← h.2]
      simp
      omega
    · simp at h
  · simp at h

/-- `re.split(r"%\(([^)]*)\)s", string)` (`template_parser.py:135`): the first part and the pairs of keys and the
following parts.  The leftmost match is taken; `[^)]*` ends at the first `)`. -/
def split (s : Str) : Str × List (Str × Str) :=
  match s with
  | [] => ([], [])
  | c :: cs =>
    match h : matchAt (c :: cs) with
    | some (k, rest) => ([], (k, (split rest).1) :: (split rest).2)
    | none => (c :: (split cs).1, (split cs).2)
termination_by s.length
decreasing_by
  all_goals first
    | exact matchAt_length h
    | (simp)

/-- Python's scan for the key of `%(key)`: up to the matching parenthesis.  The key and the rest of the
string; `none` = `ValueError`. -/
def scanKey : Nat → Str → Option (Str × Str)
  | _, [] => none
  | depth, c :: cs =>
    if c = ')' then
      if depth = 0 then some ([], cs) else (scanKey (depth-1) cs).map (fun r => (c :: r.1, r.2))
    else if c = '(' then (scanKey (depth+1) cs).map (fun r => (c :: r.1, r.2))
    else (scanKey depth cs).map (fun r => (c :: r.1, r.2))

theorem scanKey_length {d : Nat} {s k r : Str} (h : scanKey d s = some (k, r)) : r.length < s.length := by
  induction s generalizing d k with
  | nil => simp [scanKey] at h
  | cons c cs ih =>
    simp only [scanKey] at h
    split at h
    · split at h
      · simp only [Option.some.injEq, Prod.mk.injEq] at h
        rw [← h.2]; simp
      · rw [Option.map_eq_some_iff] at h
        obtain ⟨q, h1, h2⟩ := h
        simp only [Prod.mk.injEq] at h2
        have := ih (k := q.1) (d := d-1) (by rw [h1, ← h2.2])
        simp; omega
    · split at h
      · rw [Option.map_eq_some_iff] at h
        obtain ⟨q, h1, h2⟩ := h
        simp only [Prod.mk.injEq] at h2
        have := ih (k := q.1) (d := d+1) (by rw [h1, ← h2.2])
        simp; omega
      · rw [Option.map_eq_some_iff] at h
        obtain ⟨q, h1, h2⟩ := h
        simp only [Prod.mk.injEq] at h2
        have := ih (k := q.1) (d := d) (by rw [h1, ← h2.2])
        simp; omega

/-- The conversions `%i`, `%d` of a value; `none` = `TypeError`. -/
def convertInt : Value → Option Str
  | .int z => some (intStr z)
  | _ => none

/-- The conversion `%s` of a value.  Simplification: the representation of a list is not modelled (`none`). -/
def convertStr : Value → Option Str
  | .int z => some (intStr z)
  | .text s => some s
  | .list _ => none

/-- `part % replacements` (`template_parser.py:136`, `:140`).  Modelled are `%%`, `%(key)s`, `%(key)i` and
`%(key)d`; everything else is `none` (mostly `ValueError`, but Python has more conversions). -/
def format (repl : Str → Option Value) (s : Str) : Option Str :=
  match s with
  | [] => some []
  | c :: cs =>
    if c ≠ '%' then (format repl cs).map (fun r => c :: r)
    else
      match cs with
      | '%' :: rest => (format repl rest).map (fun r => '%' :: r)
      | '(' :: rest =>
        match h : scanKey 0 rest with
        | some (k, 's' :: rest') => do
          let v ← repl k
          let t ← convertStr v
          let r ← format repl rest'
          some (t ++ r)
        | some (k, 'i' :: rest') => do
          let v ← repl k
          let t ← convertInt v
          let r ← format repl rest'
          some (t ++ r)
        | some (k, 'd' :: rest') => do
          let v ← repl k
          let t ← convertInt v
          let r ← format repl rest'
          some (t ++ r)
        | _ => none
      | _ => none
termination_by s.length
decreasing_by
  all_goals first
    | (simp; done)
    | (have := scanKey_length h; simp at this ⊢; omega)
    | (simp; omega)

/-- `template_parser.py:137-140`: the loop over the pairs. -/
def formatParts (repl : Str → Option Value) : List (Str × Str) → Option Str
  | [] => some []
  | (k, part) :: l => do
    let v ← repl k
    let t ← format repl part
    let r ← formatParts repl l
    some (written v ++ t ++ r)

/-- `template_parser.py:74-140` `parse_template_file`: the contents of the destination file as a function of
the contents of the source file.  `none` = an exception (the file written so far is not modelled). -/
def parse (repl : Str → Option Value) (s : Str) : Option Str := do
  let t ← format repl (split s).1
  let r ← formatParts repl (split s).2
  some (t ++ r)

/-! ### `parse_template_tree` -/

/-- A directory: names and contents of the files, names and contents of the directories. -/
inductive Dir
  | mk : List (Str × Str) → List (Str × Dir) → Dir

def Dir.files : Dir → List (Str × Str) | .mk f _ => f

/-- `os.walk`: the directories (their relative paths as lists of names) with their files, top down. -/
def walk (path : List Str) : Dir → List (List Str × List (Str × Str))
  | .mk f ds => (path, f) :: (ds.attach.map (fun d => walk (path ++ [d.1.1]) d.1.2)).flatten
termination_by d => sizeOf d
decreasing_by
  obtain ⟨⟨a, b⟩, h⟩ := d
  have := List.sizeOf_lt_of_mem h
  simp at this ⊢
  omega

/-- `filesystem_replacements.get(name, name)`; `some none` is a value `None` of the dictionary. -/
def rename (ren : Str → Option (Option Str)) (name : Str) : Option Str :=
  match ren name with
  | none => some name
  | some r => r

/-- What is done for one directory: `os.mkdir` and the files that are written. -/
structure DirOut where
  path : List Str
  files : List (Str × Str)
deriving DecidableEq

/-- `template_parser.py:212-227`: the files of one directory. -/
def writeFiles (repl : Str → Option Value) (ren : Str → Option (Option Str)) :
    List (Str × Str) → Option (List (Str × Str))
  | [] => some []
  | (name, content) :: l =>
    match rename ren name with
    | none => writeFiles repl ren l
    | some name' => do
      let c ← parse repl content
      let r ← writeFiles repl ren l
      some ((name', c) :: r)

/-- `template_parser.py:142-227` `parse_template_tree`: the directories made and the files written, in order;
paths are relative to `dest`.  The blocks of the path are renamed from the last to the first; if one of them
is to be omitted, the directory is.  `none` = an exception in `parse_template_file`.
Not modelled: `os.mkdir` of an existing directory, two files renamed to the same name. -/
def parseTree (repl : Str → Option Value) (ren : Str → Option (Option Str)) (d : Dir) : Option (List DirOut) :=
  go (walk [] d)
where
  go : List (List Str × List (Str × Str)) → Option (List DirOut)
    | [] => some []
    | (path, files) :: l =>
      match (path.reverse.mapM (rename ren)) with
      | none => go l
      | some p => do
        let fs ← writeFiles repl ren files
        let r ← go l
        some (⟨p.reverse, fs⟩ :: r)

end Template
end SecDec
