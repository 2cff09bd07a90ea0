import Mathlib.Data.Complex.Basic

/-!
# Model of the way parameter values and options reach the integrator

`pySecDec/integral_interface.py:DistevalLibrary.__call__` (the Python interface), the beginning of `pySecDec/disteval.py:do_eval`, and the command line
of `pySecDec/disteval.py:main`.

Python dictionaries are objects: the default value `parameters={}` is one object, created once, which all the calls of all the libraries of a process
share, and the dictionary passed by a caller is the caller's object. The heap of dictionaries is modelled, so that assignments made by one call are
visible to the next one.
-/

namespace SecDec
namespace Params

/-- A Python `dict` with names as keys, as a list of items in insertion order. -/
abbrev Dict (α : Type) := List (String × α)

namespace Dict
variable {α : Type}

/-- `d.get(k)`. -/
def get? : Dict α → String → Option α
  | [], _ => none
  | p :: d, k => if p.1 = k then some p.2 else get? d k

/-- `d[k] = v`: replaces the value in place or appends a new item. -/
def set : Dict α → String → α → Dict α
  | [], k, v => [(k, v)]
  | p :: d, k, v => if p.1 = k then (k, v) :: d else p :: set d k v

end Dict

/-- A parameter value as the caller passes it. -/
structure Value where
  /-- `complex(value)`; `none`: it raises an exception -/
  num : Option ℂ
  /-- `isinstance(value, complex)` -/
  isComplex : Bool
  /-- `str(value)` -/
  text : String
  /-- `str(value.real)` of a complex number -/
  reText : String
  /-- `str(value.imag)` of a complex number -/
  imText : String

/-- A library: the specification file (`realp`, `complexp` of the sum), and the names of the parameters of each of the integrals (`infos`,
disteval.py:445-452). -/
structure Library where
  realp : List String
  complexp : List String
  families : List (List String × List String)

/-- Exceptions. -/
inductive Err where
  /-- `IndexError`: more values than parameters -/
  | index
  /-- `ValueError` or `TypeError` of `complex(value)` -/
  | number
  /-- `ValueError("missing integral parameter")` -/
  | missing (p : String)
  /-- `KeyError` -/
  | key (p : String)
  /-- `TypeError` of `json.dumps`: a complex number for a real parameter -/
  | notReal
deriving DecidableEq

/-- What is sent: the values of the parameters of each integral, in its own order (`changefamily`), and the texts of the coefficient variables
(`evalf`). -/
structure Sent where
  values : List (List ℝ × List (ℝ × ℝ))
  coeffs : Dict String

/-- integral_interface.py:1678-1679 and 1681-1682: `for i, val in enumerate(vals): parameters[names[i]] = val`. The second component says whether an
`IndexError` was raised; the assignments made before it stay. -/
def assign : List String → List Value → Dict Value → Dict Value × Bool
  | _, [], d => (d, false)
  | [], _ :: _, d => (d, true)
  | n :: ns, v :: vs, d => assign ns vs (d.set n v)

open Classical in
/-- integral_interface.py:1685-1692: the two value maps. (`fvalue.real` is a real number, but numbers with a vanishing imaginary part are not
distinguished from real numbers here, as Python does not distinguish them in the further calculation.) -/
noncomputable def valueMaps : Dict Value → Option (Dict ℂ × Dict String)
  | [] => some ([], [])
  | (key, value) :: d =>
    match value.num with
    | none => none
    | some fvalue =>
      match valueMaps d with
      | none => none
      | some (vi, vc) =>
        if fvalue.im = 0 then
          some ((key, fvalue) :: vi, (key, if value.isComplex then value.reText else value.text) :: vc)
        else
          some ((key, fvalue) :: vi,
            (key, if value.isComplex then value.reText ++ " + (" ++ value.imText ++ ")*I" else value.text) :: vc)

/-- `[valuemap_int[p] for p in names]`. -/
def lookupAll (vi : Dict ℂ) : List String → Except Err (List ℂ)
  | [] => .ok []
  | p :: ps =>
    match Dict.get? vi p with
    | none => .error (.key p)
    | some z => match lookupAll vi ps with
      | .error e => .error e
      | .ok zs => .ok (z :: zs)

open Classical in
/-- One argument list of `changefamily` (disteval.py:445-452, 464): the real parameters have to be real numbers, since `json.dumps` does not accept complex ones. -/
noncomputable def familyArgs (vi : Dict ℂ) (f : List String × List String) : Except Err (List ℝ × List (ℝ × ℝ)) :=
  match lookupAll vi f.1 with
  | .error e => .error e
  | .ok rs => match lookupAll vi f.2 with
    | .error e => .error e
    | .ok cs => if ∀ z ∈ rs, z.im = 0 then .ok (rs.map (·.re), cs.map (fun z => (z.re, z.im))) else .error .notReal

/-- All the integrals. -/
noncomputable def familiesArgs (vi : Dict ℂ) : List (List String × List String) → Except Err (List (List ℝ × List (ℝ × ℝ)))
  | [] => .ok []
  | f :: fs => match familyArgs vi f with
    | .error e => .error e
    | .ok a => match familiesArgs vi fs with
      | .error e => .error e
      | .ok as => .ok (a :: as)

/-- disteval.py:439-441: the first parameter without a value. -/
def firstMissing (vi : Dict ℂ) : List String → Option String
  | [] => none
  | p :: ps => if (Dict.get? vi p).isNone then some p else firstMissing vi ps

/-- disteval.py:439-469, 496-498: the part of `do_eval` that uses the value maps, up to the messages to the workers. Simplification: the exceptions of
several integrals are raised in the order of the integrals (the code looks up all the names before it encodes the first message); prefactors
are left out. -/
noncomputable def doEval (L : Library) (vi : Dict ℂ) (vc : Dict String) : Except Err Sent :=
  match firstMissing vi (L.realp ++ L.complexp) with
  | some p => .error (.missing p)
  | none => match familiesArgs vi L.families with
    | .error e => .error e
    | .ok vs => .ok ⟨vs, vc⟩

/-- Evaluation with the content `d` of the dictionary `parameters` (integral_interface.py:1683-1706). -/
noncomputable def evalDict (L : Library) (d : Dict Value) : Except Err Sent :=
  match valueMaps d with
  | none => .error .number
  | some (vi, vc) => doEval L vi vc

/-- The dictionaries of the process. Number 0 is the default value of the argument `parameters`; number `o + 1` is the caller's dictionary `o` (the caller has
no reference to the default dictionary). -/
abbrev Heap := ℕ → Dict Value

/-- The arguments of a call: the dictionary (`none`: the argument is omitted, `some o`: the caller's dictionary `o`), and the lists. -/
structure Call where
  lib : Library
  dict : Option ℕ
  reals : List Value
  complexes : List Value

/-- The dictionary object used by a call. -/
def Call.obj (c : Call) : ℕ := match c.dict with
  | none => 0
  | some o => o + 1

/-- integral_interface.py:1674-1682: the content of the dictionary after the assignments of the lists, and whether `IndexError` was raised. -/
def Call.fill (c : Call) (d : Dict Value) : Dict Value × Bool :=
  if c.reals = [] ∧ c.complexes = [] then (d, false)
  else
    let r := assign c.lib.realp c.reals d
    if r.2 then r else assign c.lib.complexp c.complexes r.1

/-- integral_interface.py:1661-1706, `DistevalLibrary.__call__`. -/
noncomputable def Call.run (c : Call) (h : Heap) : Heap × Except Err Sent :=
  let r := c.fill (h c.obj)
  (Function.update h c.obj r.1, if r.2 then .error .index else evalDict c.lib r.1)

/-- What happens in a process: a call of a library, or the caller assigns a value to a key of one of the caller's dictionaries. -/
inductive Event where
  | call (c : Call)
  | set (obj : ℕ) (key : String) (v : Value)

/-- One event. -/
noncomputable def Event.step (h : Heap) : Event → Heap
  | .call c => (c.run h).1
  | .set o k v => Function.update h (o + 1) ((h (o + 1)).set k v)

/-- A history of a process. -/
noncomputable def history (es : List Event) : Heap := es.foldl Event.step (fun _ => [])

/-! ### The command line -/

/-- `arg.split("=", 1)` for an argument containing `=`, disteval.py:1073-1074; `none`: `ValueError`. -/
def splitEq : List Char → Option (List Char × List Char)
  | [] => none
  | c :: cs => if c = '=' then some ([], cs) else (splitEq cs).map (fun p => (c :: p.1, p.2))

/-- Dictionaries with keys given as lists of characters. -/
def putC {α : Type} : List (List Char × α) → List Char → α → List (List Char × α)
  | [], k, v => [(k, v)]
  | p :: d, k, v => if p.1 = k then (k, v) :: d else p :: putC d k v

/-- `d.get(k)`. -/
def getC {α : Type} : List (List Char × α) → List Char → Option α
  | [], _ => none
  | p :: d, k => if p.1 = k then some p.2 else getC d k

/-- disteval.py:1072-1083: the value maps of the command line. `parse` stands for `complex(sp.sympify(·))`; `none` is an exception. -/
def cli {N : Type} (parse : List Char → Option N) :
    List (List Char) → List (List Char × N) → List (List Char × List Char) → Option (List (List Char × N) × List (List Char × List Char))
  | [], vi, vc => some (vi, vc)
  | a :: as, vi, vc =>
    match splitEq a with
    | none => none
    | some (key, svalue) =>
      match parse svalue with
      | none => none
      | some f =>
        if "coeff-".toList.isPrefixOf key then cli parse as vi (putC vc (key.drop 6) svalue)
        else if "int-".toList.isPrefixOf key then cli parse as (putC vi (key.drop 4) f) vc
        else cli parse as (putC vi key f) (putC vc key svalue)

/-- `text.split(",")`. -/
def splitComma : List Char → List (List Char)
  | [] => [[]]
  | c :: cs => if c = ',' then [] :: splitComma cs
    else match splitComma cs with
      | [] => [[c]]
      | w :: ws => (c :: w) :: ws

/-- `item.split("x", 1)` for an item containing `x`. -/
def splitX : List Char → Option (List Char × List Char)
  | [] => none
  | c :: cs => if c = 'x' then some ([], cs) else (splitX cs).map (fun p => (c :: p.1, p.2))

/-- disteval.py:958-964: one item of `parse_array_shorthand`; `float` and `int` stand for the Python functions, `none` for `ValueError`. -/
def readItem {F : Type} (float : List Char → Option F) (int : List Char → Option ℤ) (item : List Char) : Option (List F) :=
  match splitX item with
  | some (repeat_, value) => (float value).bind (fun v => (int repeat_).map (fun (n : ℤ) => List.replicate n.toNat v))
  | none => (float item).map (fun v => [v])

/-- disteval.py:947-965, `parse_array_shorthand`. -/
def arrayShorthand {F : Type} (float : List Char → Option F) (int : List Char → Option ℤ) (text : List Char) : Option (List F) :=
  ((splitComma text).mapM (readItem float int)).map List.flatten

/-- disteval.py:967-971, `parse_unit`, with the units in the order of the dictionary. -/
def parseUnit (float : List Char → Option ℝ) (text : List Char) : List (List Char × ℝ) → Option ℝ
  | [] => float text
  | (u, m) :: us => if u.isSuffixOf text then (float (text.take (text.length - u.length))).map (· * m) else parseUnit float text us

/-- disteval.py:1048: the units of `--timeout`. -/
noncomputable def timeUnits : List (List Char × ℝ) := [(['s'], 1), (['m'], 60), (['h'], 60 * 60), (['d'], 24 * 60 * 60)]

end Params
end SecDec
