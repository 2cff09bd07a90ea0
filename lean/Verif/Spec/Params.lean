import Verif.Model.Params

/-!
# Specification: which value a parameter has in a call

Written in terms of the arguments of the calls only.
-/

namespace SecDec
namespace Params

/-- The names of the parameters of a library are distinct (`make_package` checks this), and its integrals have no other parameters. -/
structure Library.WF (L : Library) : Prop where
  nodup : (L.realp ++ L.complexp).Nodup
  families : ∀ f ∈ L.families, (∀ p ∈ f.1, p ∈ L.realp) ∧ (∀ p ∈ f.2, p ∈ L.complexp)

/-- The value `v` stands at the place of the parameter `p` in the list. -/
def AtPlace (names : List String) (vals : List Value) (p : String) (v : Value) : Prop :=
  ∃ i : ℕ, names[i]? = some p ∧ vals[i]? = some v

/-- The lists of the call contain the value `v` for the parameter `p`. -/
def Call.Gives (c : Call) (p : String) (v : Value) : Prop :=
  AtPlace c.lib.realp c.reals p v ∨ (c.reals.length ≤ c.lib.realp.length ∧ AtPlace c.lib.complexp c.complexes p v)

/-- There is a value for each of the parameters in the lists. -/
structure Call.Full (c : Call) : Prop where
  reals : c.reals.length = c.lib.realp.length
  complexes : c.complexes.length = c.lib.complexp.length

/-- The last one of the calls without a dictionary whose lists contained a value for the parameter `p` gave the value `v`. -/
def LastGiven (es : List Event) (p : String) (v : Value) : Prop :=
  ∃ before c after, es = before ++ Event.call c :: after ∧ c.dict = none ∧ c.Gives p v ∧
    ∀ c', Event.call c' ∈ after → c'.dict = none → ∀ v', ¬ c'.Gives p v'

/-- The caller's last assignment to the key `p` of the dictionary `o` was `v`. -/
def LastSet (es : List Event) (o : ℕ) (p : String) (v : Value) : Prop :=
  ∃ before after, es = before ++ Event.set o p v :: after ∧ ∀ v', Event.set o p v' ∉ after

/-- The dictionary `o` was never passed together with lists. -/
def NotMixed (es : List Event) (o : ℕ) : Prop :=
  ∀ c, Event.call c ∈ es → c.dict = some o → c.reals = [] ∧ c.complexes = []

/-- The messages to the workers contain, for each integral of the library, the values `val` of its parameters, in the order of the parameters. -/
def Faithful (L : Library) (val : String → ℂ → Prop) (s : Sent) : Prop :=
  List.Forall₂ (fun (f : List String × List String) (a : List ℝ × List (ℝ × ℝ)) =>
    List.Forall₂ (fun p (x : ℝ) => val p (x : ℂ)) f.1 a.1 ∧
    List.Forall₂ (fun p (x : ℝ × ℝ) => val p ⟨x.1, x.2⟩) f.2 a.2) L.families s.values

/-- All the values passed by the caller are numbers. -/
def Event.Numbers : Event → Prop
  | .call c => (∀ v ∈ c.reals, v.num.isSome) ∧ ∀ v ∈ c.complexes, v.num.isSome
  | .set _ _ v => v.num.isSome

/-- A real number. -/
def Value.Real (v : Value) : Prop := ∃ z : ℂ, v.num = some z ∧ z.im = 0

/-- A number. -/
def Value.Number (v : Value) : Prop := v.num.isSome

/-- `denotes t z`: the reader of the coefficient files reads the text `t` as the number `z`. It reads sums and products with `I` correctly. -/
structure Reader (denotes : String → ℂ → Prop) : Prop where
  complex : ∀ a b x y, denotes a x → denotes b y → denotes (a ++ " + (" ++ b ++ ")*I") (x + y * Complex.I)

/-- Python's texts of the value are those of the value. -/
def Value.Printed (denotes : String → ℂ → Prop) (v : Value) : Prop :=
  ∀ z : ℂ, v.num = some z → if v.isComplex then denotes v.reText (z.re : ℂ) ∧ denotes v.imText (z.im : ℂ) else denotes v.text z

/-! ### The command line -/

/-- The argument `a` gives the text `t` for the integral variable `x`: `x=t` or `int-x=t`. -/
def GivesInt (a x t : List Char) : Prop :=
  '=' ∉ x ∧ ((a = x ++ '=' :: t ∧ ¬ "coeff-".toList <+: x ∧ ¬ "int-".toList <+: x) ∨ a = "int-".toList ++ x ++ '=' :: t)

/-- The argument `a` gives the text `t` for the coefficient variable `x`: `x=t` or `coeff-x=t`. -/
def GivesCoeff (a x t : List Char) : Prop :=
  '=' ∉ x ∧ ((a = x ++ '=' :: t ∧ ¬ "coeff-".toList <+: x ∧ ¬ "int-".toList <+: x) ∨ a = "coeff-".toList ++ x ++ '=' :: t)

/-- The last argument which gives a text for `x` gives `t`. -/
def LastArg (gives : List Char → List Char → List Char → Prop) (args : List (List Char)) (x t : List Char) : Prop :=
  ∃ before a after, args = before ++ a :: after ∧ gives a x t ∧ ∀ a' ∈ after, ∀ t', ¬ gives a' x t'

/-- The items of an array: `value` or `n x value`. -/
def itemText : Option (List Char) × List Char → List Char
  | (none, value) => value
  | (some n, value) => n ++ 'x' :: value

/-- The text `item,item,...,item`. -/
def arrayText : List (Option (List Char) × List Char) → List Char
  | [] => []
  | [a] => itemText a
  | a :: b :: l => itemText a ++ ',' :: arrayText (b :: l)

end Params
end SecDec
