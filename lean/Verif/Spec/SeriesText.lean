import Verif.Model.SeriesText
import Mathlib.Analysis.Complex.Basic
/-
What the text of a series means.
-/
namespace SecDec
namespace SeriesText
variable {R : Type}

/-- Numbers are printed with letters (`e`, `nan`, `inf`), digits, signs and points, and can be read back. -/
structure Printing (pr : R → Str) (rd : Str → Option R) : Prop where
  read : ∀ r, rd (pr r) = some r
  nonempty : ∀ r, pr r ≠ []
  chars : ∀ r, ∀ c ∈ pr r, c.isAlphanum = true ∨ c = '+' ∨ c = '-' ∨ c = '.'

/-- The names of the regulators. -/
def Identifier (s : Str) : Prop := s ≠ [] ∧ ∀ c ∈ s, c.isAlphanum = true ∨ c = '_'

mutual
/-- The objects which the C++ code builds: a series has at least one coefficient (its constructor throws otherwise) and its variable is
an identifier. -/
def WF : CVal R → Prop
  | .num _ => True
  | .dev _ _ => True
  | .ser _ content _ p => content ≠ [] ∧ Identifier p ∧ WFs content
def WFs : List (CVal R) → Prop
  | [] => True
  | v :: vs => WF v ∧ WFs vs
end

/-! ### The value of a series -/

/-- The value of a number. -/
noncomputable def numVal (nv : R → ℝ) : CNum R → ℂ
  | .real r => (nv r : ℂ)
  | .cplx re im => (nv re : ℂ) + (nv im : ℂ) * Complex.I

mutual
/-- The series of the mean values (`mean = true`) or of the uncertainties (`mean = false`; zero for a number without uncertainty),
for the values `env` of the regulators. `ω t` stands for the order term `O(t)`. -/
noncomputable def value (nv : R → ℝ) (env : Str → ℂ) (ω : ℂ → ℂ) (mean : Bool) : CVal R → ℂ
  | .num x => if mean then numVal nv x else 0
  | .dev m s => if mean then numVal nv m else numVal nv s
  | .ser omin content trunc p =>
    values nv env ω mean p omin content + if trunc then ω (env p ^ (omin + content.length)) else 0
/-- `Σ_k content[k] * p^(i+k)` -/
noncomputable def values (nv : R → ℝ) (env : Str → ℂ) (ω : ℂ → ℂ) (mean : Bool) (p : Str) : ℤ → List (CVal R) → ℂ
  | _, [] => 0
  | i, v :: vs => value nv env ω mean v * env p ^ i + values nv env ω mean p (i + 1) vs
end

/-- The contents of a series without truncation are not series themselves. -/
def IsSer : CVal R → Prop
  | .ser _ _ _ _ => True
  | _ => False

mutual
/-- No series without truncation contains series. -/
def Flat : CVal R → Prop
  | .ser _ content trunc _ => (trunc = false → ∀ v ∈ content, ¬ IsSer v) ∧ Flats content
  | _ => True
def Flats : List (CVal R) → Prop
  | [] => True
  | v :: vs => Flat v ∧ Flats vs
end

/-! ### The table of a series -/

/-- The coefficient of the product of powers given by the list of the exponents, from the outermost variable to the innermost. -/
def coefficient : CVal R → List ℤ → Option (CVal R)
  | .ser omin content _ _, k :: ks =>
    if omin ≤ k ∧ k < omin + content.length then (content[(k - omin).toNat]?).bind (fun v => coefficient v ks) else none
  | .ser _ _ _ _, [] => none
  | v, [] => some v
  | _, _ :: _ => none

mutual
/-- All coefficients are numbers with uncertainty (`dev = true`), or all are numbers without, and all are nested in the same variables,
and truncated. -/
def Uniform (dev : Bool) : List Str → CVal R → Prop
  | [], .num _ => dev = false
  | [], .dev _ _ => dev = true
  | p :: ps, .ser _ content trunc q => p = q ∧ trunc = true ∧ Uniforms dev ps content
  | _, _ => False
def Uniforms (dev : Bool) (ps : List Str) : List (CVal R) → Prop
  | [] => True
  | v :: vs => Uniform dev ps v ∧ Uniforms dev ps vs
end

/-- A number in the table. -/
def numEntry : CNum R → JNum R
  | .real r => .float r
  | .cplx re im => .complex re im

/-- The entry of a coefficient: the value and the uncertainty. -/
def entry : CVal R → JNum R × JNum R
  | .num x => (numEntry x, .zero)
  | .dev m s => (numEntry m, numEntry s)
  | .ser _ _ _ _ => (.zero, .zero)

/-! ### The Python object for a series -/

/-- A number. -/
def numPy : CNum R → PVal R
  | .real r => .float r
  | .cplx re im => .complex re im

mutual
/-- The object which should be read: the coefficients with their exponents, the variable (unless it does not occur in the text), and the
order. -/
def toPy : CVal R → PVal R
  | .num x => numPy x
  | .dev m s => .pair (numPy m) (numPy s)
  | .ser omin content trunc p =>
    .ser (toPys omin content)
      (if trunc = false ∧ omin = 0 ∧ content.length ≤ 1 then none else some p)
      (if trunc then some (omin + content.length) else none)
def toPys : ℤ → List (CVal R) → List (PVal R × ℤ)
  | _, [] => []
  | i, v :: vs => (toPy v, i) :: toPys (i + 1) vs
end

/-! ### The value of a written text

The usual precedences: sums of products of powers of atoms. -/

section
variable (nv : R → ℝ) (env : Str → ℂ) (ω : ℂ → ℂ)

/-- The expressions of a list `{a, b, ...}` after the opening brace; `n` bounds their number. -/
def evalList (sub : List (Tok R) → Option (ℂ × List (Tok R))) : ℕ → List (Tok R) → Option (List ℂ × List (Tok R))
  | 0, _ => none
  | n + 1, ts =>
    match sub ts with
    | some (v, .comma :: ts) => (evalList sub n ts).map (fun r => (v :: r.1, r.2))
    | some (v, .rbrace :: ts) => some ([v], ts)
    | _ => none

/-- `Σ_k cs[k] * x^(i+k)` -/
noncomputable def powerSum (x : ℂ) : ℤ → List ℂ → ℂ
  | _, [] => 0
  | i, c :: cs => c * x ^ i + powerSum x (i + 1) cs

/-- A number, a variable, the imaginary unit, an expression in parentheses, or an order term, `O(x^k)`, or in Mathematica `O[x]`,
`O[x]^k`, `O[x]/x^k` or a series `SeriesData[x, 0, {coefficients}, lowest order, truncation order, 1]`. `sub` is the value of the expression at
the beginning of a text, and the rest of the text. -/
noncomputable def evalAtom (sub : List (Tok R) → Option (ℂ × List (Tok R))) : List (Tok R) → Option (ℂ × List (Tok R))
  | .num r :: ts => some ((nv r : ℂ), ts)
  | .int k :: ts => some ((k : ℂ), ts)
  | .name s :: ts => some (env s, ts)
  | .I :: ts => some (Complex.I, ts)
  | .lpar :: ts =>
    match sub ts with
    | some (v, .rpar :: ts) => some (v, ts)
    | _ => none
  | .order :: .lpar :: ts =>
    match sub ts with
    | some (v, .rpar :: ts) => some (ω v, ts)
    | _ => none
  | .order :: .lbrk :: .name s :: .rbrk :: .pow :: .int k :: ts => some (ω (env s ^ k), ts)
  | .order :: .lbrk :: .name s :: .rbrk :: .div :: .name s' :: .pow :: .int k :: ts =>
    if s' = s then some (ω (env s ^ (1 - k)), ts) else none
  | .order :: .lbrk :: .name s :: .rbrk :: ts => some (ω (env s), ts)
  | .seriesData :: .lbrk :: .name s :: .comma :: .int z :: .comma :: .lbrace :: ts =>
    match evalList sub ts.length ts with
    | some (cs, .comma :: .int i :: .comma :: .int j :: .comma :: .int d :: .rbrk :: ts) =>
      if z = 0 ∧ d = 1 then some (powerSum (env s) i cs + ω (env s ^ j), ts) else none
    | _ => none
  | _ => none

/-- An atom, or an atom to an integer power. -/
noncomputable def evalPower (sub : List (Tok R) → Option (ℂ × List (Tok R))) (ts : List (Tok R)) : Option (ℂ × List (Tok R)) :=
  match evalAtom nv env ω sub ts with
  | some (v, .pow :: .int k :: ts) => some (v ^ k, ts)
  | some (v, .pow :: .lpar :: .int k :: .rpar :: ts) => some (v ^ k, ts)
  | some (_, .pow :: _) => none
  | r => r

/-- The rest of a product of which `v` has been read; `n` bounds the number of factors. -/
noncomputable def evalFactors (sub : List (Tok R) → Option (ℂ × List (Tok R))) : ℕ → ℂ → List (Tok R) → Option (ℂ × List (Tok R))
  | 0, _, _ => none
  | n + 1, v, .times :: ts =>
    match evalPower nv env ω sub ts with
    | some (w, ts) => evalFactors sub n (v * w) ts
    | none => none
  | n + 1, v, .div :: ts =>
    match evalPower nv env ω sub ts with
    | some (w, ts) => evalFactors sub n (v / w) ts
    | none => none
  | _ + 1, v, ts => some (v, ts)

/-- A product. -/
noncomputable def evalProduct (sub : List (Tok R) → Option (ℂ × List (Tok R))) (n : ℕ) (ts : List (Tok R)) : Option (ℂ × List (Tok R)) :=
  match evalPower nv env ω sub ts with
  | some (v, ts) => evalFactors nv env ω sub n v ts
  | none => none

/-- The rest of a sum of which `v` has been read; a number with an explicit sign is added. -/
noncomputable def evalSummands (sub : List (Tok R) → Option (ℂ × List (Tok R))) : ℕ → ℂ → List (Tok R) → Option (ℂ × List (Tok R))
  | 0, _, _ => none
  | n + 1, v, .plus :: ts =>
    match evalProduct nv env ω sub n ts with
    | some (w, ts) => evalSummands sub n (v + w) ts
    | none => none
  | n + 1, v, .snum r :: ts =>
    match evalProduct nv env ω sub n (.num r :: ts) with
    | some (w, ts) => evalSummands sub n (v + w) ts
    | none => none
  | _ + 1, v, ts => some (v, ts)

/-- The sum at the beginning of a text; `n` bounds the length and the depth. -/
noncomputable def evalSum : ℕ → List (Tok R) → Option (ℂ × List (Tok R))
  | 0, _ => none
  | n + 1, ts =>
    match evalProduct nv env ω (evalSum n) n ts with
    | some (v, ts) => evalSummands nv env ω (evalSum n) n v ts
    | none => none

/-- `text` is an expression with the value `v`. -/
def Means (text : List (Tok R)) (v : ℂ) : Prop := ∃ N, ∀ n, N ≤ n → evalSum nv env ω n text = some (v, [])

end

/-- A text has at most one value. -/
theorem Means.unique {nv : R → ℝ} {env : Str → ℂ} {ω : ℂ → ℂ} {text : List (Tok R)} {v w : ℂ} (h : Means nv env ω text v)
    (h' : Means nv env ω text w) : v = w := by
  obtain ⟨N, hN⟩ := h
  obtain ⟨M, hM⟩ := h'
  have h1 := hN (max N M) (le_max_left _ _)
  rw [hM _ (le_max_right _ _)] at h1
  simpa using h1.symm

end SeriesText
end SecDec
