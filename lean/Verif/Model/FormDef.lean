import Verif.Model.Expr
/-
Model of the splitting of long expressions into FORM definitions (`_make_FORM_function_definition`) and of the names of the
files of a sector in pySecDec/code_writer/make_package.py.
-/
namespace SecDec
namespace FormDef
variable {n : Nat} {F : Type} [CommRing F] [DecidableEq F]

/-- A Python string. -/
abbrev Name := List Char

/-- The right-hand side of one line `Id name(args?) = ...;` (`make_package.py:490-555`). -/
inductive Rhs (n : Nat) (F : Type) where
  /-- the printed expression (`:491`, `:554`) -/
  | whole (e : Expr n F)
  /-- `'+'.join(...)` of names (`:500-505`, `:542-547`) -/
  | sumOf (names : List Name)
  /-- `'*'.join(...)` of names (`:513-518`); nothing is printed if there are no names -/
  | prodOf (names : List Name)
  /-- `name * (monomial)` (`:529-533`) -/
  | times (name : Name) (e : Expo n)

/-- One line. -/
structure Line (n : Nat) (F : Type) where
  name : Name
  rhs : Rhs n F

/-- `attribute`: the recursion arrives at a coefficient which is a number or a sympy expression, and
`expression.clear_cache()` (`make_package.py:488`) raises an `AttributeError`. -/
inductive Err where
  | attribute
  | outOfFuel
  deriving DecidableEq

/-- `internal_prefix+'fDUMMY'+name+'Part'` with `internal_prefix = 'SecDecInternal'` (`make_package.py:499`, `:512`, `:528`,
`:538`, `:45`). -/
def nextLevel (name : Name) : Name := "SecDecInternalfDUMMY".toList ++ name ++ "Part".toList

/-- `name_next_level+str(i)`. -/
def part (name : Name) (i : Nat) : Name := nextLevel name ++ (toString i).toList

/-- `algebra.py:1509-1518` `ProductRule.to_sum()`. -/
def toSum (terms : List (Int × List (Expr n F))) : List (Expr n F) :=
  terms.map (fun t => .prod (.poly [((fun _ => 0), .num (t.1 : F))] :: t.2))

/-- `new_n_coeffs` (`make_package.py:539-540`). -/
def chunkSize (old : Nat) : Nat := if old / 10 = 0 then 1 else old / 10

/-- `new_n_polys = int(np.ceil(old_n_coeffs/new_n_coeffs))` (`make_package.py:541`). -/
def chunkCount (old : Nat) : Nat := (old + chunkSize old - 1) / chunkSize old

/-- The polynomials of the loop `make_package.py:548-549`: the slices `i*new_n_coeffs:(i+1)*new_n_coeffs`. -/
def chunks (ts : List (Expo n × Expr n F)) : List (Expr n F) :=
  (List.range (chunkCount ts.length)).map (fun i => .poly ((ts.drop (i * chunkSize ts.length)).take (chunkSize ts.length)))

/-- The loop `for i,summand in enumerate(...): recursion(name_next_level+str(i), summand)` (`make_package.py:506-507`, `:519-520`,
`:548-549`), from the index `i` on; the lines are appended in order. -/
def loop (rec : Name → Expr n F → Except Err (List (Line n F))) (name : Name) :
    Nat → List (Expr n F) → Except Err (List (Line n F))
  | _, [] => .ok []
  | i, e :: es => do
    let a ← rec (part name i) e
    let b ← loop rec name (i + 1) es
    .ok (a ++ b)

/-- `make_package.py:486-555`, the function `recursion(name, expression)`; `len e` is the length of the printed expression,
`fuel` bounds the depth of the recursion (Python: unbounded). The warning is not modelled. -/
def split (len : Expr n F → Nat) (limit : Nat) : Nat → Name → Expr n F → Except Err (List (Line n F))
  | 0, _, _ => .error .outOfFuel
  | fuel + 1, name, e =>
    match e with
    | .num _ => .error .attribute
    | e =>
      if len e ≤ limit then .ok [⟨name, .whole e⟩]
      else
        match e with
        | .prule terms => do
          let r ← loop (split len limit fuel) name 0 (toSum terms)
          .ok (⟨name, .sumOf ((List.range (toSum terms).length).map (part name))⟩ :: r)
        | .sum l => do
          let r ← loop (split len limit fuel) name 0 l
          .ok (⟨name, .sumOf ((List.range l.length).map (part name))⟩ :: r)
        | .prod l => do
          let r ← loop (split len limit fuel) name 0 l
          .ok (⟨name, .prodOf ((List.range l.length).map (part name))⟩ :: r)
        | .poly ts =>
          match ts with
          | [t] => do
            let r ← split len limit fuel (part name 0) t.2
            .ok (⟨name, .times (part name 0) t.1⟩ :: r)
          | ts => do
            let r ← loop (split len limit fuel) name 0 (chunks ts)
            .ok (⟨name, .sumOf ((List.range (chunkCount ts.length)).map (part name))⟩ :: r)
        | e => .ok [⟨name, .whole e⟩]

/-! ### Names of the files -/

/-- `"_".join(str(pol-hi) ...).replace("-", "n")` (`make_package.py:579`) for the orders `pol-hi`. -/
def orderName (orders : List Int) : Name :=
  (List.intercalate ['_'] (orders.map (fun k => (toString k).toList))).map (fun c => if c = '-' then 'n' else c)

/-- `sector_{s}_{o}` (`make_package.py:594`, `:607`, `:617`). -/
def sectorFile (sector : Nat) (orders : List Int) : Name :=
  "sector_".toList ++ (toString sector).toList ++ ['_'] ++ orderName orders

/-- `make_package.py:582-597` `_make_sector_cpp_files`: the list of the files of one sector, `orders` are the orders of the
sector. -/
def cppFiles (contourDeformation : Bool) (sector : Nat) (orders : List (List Int)) : List Name :=
  ("src/sector_".toList ++ (toString sector).toList ++ ".cpp".toList) ::
  (orders.map (fun o => "src/".toList ++ sectorFile sector o ++ ".cpp".toList) ++
  (if contourDeformation then
    orders.map (fun o => "src/contour_deformation_".toList ++ sectorFile sector o ++ ".cpp".toList) ++
    orders.map (fun o => "src/optimize_deformation_parameters_".toList ++ sectorFile sector o ++ ".cpp".toList)
  else []))

/-- `make_package.py:599-608` `_make_sector_distsrc_files`. -/
def distFiles (sector : Nat) (orders : List (List Int)) : List Name :=
  orders.map (fun o => "distsrc/".toList ++ sectorFile sector o ++ ".cpp".toList) ++
  orders.map (fun o => "distsrc/".toList ++ sectorFile sector o ++ ".cu".toList)

end FormDef
end SecDec
