import Mathlib.Data.Fin.Tuple.Basic
import Verif.Spec.Expr
import Verif.Spec.Decomp
import Verif.Model.Subtraction
/-
Specification vocabulary for the subtraction: the first `N` variables are the Feynman parameters, the
last `R` variables are the regulators.
-/
namespace SecDec.Subtraction
open SecDec Expr
variable {N R : Nat} {F : Type} [Field F]

/-- The point with Feynman parameters `t` and regulators `ε`. -/
def point (ε : Fin R → ℂ) (t : Fin N → ℝ) : Fin (N + R) → ℂ := Fin.append (fun i => (t i : ℂ)) ε

/-- One factor `(c * monomial)**exponent` as an expression. -/
def Monomial.toExpr {n : Nat} (m : Monomial n F) : Expr n F :=
  .epoly [(m.expo, .num m.coeff)] (.poly (m.exponent.terms.map (fun t => (t.1, .num t.2))))

/-- The whole product as an expression: `<product of monomials> * <regulator poles> * cal_I`. -/
def PolyProd.toExpr {n : Nat} (P : PolyProd n F) : Expr n F :=
  .prod (.prod (P.monos.map Monomial.toExpr) ::
    .pow (.poly (P.regBase.terms.map (fun t => (t.1, .num t.2)))) P.regExp :: P.calI)

/-- The value of the product at Feynman parameters `t` and regulators `ε`. -/
noncomputable def value (φ : F →+* ℂ) (ε : Fin R → ℂ) (P : PolyProd (N + R) F) (t : Fin N → ℝ) : ℂ :=
  Expr.eval φ (point ε t) P.toExpr

/-- A polynomial (no negative powers) of the regulators only. -/
def RegulatorPoly (p : Poly (N + R) F) : Prop :=
  ∀ t ∈ p.terms, (∀ i, 0 ≤ t.1 i) ∧ ∀ i : Fin N, t.1 (Fin.castAdd R i) = 0

/-- The documented form of the argument `polyprod`: every monomial has a positive coefficient, contains
no regulators and has an exponent which is a polynomial of the regulators; the regulator poles are a polynomial of the
regulators to the power minus one. -/
structure WellFormed (φ : F →+* ℂ) (P : PolyProd (N + R) F) : Prop where
  coeff : ∀ m ∈ P.monos, ∃ r : ℝ, 0 < r ∧ φ m.coeff = (r : ℂ)
  monomial : ∀ m ∈ P.monos, ∀ i : Fin R, m.expo (Fin.natAdd N i) = 0
  exponent : ∀ m ∈ P.monos, RegulatorPoly m.exponent
  base : RegulatorPoly P.regBase
  exp : P.regExp = .poly [((fun _ => 0), .num (-1))]

/-- `cal_I` is meaningful and smooth on the closed unit cube for the given values of the regulators (it
is admissible on an open set of complex points which contains the cube). -/
def Smooth (φ : F →+* ℂ) (ε : Fin R → ℂ) (P : PolyProd (N + R) F) : Prop :=
  ∃ U : Set (Fin (N + R) → ℂ), IsOpen U ∧ (∀ t ∈ Set.Icc (0 : Fin N → ℝ) 1, point ε t ∈ U) ∧
    ∀ e ∈ P.calI, Adm (Mode.free φ) φ U e

/-- The total power of the Feynman parameter `i` for the given values of the regulators. -/
noncomputable def power (φ : F →+* ℂ) (ε : Fin R → ℂ) (P : PolyProd (N + R) F) (i : Fin N) : ℂ :=
  (P.monos.map (fun m => Expr.eval φ (Fin.append (fun _ : Fin N => (0 : ℂ)) ε)
    (.poly (m.exponent.terms.map (fun t => (t.1, .num t.2)))) * ((m.expo (Fin.castAdd R i) : Int) : ℂ))).sum

/-- The product without the factor of the regulator poles. -/
noncomputable def valueWithoutPoles (φ : F →+* ℂ) (ε : Fin R → ℂ) (P : PolyProd (N + R) F) (t : Fin N → ℝ) : ℂ :=
  Expr.eval φ (point ε t) (.prod (.prod (P.monos.map Monomial.toExpr) :: P.calI))

/-- The denominator of the regulator poles for the given values of the regulators. -/
noncomputable def poleDenominator (φ : F →+* ℂ) (ε : Fin R → ℂ) (P : PolyProd (N + R) F) : ℂ :=
  Expr.eval φ (Fin.append (fun _ : Fin N => (0 : ℂ)) ε) (.poly (P.regBase.terms.map (fun t => (t.1, .num t.2))))

/-- The coefficient of the monomial `e` (of the regulators) in the total power of the variable `j`. -/
def powerCoeff (P : PolyProd (N + R) F) (j : Fin N) (e : Expo (N + R)) : F :=
  (P.monos.map (fun m => m.exponent.coeffOf e * ((m.expo (Fin.castAdd R j) : Int) : F))).sum

/-- The total power of the variable `j` does not depend on the regulators. -/
def Unregulated (P : PolyProd (N + R) F) (j : Fin N) : Prop :=
  ∀ e, e ≠ (fun _ => 0) → powerCoeff P j e = 0

/-- `cal_I` is meaningful and smooth on the closed unit cube, and no exponent in it is a positive integer
or contains Feynman parameters. -/
def SmoothNonint (φ : F →+* ℂ) (ε : Fin R → ℂ) (P : PolyProd (N + R) F) : Prop :=
  ∃ U : Set (Fin (N + R) → ℂ), IsOpen U ∧ (∀ t ∈ Set.Icc (0 : Fin N → ℝ) 1, point ε t ∈ U) ∧
    ∀ e ∈ P.calI, Adm (Mode.nonint φ (fun i => ∃ r : Fin R, i = Fin.natAdd N r)) φ U e

/-- The same, where the values of the exponents without regulators are no positive integers. -/
def SmoothNonint0 (φ : F →+* ℂ) (ε : Fin R → ℂ) (P : PolyProd (N + R) F) : Prop :=
  ∃ U : Set (Fin (N + R) → ℂ), IsOpen U ∧ (∀ t ∈ Set.Icc (0 : Fin N → ℝ) 1, point ε t ∈ U) ∧
    ∀ e ∈ P.calI, Adm (Mode.nonint0 φ (fun i => ∃ r : Fin R, i = Fin.natAdd N r)) φ U e

/-- A constant exponent of a monomial is written as one term: if all terms of the exponent are `1`
(without variables), there is exactly one term. -/
def CleanExponents (P : PolyProd (N + R) F) : Prop :=
  ∀ m ∈ P.monos, (∀ t ∈ m.exponent.terms, t.1 = (fun _ => 0) ∧ t.2 = 1) → m.exponent.terms.length = 1

/-- The value of the product does not depend on the parameter `j`. -/
def IndependentOf (φ : F →+* ℂ) (ε : Fin R → ℂ) (P : PolyProd (N + R) F) (j : Fin N) : Prop :=
  ∀ (t : Fin N → ℝ) (s : ℝ), (∀ i, 0 < t i ∧ t i < 1) → 0 < s → s < 1 →
    value φ ε P (Function.update t j s) = value φ ε P t

end SecDec.Subtraction
