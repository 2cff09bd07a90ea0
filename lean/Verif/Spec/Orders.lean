import Mathlib.RingTheory.HahnSeries.Multiplication
import Mathlib.Algebra.Order.Pi
import Mathlib.Algebra.Order.Group.Int
/-
Specification for C27 and C30: multivariate Laurent series are Mathlib's Hahn series over the ordered
group `Fin r → ℤ` of exponent vectors (componentwise order), with Mathlib's multiplication.
-/
namespace SecDec
namespace Orders

/-- Laurent series in `r` regulators. -/
abbrev Laurent (r : ℕ) (F : Type*) [Zero F] := HahnSeries (Fin r → ℤ) F

/-- The Laurent polynomial with the listed terms. -/
noncomputable def lpoly {r : ℕ} {F : Type*} [Semiring F] (d : List ((Fin r → ℤ) × F)) : Laurent r F :=
  (d.map fun t => HahnSeries.single t.1 t.2).sum

/-- `d` is the expansion of the series `S` up to (including) the orders `h`: each order is listed at
most once, the listed coefficients are those of `S`, all the nonvanishing terms up to `h` are listed,
and the lowest listed power of each regulator is the lowest one of the series. -/
structure Expands {r : ℕ} {F : Type*} [Semiring F] (d : List ((Fin r → ℤ) × F)) (S : Laurent r F)
    (h : Fin r → ℤ) : Prop where
  nodup : (d.map (·.1)).Nodup
  coeff : ∀ t ∈ d, S.coeff t.1 = t.2
  complete : ∀ a, a ≤ h → S.coeff a ≠ 0 → a ∈ d.map (·.1)
  lead : ∀ a, S.coeff a ≠ 0 → ∀ i, ∃ t ∈ d, t.1 i ≤ a i

end Orders
end SecDec
