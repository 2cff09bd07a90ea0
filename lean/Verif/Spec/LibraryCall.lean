import Verif.Model.LibraryCall
/-
What a user of `IntegralLibrary` expects.
-/
namespace SecDec
namespace LibraryCall

section
variable (cudaLib : Bool) (vegasDefault qmcDefault : Settings)

/-- The integrator that a choice stands for; `use_CQuad` is only for one-dimensional integrals. -/
def Op.integ : Op → Option Integ
  | .vegas s => some (.simple .vegas s)
  | .suave s => some (.simple .suave s)
  | .divonne s => some (.simple .divonne s)
  | .cuhre s => some (.simple .cuhre s)
  | .cquad _ => none
  | .qmc s => some (if cudaLib then .cudaQmc s else .simple .qmc s)
  | .assign _ => none

/-- The integrator for more than one dimension: the last one chosen (choices latest first), or `Vegas` if only `use_CQuad` has been used. -/
def highDimOf : List Op → Integ
  | [] => .simple .vegas vegasDefault
  | op :: earlier => (op.integ cudaLib).getD (highDimOf earlier)

/-- The integrator used (choices latest first): the last one chosen, `Qmc` without any choice; `use_CQuad` combines `CQuad` for one dimension with the integrator for two and more
dimensions, and is refused if this is `CudaQmc`. -/
def chosen : List Op → Integ
  | [] => if cudaLib then .cudaQmc qmcDefault else .simple .qmc qmcDefault
  | .cquad s :: earlier =>
    match highDimOf cudaLib vegasDefault earlier with
    | .cudaQmc _ => chosen earlier
    | h => .multi (.simple .cquad s) h 2
  | op :: earlier => (op.integ cudaLib).getD (chosen earlier)

/-- The integrator whose settings are the defaults of a call. -/
def defaultsOf (ops : List Op) : Integ := if ops = [] then chosen cudaLib vegasDefault qmcDefault [] else highDimOf cudaLib vegasDefault ops

/-- Histories without assignments, and without `use_Cuhre` if the library has been compiled for CUDA. -/
def Regular (ops : List Op) : Prop := ∀ op ∈ ops, (∀ i, op ≠ .assign i) ∧ (cudaLib = true → ∀ s, op ≠ .cuhre s)

end

/-- `enum ErrorMode : int { abs=0, all, largest, real, imag}` of the C routine (`amplitude.hpp:717`): the number of a mode is its position. -/
def errorModes : List String := ["abs", "all", "largest", "real", "imag"]

variable {T : Type}

/-- The caller has got a result or an exception. -/
def Sys.Finished (s : Sys T) : Prop := (∃ r, s.main = .returned r) ∨ s.main = .raised

end LibraryCall
end SecDec
