import Verif.Proof.Prefactor
/-
C72: the expansion of the prefactor and the C++ series generated from it.
-/
namespace SecDec
namespace Prefactor
open Cxx

section Ginac
variable {A V : Type} [AddCommMonoid A]

/-- **C72.** `expand_ginac` with `_make_prefactor_function`, for any number of regulators: if the program `ginsh` returns the part of the expansion of
the prefactor (with the Laurent coefficients `F`) up to the requested orders, then, unless `expand_ginac` raises, the constructors of the C++ series do not
throw and the nested series is the expansion of the prefactor. `num` is the number printed for a coefficient. -/
theorem C72_ginac (num : A → V) {n : ℕ} (names : List String) {orders : List ℤ} (ho : orders.length = n) {F : List ℤ → A} {l : Terms A}
    (h : IsTruncation F orders l) {N : Nested A n} (hN : toNested n orders l = some N) :
    ∃ s, construct n (emit num n names N) = some s ∧ IsExpansion num n names orders F s :=
  toNested_expansion num n ho h hN

/-- **C72.** `expand_ginac` does not raise if no requested order is negative. -/
theorem C72_ginac_total {n : ℕ} {orders : List ℤ} (ho : orders.length = n) (h0 : ∀ o ∈ orders, 0 ≤ o) {F : List ℤ → A} {l : Terms A}
    (h : IsTruncation F orders l) : ∃ N, toNested n orders l = some N := toNested_some n ho h0 h.within

end Ginac

/-- **C72.** `expand_sympy` with `_make_prefactor_function`, for any number of variables: if sympy's generators give the terms of the series in increasing order,
then the nested series is the expansion of the expression: missing powers are filled with zeros, and a level is marked as not truncated only if
nothing has been left out. -/
theorem C72_sympy {E V : Type} [Zero E] (num : E → V) {a : ℕ → E → ℤ → E} {gen : ℕ → E → Option (Generator E)} (h0 : ∀ i p, a i 0 p = 0)
    (hgen : ∀ i e g, gen i e = some g → Generates 0 (a i e) g) {n : ℕ} (names : List String) {orders : List ℤ} (ho : orders.length = n) {e : E} {N : Nested E n}
    (hN : expandSympy 0 gen n 0 orders e = some N) :
    ∃ s, construct n (emit num n names N) = some s ∧ IsExpansion num n names orders (iter a 0 e) s :=
  expandSympy_expansion num h0 hgen n 0 ho hN

/-- **C72.** `expand_sympy` with one variable raises `OrderError` exactly if the requested order is below the lowest order. -/
theorem C72_sympy_error {E : Type} [Zero E] {gen : ℕ → E → Option (Generator E)} {o : ℤ} {e : E} {g : Generator E} (hg : gen 0 e = some g) :
    expandSympy 0 gen 1 0 [o] e = none ↔ o < g.order := expandSympy_none hg

/-- **C72.** In the generated function, the name of the i-th real parameter stands for the i-th entry of `real_parameters`, that of the i-th complex parameter for
the i-th entry of `complex_parameters`. -/
theorem C72_parameters {V : Type} {reals complexes : List String} (hn : (reals ++ complexes).Nodup) (rv cv : List V) :
    (∀ (i : ℕ) (p : String), reals[i]? = some p → lookup reals complexes rv cv p = rv[i]?) ∧
    ∀ (i : ℕ) (p : String), complexes[i]? = some p → lookup reals complexes rv cv p = cv[i]? :=
  ⟨fun _ _ h => lookup_real hn rv cv h, fun _ _ h => lookup_complex hn rv cv h⟩

/-! ### Examples -/

/-- `5/b + 1/a + 2 b/a + 7 + 11 a b` expanded to the orders 1 and 1. -/
def terms1 : Terms ℤ := [([0, -1], 5), ([-1, 0], 1), ([-1, 1], 2), ([0, 0], 7), ([1, 1], 11)]

theorem terms1_ok : IsTruncation (coef terms1) [1, 1] terms1 := by
  refine ⟨?_, fun _ _ => rfl⟩
  intro t ht
  simp only [terms1, List.mem_cons, List.not_mem_nil, or_false] at ht
  rcases ht with rfl | rfl | rfl | rfl | rfl <;>
    exact List.Forall₂.cons (by decide) (List.Forall₂.cons (by decide) List.Forall₂.nil)

example : ∃ N, toNested 2 [1, 1] terms1 = some N := C72_ginac_total rfl (by decide) terms1_ok

/-- The missing powers of `b` at order -1 and 1 of `a` are filled in. -/
example : toNested 2 [1, 1] terms1 =
    some (true, [(-1, ((true, [(0, (1 : ℤ)), (1, (2 : ℤ))]) : Nested ℤ 1)), (0, ((true, [(-1, (5 : ℤ)), (0, (7 : ℤ)), (1, (0 : ℤ))]) : Nested ℤ 1)),
      (1, ((true, [(1, (11 : ℤ))]) : Nested ℤ 1))]) := rfl

/-- With a negative requested order `expand_ginac` can fail although there is something to return: `1/b**2 + a**2/b` expanded to the
orders 2 and -1: the coefficient of `a` vanishes, and its expansion to order -1 is a polynomial without terms. -/
theorem C72_gap : IsTruncation (coef [([0, -2], (1 : ℤ)), ([2, -1], 1)]) [2, -1] [([0, -2], 1), ([2, -1], 1)] ∧
    toNested 2 [2, -1] [([0, -2], (1 : ℤ)), ([2, -1], 1)] = none := by
  refine ⟨⟨?_, fun _ _ => rfl⟩, rfl⟩
  intro t ht
  simp only [List.mem_cons, List.not_mem_nil, or_false] at ht
  rcases ht with rfl | rfl <;>
    exact List.Forall₂.cons (by decide) (List.Forall₂.cons (by decide) List.Forall₂.nil)

/-- `e/x + e x` for a number `e`. -/
def laurent (_ : ℕ) (e : ℤ) (p : ℤ) : ℤ := if p = -1 ∨ p = 1 then e else 0

def laurentGen (_ : ℕ) (e : ℤ) : Option (Generator ℤ) :=
  if e = 0 then none else some ⟨-1, e, fun k => if k = 0 then some (1, e) else none⟩

theorem laurent_ok (i : ℕ) (e : ℤ) (g : Generator ℤ) (h : laurentGen i e = some g) : Generates 0 (laurent i e) g := by
  unfold laurentGen at h
  split at h
  · exact absurd h (by simp)
  · rw [Option.some.injEq] at h
    subst h
    refine ⟨?_, ?_, ?_⟩
    · intro p hp; unfold laurent; dsimp only at hp; rw [if_neg (by omega)]
    · rfl
    · intro k p hk
      dsimp only at hk ⊢
      by_cases h0 : k = 0
      · subst h0
        rw [if_pos rfl] at hk ⊢
        subst hk
        dsimp only
        refine ⟨by omega, fun q h1 h2 => ?_, rfl⟩
        unfold laurent; rw [if_neg (by omega)]
      · rw [if_neg h0] at hk ⊢
        dsimp only
        intro q hq
        obtain ⟨c, hc⟩ := hk
        split at hc
        · rw [Option.some.injEq, Prod.mk.injEq] at hc
          unfold laurent; rw [if_neg (by omega)]
        · exact absurd hc (by simp)

/-- Not truncated for order 3, truncated for order 0. -/
example : expandSympy 0 laurentGen 1 0 [3] (7 : ℤ) = some (false, [(-1, (7 : ℤ)), (0, (0 : ℤ)), (1, (7 : ℤ))]) := rfl
example : expandSympy 0 laurentGen 1 0 [0] (7 : ℤ) = some (true, [(-1, (7 : ℤ)), (0, (0 : ℤ))]) := rfl

example : ∃ s, construct 1 (emit (fun z : ℤ => (z : ℤ)) 1 ["eps"] ((false, [(-1, (7 : ℤ)), (0, (0 : ℤ)), (1, (7 : ℤ))]) : Nested ℤ 1)) = some s ∧
    IsExpansion (fun z : ℤ => (z : ℤ)) 1 ["eps"] [3] (iter laurent 0 7) s :=
  C72_sympy (gen := laurentGen) (n := 1) (orders := [3]) (e := (7 : ℤ)) _ (fun i p => by unfold laurent; split <;> rfl) laurent_ok _ rfl rfl

example : (["s", "t"] ++ ["msq"]).Nodup ∧ lookup ["s", "t"] ["msq"] [10, 20] [30] "t" = some 20 ∧ lookup ["s", "t"] ["msq"] [10, 20] [30] "msq" = some 30 := by
  refine ⟨by decide, ?_, ?_⟩
  · exact (C72_parameters (by decide) [10, 20] [30]).1 1 "t" rfl
  · exact (C72_parameters (by decide) [10, 20] [30]).2 0 "msq" rfl

end Prefactor
end SecDec
