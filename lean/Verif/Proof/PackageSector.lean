import Verif.Spec.Package
import Verif.Proof.LeadingOrderMain
import Verif.Proof.SubForm
import Verif.Proof.AnalyticOrder
import Verif.Props.LeadingOrder
/-
One sector in standard form, for positive coefficients: the product which is handed to the subtraction.
-/
namespace SecDec
namespace Package
open Squash Decomp Sector Expansion Set Subtraction Expr LeadingOrder AnalyticReg Filter Topology
variable {n : ℕ}

/-- The coefficients of the sector are positive; `Q` is a property of the exponents, `m` the number of polynomials. -/
structure Pos (Q : Poly 1 ℚ → Prop) (m : ℕ) (s : Squash.Sector n ℝ (Poly 1 ℚ)) : Prop where
  jac : 0 < s.jac.2
  other : s.other = []
  len : s.cast.length = m
  mono : ∀ p ∈ s.cast, p.mono.2 = 1
  terms : ∀ p ∈ s.cast, p.poly.terms ≠ [] ∧ ∀ t ∈ p.poly.terms, 0 < t.2 ∧ ∀ i, 0 ≤ t.1 i
  exponent : ∀ p ∈ s.cast, Q (exponentOf p.poly)

/-- The values `z` of the regulator. -/
abbrev ez (z : ℂ) : Fin 1 → ℂ := fun _ => z

/-- The remaining polynomial of a factor, with the column of the regulator. -/
def restPoly (p : SPoly n ℝ (Poly 1 ℚ)) : Poly (n + 1) ℝ := ⟨p.terms.map fun t => (withRegulator t.1, t.2)⟩

abbrev φr : ℝ →+* ℂ := Complex.ofRealHom

theorem mono_with (x : Fin (n + 1) → ℂ) (e : Expo n) : Poly.mono x (withRegulator e) = Poly.mono (fun i => x (Fin.castAdd 1 i)) e := by
  unfold Poly.mono withRegulator
  rw [Fin.prod_univ_add]
  simp

theorem restPoly_point (p : SPoly n ℝ (Poly 1 ℚ)) (z : ℂ) (t : Fin n → ℝ) :
    pev φr (point (ez z) t) (restPoly p) = ((p.eval t : ℝ) : ℂ) := by
  unfold pev restPoly SPoly.eval Poly.eval
  simp only [List.map_map]
  rw [show (((List.map (fun r : Expo n × ℝ => r.2 * Poly.mono t r.1) p.terms).sum : ℝ) : ℂ) =
    (List.map (fun r : Expo n × ℝ => ((r.2 * Poly.mono t r.1 : ℝ) : ℂ)) p.terms).sum by
      induction p.terms with
      | nil => simp
      | cons a l ih => rw [List.map_cons, List.map_cons, List.sum_cons, List.sum_cons, Complex.ofReal_add, ih]]
  congr 1
  refine List.map_congr_left fun r _ => ?_
  simp only [Function.comp, mono_with, point_castAdd]
  simp [Poly.mono]

theorem restPoly_nonneg {Q : Poly 1 ℚ → Prop} {m : ℕ} {s : Squash.Sector n ℝ (Poly 1 ℚ)} (h : Pos Q m s) :
    ∀ p ∈ s.cast, Subtraction.NonNeg (restPoly p.poly) := by
  intro p hp t ht i
  obtain ⟨u, hu, rfl⟩ := List.mem_map.1 ht
  refine Fin.addCases (fun i => ?_) (fun i => ?_) i
  · simpa [withRegulator] using ((h.terms p hp).2 u hu).2 i
  · simp [withRegulator]

/-- The value of a remaining polynomial on the cube is positive. -/
theorem eval_pos {Q : Poly 1 ℚ → Prop} {m : ℕ} {s : Squash.Sector n ℝ (Poly 1 ℚ)} (h : Pos Q m s) (hs : StandardForm (List.finRange n) s)
    {p : SProd n ℝ (Poly 1 ℚ)} (hp : p ∈ s.cast) {t : Fin n → ℝ} (ht : ∀ i, 0 ≤ t i) : 0 < p.poly.eval t := by
  obtain ⟨r, hr, h0⟩ := hs p hp
  unfold SPoly.eval Poly.eval
  have hterm : ∀ u ∈ p.poly.terms, 0 ≤ u.2 * Poly.mono t u.1 := fun u hu =>
    mul_nonneg ((h.terms p hp).2 u hu).1.le (Finset.prod_nonneg fun i _ => zpow_nonneg (ht i) _)
  have hr' : 0 < r.2 * Poly.mono t r.1 := by
    have : Poly.mono t r.1 = 1 := Finset.prod_eq_one fun i _ => by rw [h0 i (List.mem_finRange i), zpow_zero]
    rw [this, mul_one]; exact ((h.terms p hp).2 r hr).1
  refine lt_of_lt_of_le hr' (List.single_le_sum ?_ _ (List.mem_map.2 ⟨r, hr, rfl⟩))
  intro y hy
  obtain ⟨u, hu, rfl⟩ := List.mem_map.1 hy
  exact hterm u hu

theorem exponent_reg {e : Poly 1 ℚ} (he : Affine e) : RegulatorPoly (N := n) (R := 1) (allSymbols (n := n) e) := by
  intro t ht
  obtain ⟨u, hu, rfl⟩ := List.mem_map.1 ht
  refine ⟨fun i => ?_, fun i => by simp⟩
  refine Fin.addCases (fun i => by simp) (fun i => ?_) i
  have hi : i = 0 := Subsingleton.elim (α := Fin 1) _ _
  subst hi
  simp only [Fin.append_right]
  rcases he u hu with h | h <;> rw [h] <;> norm_num

theorem exponent_value {e : Poly 1 ℚ} (x : Fin (n + 1) → ℂ) :
    pev φr x (allSymbols (n := n) e) = exponentAt e (x (Fin.natAdd n 0)) := by
  unfold pev allSymbols exponentAt polyValue
  simp only [List.map_map]
  congr 1
  refine List.map_congr_left fun t _ => ?_
  simp only [Function.comp, Poly.mono]
  rw [Fin.prod_univ_add]
  simp

theorem one_reg : RegulatorPoly (N := n) (R := 1) (⟨[((fun _ => 0), 1)]⟩ : Poly (n + 1) ℝ) := by
  intro t ht
  simp only [List.mem_singleton] at ht
  subst ht
  simp

theorem pev_one (x : Fin (n + 1) → ℂ) : pev φr x (⟨[((fun _ => 0), 1)]⟩ : Poly (n + 1) ℝ) = 1 := by
  simp [pev, Poly.mono]

variable {Q : Poly 1 ℚ → Prop} {m : ℕ} {s : Squash.Sector n ℝ (Poly 1 ℚ)}

theorem init_wf (h : Pos Q m s) (hQ : ∀ e, Q e → Affine e) : WellFormed φr (initializer s) where
  coeff := by
    intro a ha
    rcases List.mem_cons.1 ha with rfl | ha
    · exact ⟨1, one_pos, by simp⟩
    · obtain ⟨p, hp, rfl⟩ := List.mem_map.1 ha
      exact ⟨1, one_pos, by simp [h.mono p hp]⟩
  monomial := by
    intro a ha i
    rcases List.mem_cons.1 ha with rfl | ha
    · simp [withRegulator]
    · obtain ⟨p, hp, rfl⟩ := List.mem_map.1 ha
      simp [withRegulator]
  exponent := by
    intro a ha
    rcases List.mem_cons.1 ha with rfl | ha
    · exact one_reg
    · obtain ⟨p, hp, rfl⟩ := List.mem_map.1 ha
      exact exponent_reg (hQ _ (h.exponent p hp))
  base := one_reg
  exp := rfl

theorem init_pole (z : ℂ) : poleDenominator φr (ez z) (initializer s) = 1 := by
  unfold poleDenominator initializer
  rw [eval_ofPoly]
  exact pev_one _

/-- The power of a parameter. -/
noncomputable def β (s : Squash.Sector n ℝ (Poly 1 ℚ)) (z : ℂ) (i : Fin n) : ℂ :=
  (s.jac.1 i : ℂ) + (s.cast.map fun p => exponentAt (exponentOf p.poly) z * (p.mono.1 i : ℂ)).sum

theorem init_power (z : ℂ) (i : Fin n) : power φr (ez z) (initializer s) i = β s z i := by
  rw [power_eq]
  unfold pw initializer β
  simp only [List.map_cons, List.sum_cons, List.map_map]
  rw [pev_one]
  congr 1
  · simp [withRegulator]
  · congr 1
    refine List.map_congr_left fun p _ => ?_
    simp only [Function.comp]
    rw [exponent_value]
    simp [withRegulator, rpt]

/-- The powers without regulator. -/
abbrev β0 (s : Squash.Sector n ℝ (Poly 1 ℚ)) (i : Fin n) : ℚ := powerAtZero s i

/-- The slopes of the powers. -/
abbrev β1 (s : Squash.Sector n ℝ (Poly 1 ℚ)) (i : Fin n) : ℚ := powerSlope s i

theorem β_eq (hQ : ∀ p ∈ s.cast, Affine (exponentOf p.poly)) (z : ℂ) (i : Fin n) : β s z i = ((β0 s i : ℝ) : ℂ) + (β1 s i : ℂ) * z := by
  unfold β
  show _ = ((((s.jac.1 i : ℚ) + (s.cast.map fun p => atZero (exponentOf p.poly) * (p.mono.1 i : ℚ)).sum : ℚ) : ℝ) : ℂ) +
    (((s.cast.map fun p => slope (exponentOf p.poly) * (p.mono.1 i : ℚ)).sum : ℚ) : ℂ) * z
  have h : ∀ l : List (SProd n ℝ (Poly 1 ℚ)), (∀ p ∈ l, Affine (exponentOf p.poly)) →
      (l.map fun p => exponentAt (exponentOf p.poly) z * (p.mono.1 i : ℂ)).sum =
        (((l.map fun p => atZero (exponentOf p.poly) * (p.mono.1 i : ℚ)).sum : ℚ) : ℂ) +
          (((l.map fun p => slope (exponentOf p.poly) * (p.mono.1 i : ℚ)).sum : ℚ) : ℂ) * z := by
    intro l
    induction l with
    | nil => intro _; simp
    | cons p l ih =>
      intro hl
      simp only [List.map_cons, List.sum_cons]
      rw [ih fun q hq => hl q (by simp [hq]), exponentAt_eq (hl p (by simp))]
      simp only [Rat.cast_add, Rat.cast_mul, Rat.cast_intCast]
      ring
  rw [h _ hQ]
  simp only [Rat.cast_add, Rat.cast_intCast, Complex.ofReal_add, Complex.ofReal_intCast, Complex.ofReal_ratCast]
  ring

/-- The regular part of the integrand. -/
noncomputable def G (s : Squash.Sector n ℝ (Poly 1 ℚ)) (x : Fin n → ℂ) (z : ℂ) : ℂ := fI φr (initializer s) (pt x z)

theorem pt_eq (t : Fin n → ℝ) (z : ℂ) : pt (fun i => (t i : ℂ)) z = point (ez z) t := rfl

theorem init_value (h : Pos Q m s) (hQ : ∀ e, Q e → Affine e) (z : ℂ) {t : Fin n → ℝ} (ht : ∀ i, 0 < t i) :
    value φr (ez z) (initializer s) t = (∏ i, (t i : ℂ) ^ (β s z i)) * G s (fun i => (t i : ℂ)) z := by
  rw [value_eq (init_wf h hQ) ht]
  have h1 : cst φr (ez z) (initializer s) = 1 := by
    unfold cst kappa
    have : pev φr (rpt n (ez z)) (initializer s).regBase = 1 := pev_one _
    rw [this, inv_one, mul_one]
    refine List.prod_eq_one ?_
    intro y hy
    obtain ⟨a, ha, rfl⟩ := List.mem_map.1 hy
    rcases List.mem_cons.1 ha with rfl | ha
    · simp
    · obtain ⟨p, hp, rfl⟩ := List.mem_map.1 ha
      simp [h.mono p hp]
  rw [h1, one_mul, G, pt_eq]
  congr 1
  refine Finset.prod_congr rfl fun i _ => ?_
  rw [← power_eq, init_power]

/-- The value of `cal_I`. -/
theorem fI_init (z : ℂ) (t : Fin n → ℝ) : G s (fun i => (t i : ℂ)) z =
    (s.jac.2 : ℂ) * (s.cast.map fun p => ((p.poly.eval t : ℝ) : ℂ) ^ exponentAt (exponentOf p.poly) z).prod := by
  rw [G, pt_eq, fI, eval_prod]
  simp only [initializer, List.map_cons, List.prod_cons, List.map_map]
  congr 1
  · rw [eval_poly]; simp [eval_num, Poly.mono]
  · congr 1
    refine List.map_congr_left fun p _ => ?_
    simp only [Function.comp]
    rw [eval_pow, ofPoly, eval_ofPoly, exponent_value, point_natAdd]
    congr 1
    rw [← restPoly_point p.poly z, ← eval_ofPoly]
    simp [restPoly, List.map_map, Function.comp_def]

/-- The integrand of the sector is the product which is handed to the subtraction. -/
theorem integrand_value (h : Pos Q m s) (hs : StandardForm (List.finRange n) s) (z : ℂ) {t : Fin n → ℝ} (ht : ∀ i, 0 < t i) :
    Decomp.integrand (fun c _ => (c.map fun v => ((v.1 : ℝ) : ℂ) ^ exponentAt (v.2.getD ⟨[((fun _ => 0), 1)]⟩) z).prod) s t =
      (∏ i, (t i : ℂ) ^ (β s z i)) * G s (fun i => (t i : ℂ)) z := by
  rw [fI_init]
  unfold Decomp.integrand
  simp only [Squash.Sector.value, List.map_map]
  have hm : ∀ e : Expo n, 0 < Poly.mono t e := fun e => Finset.prod_pos fun i _ => zpow_pos (ht i) _
  have h1 : ∀ l : List (SProd n ℝ (Poly 1 ℚ)), (∀ p ∈ l, p ∈ s.cast) →
      (l.map ((fun v : ℝ × Option (Poly 1 ℚ) => ((v.1 : ℝ) : ℂ) ^ exponentAt (v.2.getD ⟨[((fun _ => 0), 1)]⟩) z) ∘
        fun p : SProd n ℝ (Poly 1 ℚ) => (p.mono.2 * Poly.mono t p.mono.1 * p.poly.eval t, p.poly.exponent))).prod =
      (∏ i, (t i : ℂ) ^ ((l.map fun p => exponentAt (exponentOf p.poly) z * (p.mono.1 i : ℂ)).sum)) *
        (l.map fun p => ((p.poly.eval t : ℝ) : ℂ) ^ exponentAt (exponentOf p.poly) z).prod := by
    intro l
    induction l with
    | nil => intro _; simp
    | cons p l ih =>
      intro hl
      simp only [List.map_cons, List.prod_cons, List.sum_cons]
      rw [ih fun q hq => hl q (by simp [hq])]
      simp only [Function.comp]
      rw [h.mono p (hl p (by simp)), one_mul, Complex.ofReal_mul,
        Complex.mul_cpow_ofReal_nonneg (hm _).le (eval_pos h hs (hl p (by simp)) fun i => (ht i).le).le]
      have e1 : ((Poly.mono t p.mono.1 : ℝ) : ℂ) ^ exponentAt (exponentOf p.poly) z =
          ∏ i, (t i : ℂ) ^ (exponentAt (exponentOf p.poly) z * (p.mono.1 i : ℂ)) := prod_zpow_cpow ht _ _
      have e2 : ∀ i, (t i : ℂ) ^ (exponentAt (exponentOf p.poly) z * (p.mono.1 i : ℂ) +
          (l.map fun p => exponentAt (exponentOf p.poly) z * (p.mono.1 i : ℂ)).sum) =
          (t i : ℂ) ^ (exponentAt (exponentOf p.poly) z * (p.mono.1 i : ℂ)) *
            (t i : ℂ) ^ ((l.map fun p => exponentAt (exponentOf p.poly) z * (p.mono.1 i : ℂ)).sum) :=
        fun i => Complex.cpow_add _ _ (by exact_mod_cast (ht i).ne')
      simp only [e2, Finset.prod_mul_distrib]
      rw [← e1]
      have e3 : p.poly.exponent.getD ⟨[((fun _ => 0), 1)]⟩ = exponentOf p.poly := rfl
      rw [e3]
      ring
  rw [h1 s.cast fun _ h => h]
  have e4 : ((Poly.mono t s.jac.1 : ℝ) : ℂ) = ∏ i, (t i : ℂ) ^ (s.jac.1 i : ℂ) := by
    simp [Poly.mono]
  have e5 : ∀ i, (t i : ℂ) ^ (β s z i) = (t i : ℂ) ^ (s.jac.1 i : ℂ) *
      (t i : ℂ) ^ ((s.cast.map fun p => exponentAt (exponentOf p.poly) z * (p.mono.1 i : ℂ)).sum) :=
    fun i => Complex.cpow_add _ _ (by exact_mod_cast (ht i).ne')
  simp only [e5, Finset.prod_mul_distrib]
  rw [← e4, Complex.real_smul, Complex.ofReal_mul]
  ring

/-- The set where `cal_I` is admissible. -/
def good (s : Squash.Sector n ℝ (Poly 1 ℚ)) : Set (Fin (n + 1) → ℂ) := {x | ∀ p ∈ s.cast, pev φr x (restPoly p.poly) ∈ Complex.slitPlane}

theorem good_open (h : Pos Q m s) : IsOpen (good s) := by
  have : ∀ l : List (SProd n ℝ (Poly 1 ℚ)), (∀ p ∈ l, p ∈ s.cast) →
      IsOpen {x : Fin (n + 1) → ℂ | ∀ p ∈ l, pev φr x (restPoly p.poly) ∈ Complex.slitPlane} := by
    intro l
    induction l with
    | nil => intro _; simp
    | cons p l ih =>
      intro hl
      have e : {x : Fin (n + 1) → ℂ | ∀ q ∈ p :: l, pev φr x (restPoly q.poly) ∈ Complex.slitPlane} =
          {x | pev φr x (restPoly p.poly) ∈ Complex.slitPlane} ∩ {x | ∀ q ∈ l, pev φr x (restPoly q.poly) ∈ Complex.slitPlane} := by
        ext x; simp
      rw [e]
      refine IsOpen.inter ?_ (ih fun q hq => hl q (by simp [hq]))
      refine Complex.isOpen_slitPlane.preimage ?_
      exact continuous_iff_continuousAt.2 fun x => (pev_continuous (restPoly_nonneg h p (hl p (by simp))) x trivial).continuousAt
  exact this s.cast fun _ h => h

theorem point_good (h : Pos Q m s) (hs : StandardForm (List.finRange n) s) (z : ℂ) {t : Fin n → ℝ} (ht : t ∈ Icc (0 : Fin n → ℝ) 1) :
    point (ez z) t ∈ good s := by
  intro p hp
  rw [restPoly_point]
  exact Complex.ofReal_mem_slitPlane.2 (eval_pos h hs hp fun i => ht.1 i)

theorem init_adm (h : Pos Q m s) (hQ : ∀ e, Q e → Affine e) {M : Mode (n + 1) ℝ} (hc : ∀ c, M.coef (.num c))
    (he : ∀ e, Q e → M.expo (ofPoly (allSymbols (n := n) e))) : ∀ e ∈ (initializer s).calI, Adm M φr (good s) e := by
  intro e hem
  rcases List.mem_cons.1 hem with rfl | hem
  · refine Adm.poly _ ?_ ?_ ?_ <;> intro t ht <;> simp only [List.mem_singleton] at ht <;> subst ht
    · intro x _ i _; simp
    · exact Adm.num _
    · exact hc _
  · obtain ⟨p, hp, rfl⟩ := List.mem_map.1 hem
    have hpoly : ∀ q : Poly (n + 1) ℝ, Subtraction.NonNeg q → Adm M φr (good s) (.poly (q.terms.map fun t => (t.1, .num t.2))) := by
      intro q hq
      refine Adm.poly _ ?_ ?_ ?_ <;> intro t ht <;> obtain ⟨u, hu, rfl⟩ := List.mem_map.1 ht
      · exact fun x _ i _ => hq u hu i
      · exact Adm.num _
      · exact hc _
    have hb := hpoly _ (restPoly_nonneg h p hp)
    simp only [restPoly, List.map_map, Function.comp_def] at hb
    refine Adm.pow _ _ hb (hpoly _ fun t ht i => ((exponent_reg (hQ _ (h.exponent p hp))) t ht).1 i) (he _ (h.exponent p hp)) ?_
    intro x hx
    have := hx p hp
    rw [← eval_ofPoly] at this
    simpa only [restPoly, List.map_map, Function.comp_def] using this

theorem flat_exponent (e : Poly 1 ℚ) : Flat (ofPoly (allSymbols (n := n) e) : Expr (n + 1) ℝ) := by
  refine Flat.poly _ fun t ht => ?_
  obtain ⟨u, _, rfl⟩ := List.mem_map.1 ht
  exact ⟨_, rfl⟩

end Package
end SecDec
