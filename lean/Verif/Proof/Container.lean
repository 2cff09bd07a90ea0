import Verif.Spec.Container
import Mathlib.MeasureTheory.Integral.Prod
import Mathlib.MeasureTheory.Measure.Lebesgue.Basic
/-
Proofs for C69.
-/
namespace SecDec
namespace Container

/-! ### Programs -/

theorem call_leaf (σ : Store) (fuel : ℕ) (f : Integrand) (x : ℕ → ℝ) (p : List ℝ) : call σ fuel (.leaf f) x p = some (f x p) := by
  rw [call.eq_def]

theorem call_neg_zero (σ : Store) (i : ℕ) (x : ℕ → ℝ) (p : List ℝ) : call σ 0 (.neg i) x p = none := by
  rw [call.eq_def]

theorem call_neg_succ (σ : Store) (fuel i : ℕ) (x : ℕ → ℝ) (p : List ℝ) :
    call σ (fuel + 1) (.neg i) x p = (σ i).bind fun c => (call σ fuel c.fn x p).map fun a => (-a.1, a.2) := by
  rw [call.eq_def]

/-- The function of a container means `g`, where the objects in `F` are used by address. -/
inductive Denotes (F : Set ℕ) (σ : Store) : ℕ → Fn → Integrand → Prop where
  | leaf (n : ℕ) (f : Integrand) : Denotes F σ n (.leaf f) f
  | bin (n : ℕ) (op : Op) (p1 p2 : List (List ℝ)) (f1 f2 : Fn) (g1 g2 : Integrand) (h1 : Denotes F σ n f1 g1) (h2 : Denotes F σ n f2 g2) :
      Denotes F σ n (.bin op p1 f1 p2 f2) fun x _ =>
        (op.apply (g1 x (dataptr p1)).1 (g2 x (dataptr p2)).1, (g1 x (dataptr p1)).2 ++ (g2 x (dataptr p2)).2)
  | neg (n : ℕ) (i : ℕ) (c : Cont) (g : Integrand) (hi : i ∈ F) (hc : σ i = some c) (h : Denotes F σ n c.fn g) :
      Denotes F σ (n + 1) (.neg i) fun x p => (-(g x p).1, (g x p).2)
  | part (n : ℕ) (imag : Bool) (f : Fn) (g : Integrand) (h : Denotes F σ n f g) :
      Denotes F σ n (.part imag f) fun x p => (if imag then ((g x p).1.im : ℂ) else ((g x p).1.re : ℂ), (g x p).2)

theorem Denotes.call {F : Set ℕ} {σ : Store} {n : ℕ} {f : Fn} {g : Integrand} (h : Denotes F σ n f g) :
    ∀ (x : ℕ → ℝ) (p : List ℝ), call σ n f x p = some (g x p) := by
  induction h with
  | leaf n f => intro x p; rw [Container.call.eq_def]
  | bin n op p1 p2 f1 f2 g1 g2 _ _ ih1 ih2 =>
    intro x p
    rw [Container.call.eq_def]
    dsimp only
    rw [ih1, ih2]; rfl
  | neg n i c g hi hc _ ih =>
    intro x p
    rw [Container.call.eq_def]
    dsimp only
    rw [hc, Option.bind_some, ih]; rfl
  | part n imag f g _ ih =>
    intro x p
    rw [Container.call.eq_def]
    dsimp only
    rw [ih]; rfl

theorem Denotes.mono {F F' : Set ℕ} {σ σ' : Store} {n n' : ℕ} {f : Fn} {g : Integrand} (h : Denotes F σ n f g) (hF : F ⊆ F')
    (hσ : ∀ i ∈ F, σ' i = σ i) (hn : n ≤ n') : Denotes F' σ' n' f g := by
  induction h generalizing n' with
  | leaf n f => exact .leaf _ f
  | bin n op p1 p2 f1 f2 g1 g2 _ _ ih1 ih2 => exact .bin _ op p1 p2 f1 f2 g1 g2 (ih1 hn) (ih2 hn)
  | neg n i c g hi hc _ ih =>
    obtain ⟨k, rfl⟩ : ∃ k, n' = k + 1 := ⟨n' - 1, by omega⟩
    exact .neg k i c g (hF hi) (by rw [hσ i hi]; exact hc) (ih (by omega))
  | part n imag f g _ ih => exact .part _ imag f g (ih hn)

/-- The invariant. -/
def Inv (F : Set ℕ) (n : ℕ) (σ : Store) (ρ : Env) : Prop :=
  ∀ i, (σ i = none ∧ ρ i = none) ∨
    ∃ c v g, σ i = some c ∧ ρ i = some v ∧ c.dim = v.dim ∧ Denotes F σ n c.fn g ∧ ∀ x, g x (dataptr c.params) = v.f x

/-- The new value of one variable. -/
theorem Inv.update {F F' : Set ℕ} {n n' : ℕ} {σ : Store} {ρ : Env} (h : Inv F n σ ρ) (hF : F ⊆ F') (hn : n ≤ n') (x : ℕ) (hx : x ∉ F')
    (c : Option Cont) (v : Option Value)
    (hcv : (c = none ∧ v = none) ∨ ∃ c' v' g, c = some c' ∧ v = some v' ∧ c'.dim = v'.dim ∧ Denotes F' σ n' c'.fn g ∧
      ∀ y, g y (dataptr c'.params) = v'.f y) : Inv F' n' (Function.update σ x c) (Function.update ρ x v) := by
  have agree' : ∀ i ∈ F', Function.update σ x c i = σ i := fun i hi => Function.update_of_ne (fun e => hx (by rw [← e]; exact hi)) _ _
  have agree : ∀ i ∈ F, Function.update σ x c i = σ i := fun i hi => agree' i (hF hi)
  intro i
  by_cases e : i = x
  · subst e
    rw [Function.update_self, Function.update_self]
    refine hcv.imp id ?_
    rintro ⟨c', v', g, h1, h2, h3, h4, h5⟩
    exact ⟨c', v', g, h1, h2, h3, h4.mono subset_rfl agree' le_rfl, h5⟩
  · rw [Function.update_of_ne e, Function.update_of_ne e]
    refine (h i).imp id ?_
    rintro ⟨c', v', g, h1, h2, h3, h4, h5⟩
    exact ⟨c', v', g, h1, h2, h3, h4.mono hF agree hn, h5⟩

/-- The objects used by address after a statement. -/
def used (F : Set ℕ) : Stmt → Set ℕ
  | .neg _ y => insert y F
  | _ => F

/-- The nesting after a statement. -/
def depth (n : ℕ) : Stmt → ℕ
  | .neg _ _ => n + 1
  | _ => n

theorem Inv.step {F : Set ℕ} {n : ℕ} {σ : Store} {ρ : Env} (h : Inv F n σ ρ) (s : Stmt) (hs : s.target ∉ used F s) :
    Inv (used F s) (depth n s) (exec σ s) (meaning ρ s) := by
  cases s with
  | new x dim params f =>
    exact h.update subset_rfl le_rfl x hs _ _ (.inr ⟨_, _, _, rfl, rfl, rfl, .leaf _ f, fun _ => rfl⟩)
  | copy x y =>
    exact h.update subset_rfl le_rfl x hs _ _ (h y)
  | bin op x y z =>
    refine h.update subset_rfl le_rfl x hs _ _ ?_
    rcases h y with ⟨h1, h2⟩ | ⟨c, v, g, h1, h2, h3, h4, h5⟩
    · left; rw [h1, h2]; exact ⟨rfl, rfl⟩
    · rcases h z with ⟨k1, k2⟩ | ⟨c', v', g', k1, k2, k3, k4, k5⟩
      · left; rw [h1, h2, k1, k2]; exact ⟨rfl, rfl⟩
      · right
        rw [h1, h2, k1, k2]
        refine ⟨_, _, _, rfl, rfl, ?_, .bin _ op c.params c'.params c.fn c'.fn g g' h4 k4, ?_⟩
        · show max c.dim c'.dim = max v.dim v'.dim
          rw [h3, k3]
        · intro y
          dsimp only
          rw [h5, k5]
          cases op <;> rfl
  | neg x y =>
    refine h.update (Set.subset_insert _ _) (Nat.le_succ _) x hs _ _ ?_
    rcases h y with ⟨h1, h2⟩ | ⟨c, v, g, h1, h2, h3, h4, h5⟩
    · left; rw [h1, h2]; exact ⟨rfl, rfl⟩
    · right
      rw [h1, h2]
      refine ⟨_, _, _, rfl, rfl, h3, .neg n y c g (Set.mem_insert _ _) h1 (h4.mono (Set.subset_insert _ _) (fun _ _ => rfl) le_rfl), ?_⟩
      intro z
      show (-(g z (dataptr c.params)).1, (g z (dataptr c.params)).2) = _
      rw [h5]
  | part imag x y =>
    refine h.update subset_rfl le_rfl x hs _ _ ?_
    rcases h y with ⟨h1, h2⟩ | ⟨c, v, g, h1, h2, h3, h4, h5⟩
    · left; rw [h1, h2]; exact ⟨rfl, rfl⟩
    · right
      rw [h1, h2]
      refine ⟨_, _, _, rfl, rfl, h3, .part n imag c.fn g h4, ?_⟩
      intro z
      show ((if imag then ((g z (dataptr c.params)).1.im : ℂ) else ((g z (dataptr c.params)).1.re : ℂ)), (g z (dataptr c.params)).2) = _
      rw [h5]
  | drop x =>
    exact h.update subset_rfl le_rfl x hs _ _ (.inl ⟨rfl, rfl⟩)

/-- The number of unary minuses. -/
def minuses (prog : List Stmt) : ℕ := prog.foldl depth 0

theorem inv_run (post : List Stmt) : ∀ (pre : List Stmt) (F : Set ℕ) (n : ℕ) (σ : Store) (ρ : Env), KeepsNegated (pre ++ post) →
    (∀ i ∈ F, ∃ a x b, pre = a ++ .neg x i :: b) → Inv F n σ ρ →
    ∃ F', Inv F' (post.foldl depth n) (post.foldl exec σ) (post.foldl meaning ρ) := by
  induction post with
  | nil => intro pre F n σ ρ _ _ h; exact ⟨F, h⟩
  | cons s post ih =>
    intro pre F n σ ρ hk hF h
    have hold : ∀ i ∈ F, s.target ≠ i := by
      intro i hi
      obtain ⟨a, x, b, rfl⟩ := hF i hi
      exact (hk a x i (b ++ s :: post) (by simp)).2 s (by simp)
    have hs : s.target ∉ used F s := by
      intro hmem
      cases s with
      | neg x y =>
        rcases hmem with e | e
        · exact (hk pre x y post rfl).1 e
        · exact hold _ e rfl
      | _ => exact hold _ hmem rfl
    have := ih (pre ++ [s]) (used F s) (depth n s) (exec σ s) (meaning ρ s) (by simpa using hk) ?_ (h.step s hs)
    · simpa using this
    · intro i hi
      have old : ∀ i ∈ F, ∃ a x b, pre ++ [s] = a ++ .neg x i :: b := by
        intro i hi
        obtain ⟨a, x, b, rfl⟩ := hF i hi
        exact ⟨a, x, b ++ [s], by simp⟩
      cases s with
      | neg x y =>
        rcases hi with rfl | hi
        · exact ⟨pre, x, [], rfl⟩
        · exact old i hi
      | _ => exact old i hi

theorem agrees (prog : List Stmt) (hk : KeepsNegated prog) (i : ℕ) : Agrees (prog.foldl depth 0) prog i := by
  obtain ⟨F, h⟩ := inv_run prog [] ∅ 0 (fun _ => none) (fun _ => none) hk (by simp) (fun i => .inl ⟨rfl, rfl⟩)
  rcases h i with h | ⟨c, v, g, h1, h2, h3, h4, h5⟩
  · exact .inl h
  · refine .inr ⟨c, v, h1, h2, h3, fun x => ?_⟩
    have := h4.call x (dataptr c.params)
    rw [h5] at this
    exact this

theorem depth_noMinus (prog : List Stmt) (h : NoMinus prog) : prog.foldl depth 0 = 0 := by
  have : ∀ n, prog.foldl depth n = n := by
    induction prog with
    | nil => intro n; rfl
    | cons s prog ih =>
      intro n
      rw [List.foldl_cons, ih (fun x y hm => h x y (List.mem_cons_of_mem _ hm))]
      cases s with
      | neg x y => exact absurd List.mem_cons_self (h x y)
      | _ => rfl
  exact this 0

/-! ### Integrals -/

open MeasureTheory

theorem integral_step (d : ℕ) (f : (ℕ → ℝ) → ℂ) (h : DependsOn d f) : integral (d + 1) f = integral d f := by
  unfold integral
  have e := (volume_preserving_piFinSuccAbove (fun _ : Fin (d + 1) => ℝ) (Fin.last d))
  have hset : (Set.Icc 0 1 : Set (Fin (d + 1) → ℝ)) = MeasurableEquiv.piFinSuccAbove (fun _ : Fin (d + 1) => ℝ) (Fin.last d) ⁻¹'
      (Set.Icc (0 : ℝ) 1 ×ˢ (Set.Icc 0 1 : Set (Fin d → ℝ))) := by
    ext x
    simp only [Set.mem_Icc, Set.mem_preimage, Set.mem_prod, Pi.le_def, MeasurableEquiv.piFinSuccAbove_apply, Fin.removeNth]
    constructor
    · rintro ⟨h1, h2⟩
      exact ⟨⟨h1 _, h2 _⟩, fun i => h1 _, fun i => h2 _⟩
    · rintro ⟨⟨h1, h2⟩, h3, h4⟩
      refine ⟨fun i => ?_, fun i => ?_⟩
      · refine Fin.lastCases h1 (fun j => ?_) i
        have := h3 j
        have e : ((Fin.insertNthEquiv (fun _ => ℝ) (Fin.last d)).symm x).2 j = x ((Fin.last d).succAbove j) := rfl
        rw [e, Fin.succAbove_last] at this
        exact this
      · refine Fin.lastCases h2 (fun j => ?_) i
        have := h4 j
        have e : ((Fin.insertNthEquiv (fun _ => ℝ) (Fin.last d)).symm x).2 j = x ((Fin.last d).succAbove j) := rfl
        rw [e, Fin.succAbove_last] at this
        exact this
  have hf : ∀ x : Fin (d + 1) → ℝ, f (extend x) = (fun p : ℝ × (Fin d → ℝ) => f (extend p.2))
      (MeasurableEquiv.piFinSuccAbove (fun _ : Fin (d + 1) => ℝ) (Fin.last d) x) := by
    intro x
    refine h _ _ fun i hi => ?_
    have e : (MeasurableEquiv.piFinSuccAbove (fun _ : Fin (d + 1) => ℝ) (Fin.last d) x).2 ⟨i, hi⟩ = x ((Fin.last d).succAbove ⟨i, hi⟩) := rfl
    simp only [extend, hi, dif_pos, show i < d + 1 by omega]
    rw [e, Fin.succAbove_last]
    rfl
  rw [hset]
  have h1 := e.setIntegral_preimage_emb (MeasurableEquiv.measurableEmbedding _) (fun p : ℝ × (Fin d → ℝ) => f (extend p.2))
    (Set.Icc (0 : ℝ) 1 ×ˢ (Set.Icc 0 1 : Set (Fin d → ℝ)))
  rw [Measure.volume_eq_prod, ← Measure.prod_restrict, integral_fun_snd (f := fun y : Fin d → ℝ => f (extend y))] at h1
  simp only [hf]
  refine h1.trans ?_
  simp

theorem integral_more (d N : ℕ) (hdN : d ≤ N) (f : (ℕ → ℝ) → ℂ) (h : DependsOn d f) : integral N f = integral d f := by
  obtain ⟨k, rfl⟩ := Nat.exists_eq_add_of_le hdN
  induction k with
  | zero => rfl
  | succ k ih =>
    rw [← Nat.add_assoc, integral_step _ f fun x y hxy => h x y fun i hi => hxy i (by omega)]
    exact ih (by omega)

/-! ### Errors -/

/-- The reports of a thread. -/
def Filing.reports : Filing → List Report
  | .ready l => l
  | .first r l => r :: l
  | .second r l => r :: l

/-- The invariant: before the first claim nothing has happened; afterwards one report is in the record, or is being written. -/
structure FillInv {T : ℕ} (s0 s : FillState T) : Prop where
  sub : ∀ j, ∀ r ∈ (s.thread j).reports, r ∈ (s0.thread j).reports
  empty : s.info.filled = false → s = s0
  busy : ∀ j j', (¬ ∃ l, s.thread j = .ready l) → (¬ ∃ l, s.thread j' = .ready l) → j = j'
  second : ∀ j r l, s.thread j = .second r l → s.info.value = r.value
  quiet : (∀ j, ∃ l, s.thread j = .ready l) → s.info.filled = true → ∃ j, ∃ r ∈ (s0.thread j).reports, s.info.value = r.value ∧ s.info.id = r.id

theorem fill_step {T : ℕ} {s0 s s' : FillState T} (hs0 : ∀ j, ∃ l, s0.thread j = .ready l) (h : Fill s s') (hI : FillInv s0 s) : FillInv s0 s' := by
  have notready : ∀ (t : Filing), (∃ l, t = .ready l) ∨ ¬ ∃ l, t = .ready l := fun _ => em _
  cases h with
  | claim j r l h hf =>
    have hs := hI.empty hf
    refine ⟨?_, fun h => absurd h (by simp), ?_, ?_, ?_⟩
    · intro j' x hx
      dsimp only at hx
      by_cases e : j' = j
      · subst e
        rw [Function.update_self] at hx
        exact hI.sub j' x (by rw [h]; exact hx)
      · rw [Function.update_of_ne e] at hx
        exact hI.sub j' x hx
    · intro a b ha hb
      have key : ∀ a, (¬ ∃ l', Function.update s.thread j (.first r l) a = .ready l') → a = j := by
        intro a ha
        by_contra e
        rw [Function.update_of_ne e, hs] at ha
        exact ha (hs0 a)
      rw [key a ha, key b hb]
    · intro a r' l' ha
      dsimp only at ha
      exfalso
      by_cases e : a = j
      · subst e; rw [Function.update_self] at ha; cases ha
      · rw [Function.update_of_ne e, hs] at ha
        obtain ⟨l2, h2⟩ := hs0 a
        rw [h2] at ha; cases ha
    · intro hq _
      obtain ⟨l2, h2⟩ := hq j
      dsimp only at h2
      rw [Function.update_self] at h2; cases h2
  | skip j r l h hf =>
    have other : ∀ a, (¬ ∃ l', Function.update s.thread j (.ready l) a = .ready l') → ¬ ∃ l', s.thread a = .ready l' := by
      intro a ha
      by_cases e : a = j
      · subst e; rw [Function.update_self] at ha; exact absurd ⟨l, rfl⟩ ha
      · rwa [Function.update_of_ne e] at ha
    refine ⟨?_, fun h => absurd hf (by rw [h]; simp), fun a b ha hb => hI.busy a b (other a ha) (other b hb), ?_, ?_⟩
    · intro j' x hx
      dsimp only at hx
      by_cases e : j' = j
      · subst e
        rw [Function.update_self] at hx
        exact hI.sub j' x (by rw [h]; exact List.mem_cons_of_mem _ hx)
      · rw [Function.update_of_ne e] at hx
        exact hI.sub j' x hx
    · intro a r' l' ha
      dsimp only at ha
      by_cases e : a = j
      · subst e; rw [Function.update_self] at ha; cases ha
      · rw [Function.update_of_ne e] at ha
        exact hI.second a r' l' ha
    · intro hq hf'
      refine hI.quiet (fun a => ?_) hf'
      by_cases e : a = j
      · subst e; exact ⟨_, h⟩
      · have := hq a
        dsimp only at this
        rwa [Function.update_of_ne e] at this
  | value j r l h =>
    have hj : ¬ ∃ l', s.thread j = .ready l' := by rintro ⟨l', e⟩; rw [h] at e; cases e
    have other : ∀ a, a ≠ j → ∃ l', s.thread a = .ready l' := by
      intro a ha
      by_contra e
      exact ha (hI.busy a j e hj)
    refine ⟨?_, ?_, ?_, ?_, ?_⟩
    · intro j' x hx
      dsimp only at hx
      by_cases e : j' = j
      · subst e
        rw [Function.update_self] at hx
        exact hI.sub j' x (by rw [h]; exact hx)
      · rw [Function.update_of_ne e] at hx
        exact hI.sub j' x hx
    · intro hf
      have := hI.empty hf
      rw [this] at hj
      exact absurd (hs0 j) hj
    · intro a b ha hb
      have key : ∀ a, (¬ ∃ l', Function.update s.thread j (.second r l) a = .ready l') → a = j := by
        intro a ha
        by_contra e
        rw [Function.update_of_ne e] at ha
        exact ha (other a e)
      rw [key a ha, key b hb]
    · intro a r' l' ha
      dsimp only at ha
      by_cases e : a = j
      · subst e; rw [Function.update_self] at ha; cases ha; rfl
      · rw [Function.update_of_ne e] at ha
        obtain ⟨l2, h2⟩ := other a e
        rw [h2] at ha; cases ha
    · intro hq _
      obtain ⟨l2, h2⟩ := hq j
      dsimp only at h2
      rw [Function.update_self] at h2; cases h2
  | id j r l h =>
    have hj : ¬ ∃ l', s.thread j = .ready l' := by rintro ⟨l', e⟩; rw [h] at e; cases e
    have other : ∀ a, a ≠ j → ∃ l', s.thread a = .ready l' := by
      intro a ha
      by_contra e
      exact ha (hI.busy a j e hj)
    have all : ∀ a, ∃ l', Function.update s.thread j (.ready l) a = .ready l' := by
      intro a
      by_cases e : a = j
      · subst e; exact ⟨l, Function.update_self _ _ _⟩
      · rw [Function.update_of_ne e]; exact other a e
    refine ⟨?_, ?_, fun a b ha _ => absurd (all a) ha, ?_, ?_⟩
    · intro j' x hx
      dsimp only at hx
      by_cases e : j' = j
      · subst e
        rw [Function.update_self] at hx
        exact hI.sub j' x (by rw [h]; exact List.mem_cons_of_mem _ hx)
      · rw [Function.update_of_ne e] at hx
        exact hI.sub j' x hx
    · intro hf
      have := hI.empty hf
      rw [this] at hj
      exact absurd (hs0 j) hj
    · intro a r' l' ha
      dsimp only at ha
      obtain ⟨l2, h2⟩ := all a
      rw [h2] at ha; cases ha
    · intro _ _
      exact ⟨j, r, hI.sub j r (by rw [h]; exact List.mem_cons_self), hI.second j r l h, rfl⟩

theorem fill_end {T : ℕ} {s0 s : FillState T} (hs0 : ∀ j, ∃ l, s0.thread j = .ready l) (hf : s0.info.filled = false)
    (h : Relation.ReflTransGen Fill s0 s) (hd : ∀ j, s.thread j = .ready []) :
    (s.info = s0.info ∧ ∀ j, s0.thread j = .ready []) ∨
      s.info.filled = true ∧ ∃ j, ∃ r ∈ (s0.thread j).reports, s.info.value = r.value ∧ s.info.id = r.id := by
  have hI : FillInv s0 s := by
    clear hd
    induction h with
    | refl => exact ⟨fun _ _ h => h, fun _ => rfl, fun a _ ha _ => absurd (hs0 a) ha,
        fun a r l ha => (by obtain ⟨l2, h2⟩ := hs0 a; rw [h2] at ha; cases ha), fun _ h => by rw [hf] at h; cases h⟩
    | tail _ h2 ih => exact fill_step hs0 h2 ih
  cases e : s.info.filled with
  | false =>
    have := hI.empty e
    subst this
    exact .inl ⟨rfl, hd⟩
  | true => exact .inr ⟨rfl, hI.quiet (fun j => ⟨[], hd j⟩) e⟩

/-- The steps that are left to a thread. -/
def Filing.work : Filing → ℕ
  | .ready l => 3 * l.length
  | .first _ l => 3 * l.length + 2
  | .second _ l => 3 * l.length + 1

theorem work_update {T : ℕ} (f : Fin T → Filing) (j : Fin T) (t : Filing) (h : t.work < (f j).work) :
    ∑ i, (Function.update f j t i).work < ∑ i, (f i).work := by
  refine Finset.sum_lt_sum (fun i _ => ?_) ⟨j, Finset.mem_univ j, by rwa [Function.update_self]⟩
  by_cases e : i = j
  · subst e; rw [Function.update_self]; exact h.le
  · rw [Function.update_of_ne e]

theorem fill_work {T : ℕ} {s s' : FillState T} (h : Fill s s') : ∑ j, (s'.thread j).work < ∑ j, (s.thread j).work := by
  cases h with
  | claim j r l h hf => exact work_update _ j _ (by rw [h]; simp [Filing.work]; omega)
  | skip j r l h hf => exact work_update _ j _ (by rw [h]; simp [Filing.work])
  | value j r l h => exact work_update _ j _ (by rw [h]; simp [Filing.work])
  | id j r l h => exact work_update _ j _ (by rw [h]; simp [Filing.work])

theorem fill_progress {T : ℕ} (s : FillState T) (h : ∃ j, s.thread j ≠ .ready []) : ∃ s', Fill s s' := by
  obtain ⟨j, hj⟩ := h
  cases e : s.thread j with
  | ready l =>
    cases l with
    | nil => exact absurd e hj
    | cons r l =>
      cases hf : s.info.filled with
      | false => exact ⟨_, .claim s j r l e hf⟩
      | true => exact ⟨_, .skip s j r l e hf⟩
  | first r l => exact ⟨_, .value s j r l e⟩
  | second r l => exact ⟨_, .id s j r l e⟩

theorem fill_exists {T : ℕ} (s : FillState T) : ∃ s', Relation.ReflTransGen Fill s s' ∧ ∀ j, s'.thread j = .ready [] := by
  generalize hw : ∑ j, (s.thread j).work = w
  induction w using Nat.strong_induction_on generalizing s with
  | _ w ih =>
    by_cases h : ∃ j, s.thread j ≠ .ready []
    · obtain ⟨s1, h1⟩ := fill_progress s h
      obtain ⟨s2, h2, h3⟩ := ih _ (by rw [← hw]; exact fill_work h1) s1 rfl
      exact ⟨s2, .head h1 h2, h3⟩
    · push Not at h
      exact ⟨s, .refl, h⟩

end Container
end SecDec
