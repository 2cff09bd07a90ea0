import Verif.Proof.ExprMerge
/-
The merge loop of `Polynomial.simplify` as a recursion over the sorted terms.
-/
namespace SecDec
namespace Expr
variable {n : Nat} {F : Type} [CommRing F] [DecidableEq F]

/-- The merge loop with the pending term `p`. -/
def mrec (add : Expr n F → Expr n F → Expr n F) : Expo n × Expr n F → Terms n F → Terms n F
  | p, [] => [p]
  | p, t :: rest =>
    if t.2.isNumZero then mrec add p rest
    else if p.1 = t.1 then mrec add (t.1, add t.2 p.2) rest
    else p :: mrec add t rest

def nzT (ts : Terms n F) : Terms n F := ts.filter (fun t => !t.2.isNumZero)

theorem nzT_append (a b : Terms n F) : nzT (a ++ b) = nzT a ++ nzT b := by simp [nzT]

theorem nzT_zero {a : Terms n F} (h : ∀ t ∈ a, t.2.isNumZero = true) : nzT a = [] := by
  simp only [nzT, List.filter_eq_nil_iff]
  intro t ht; simp [h t ht]

theorem mrec_loop (add : Expr n F → Expr n F → Expr n F) (R : Terms n F) :
    ∀ (A Z : Terms n F) (p : Expo n × Expr n F), (∀ t ∈ Z, t.2.isNumZero = true) →
    let ex := (A ++ p :: Z ++ R).map (·.1)
    nzT (ex.zip ((List.range' (A.length + 1 + Z.length) R.length).foldl (mstep add ex)
      { coeffs := (A ++ p :: Z ++ R).map (·.2), dist := 1 + Z.length }).coeffs) = nzT A ++ nzT (mrec add p R) := by
  induction R with
  | nil =>
    intro A Z p hZ
    simp only [List.append_nil, List.length_nil, List.range'_zero, List.foldl_nil, zip_maps, mrec]
    rw [nzT_append, ← List.singleton_append, nzT_append, nzT_zero hZ, List.append_nil]
  | cons t R ih =>
    intro A Z p hZ
    simp only [List.length_cons, List.range'_succ, List.foldl_cons]
    have hget : ∀ (f : Expo n × Expr n F → Expr n F) (d : Expr n F),
        ((A ++ p :: Z ++ t :: R).map f).getD (A.length + 1 + Z.length) d = f t := by
      intro f d
      simp [List.getD_eq_getElem?_getD, List.getElem?_append_right, Nat.add_assoc, Nat.add_comm 1]
    have hgetE : ((A ++ p :: Z ++ t :: R).map (·.1)).getD (A.length + 1 + Z.length) (fun _ => 0) = t.1 := by
      simp [List.getD_eq_getElem?_getD, List.getElem?_append_right, Nat.add_assoc, Nat.add_comm 1]
    have hj : A.length + 1 + Z.length - (1 + Z.length) = A.length := by omega
    have hgp : ((A ++ p :: Z ++ t :: R).map (·.2)).getD A.length (.num 0) = p.2 := by
      simp [List.getD_eq_getElem?_getD]
    have hgpE : ((A ++ p :: Z ++ t :: R).map (·.1)).getD A.length (fun _ => 0) = p.1 := by
      simp [List.getD_eq_getElem?_getD]
    by_cases h0 : t.2.isNumZero = true
    · have hs : mstep add ((A ++ p :: Z ++ t :: R).map (·.1))
          { coeffs := (A ++ p :: Z ++ t :: R).map (·.2), dist := 1 + Z.length } (A.length + 1 + Z.length) =
          { coeffs := (A ++ p :: (Z ++ [t]) ++ R).map (·.2), dist := 1 + (Z ++ [t]).length } := by
        rw [mstep, if_pos (by rw [hget]; exact h0)]
        simp [Nat.add_assoc]
      rw [hs, mrec, if_pos h0]
      have := ih A (Z ++ [t]) p (by intro u hu; rcases List.mem_append.1 hu with h | h; exacts [hZ u h, by simpa [List.mem_singleton.1 h] using h0])
      simpa [Nat.add_assoc] using this
    · by_cases he : p.1 = t.1
      · have hs : mstep add ((A ++ p :: Z ++ t :: R).map (·.1))
            { coeffs := (A ++ p :: Z ++ t :: R).map (·.2), dist := 1 + Z.length } (A.length + 1 + Z.length) =
            { coeffs := ((A ++ (p.1, .num 0) :: Z) ++ (t.1, add t.2 p.2) :: [] ++ R).map (·.2), dist := 1 } := by
          rw [mstep, if_neg (by rw [hget]; exact h0)]
          simp only [hj, hgpE, hgetE, he, if_true, hget, hgp]
          congr 1
          apply List.ext_getElem
          · simp
          · intro k h1 h2
            simp only [List.getElem_set, List.map_append, List.map_cons, List.getElem_append, List.getElem_cons, List.length_append,
              List.length_cons, List.length_map, List.map_nil, List.length_nil]
            grind
        rw [hs, mrec, if_neg h0, if_pos he]
        have := ih (A ++ (p.1, .num 0) :: Z) [] (t.1, add t.2 p.2) (by simp)
        have hA : nzT (A ++ (p.1, Expr.num (0 : F)) :: Z) = nzT A := by
          rw [nzT_append, nzT_zero (a := (p.1, Expr.num (0 : F)) :: Z), List.append_nil]
          intro u hu
          rcases List.mem_cons.1 hu with rfl | h
          · simp [isNumZero]
          · exact hZ u h
        rw [hA] at this
        simpa [Nat.add_assoc, Nat.add_comm 1, Nat.add_left_comm 1] using this
      · have hs : mstep add ((A ++ p :: Z ++ t :: R).map (·.1))
            { coeffs := (A ++ p :: Z ++ t :: R).map (·.2), dist := 1 + Z.length } (A.length + 1 + Z.length) =
            { coeffs := ((A ++ p :: Z) ++ t :: [] ++ R).map (·.2), dist := 1 } := by
          rw [mstep, if_neg (by rw [hget]; exact h0)]
          simp only [hj, hgpE, hgetE, he, if_false]
          simp
        rw [hs, mrec, if_neg h0, if_neg he]
        have := ih (A ++ p :: Z) [] t (by simp)
        have hA : nzT (A ++ p :: Z) ++ nzT (mrec add t R) = nzT A ++ nzT (p :: mrec add t R) := by
          rw [nzT_append, ← List.singleton_append, nzT_append, nzT_zero hZ, List.append_nil, List.append_assoc, ← nzT_append]
          rfl
        rw [← hA]
        simpa [Nat.add_assoc, Nat.add_comm 1, Nat.add_left_comm 1] using this

theorem mergeSorted_nil (add : Expr n F → Expr n F → Expr n F) : mergeSorted add [] = [((fun _ => 0), .num 0)] := rfl

theorem mergeSorted_cons (add : Expr n F → Expr n F → Expr n F) (p : Expo n × Expr n F) (R : Terms n F) :
    mergeSorted add (p :: R) =
      if (nzT (mrec add p R)).length = 0 then [((fun _ => 0), .num 0)] else nzT (mrec add p R) := by
  have := mrec_loop add R [] [] p (by simp)
  simp only [List.nil_append, List.length_nil, Nat.zero_add, Nat.add_zero, List.singleton_append, List.cons_append] at this
  have h2 : nzT ([] : Terms n F) = [] := rfl
  rw [h2, List.nil_append] at this
  rw [← this]
  rfl

end Expr
end SecDec
