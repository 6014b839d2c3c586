import Verif.Lemmas.MachinePolyCut

/-!
# Sizes of the coefficients of products, powers and values
-/

namespace Algebraics

open Polynomial

namespace MachinePoly

variable {w : ℕ}

/-- the sum of the absolute values of the coefficients -/
def size (p : List ℤ) : ℕ := (p.map Int.natAbs).sum

theorem size_cons (a : ℤ) (l : List ℤ) : size (a :: l) = a.natAbs + size l := by simp [size]

theorem size_take (l : List ℤ) (k : ℕ) : size (l.take k) ≤ size l := by
  have : size l = size (l.take k) + size (l.drop k) := by
    unfold size
    rw [← List.sum_append, ← List.map_append, List.take_append_drop]
  omega

theorem size_drop (l : List ℤ) (k : ℕ) : size (l.drop k) ≤ size l := by
  have : size l = size (l.take k) + size (l.drop k) := by
    unfold size
    rw [← List.sum_append, ← List.map_append, List.take_append_drop]
  omega

theorem natAbs_getD_le (l : List ℤ) (n : ℕ) : (l.getD n 0).natAbs ≤ size l := by
  induction l generalizing n with
  | nil => simp
  | cons a l ih =>
    rw [size_cons]
    cases n with
    | zero => simp
    | succ n => have := ih n; simp only [List.getD_cons_succ]; omega

theorem inRange_of_natAbs {z : ℤ} (h : z.natAbs < 2 ^ (w - 1)) : InRange w z := by
  have h' : ((z.natAbs : ℕ) : ℤ) < ((2 ^ (w - 1) : ℕ) : ℤ) := by exact_mod_cast h
  push_cast at h'
  rw [abs_lt] at h'
  exact ⟨h'.1.le, h'.2⟩

/-- the sizes of the coefficients below `k`, summed -/
def sizeBelow (P : ℤ[X]) (k : ℕ) : ℕ := ∑ i ∈ Finset.range k, (P.coeff i).natAbs

theorem sizeBelow_X_mul (P : ℤ[X]) (k : ℕ) : sizeBelow (X * P) k ≤ sizeBelow P k := by
  unfold sizeBelow
  cases k with
  | zero => simp
  | succ k =>
    rw [Finset.sum_range_succ', Finset.sum_range_succ]
    simp

theorem sizeBelow_add (P Q : ℤ[X]) (k : ℕ) : sizeBelow (P + Q) k ≤ sizeBelow P k + sizeBelow Q k := by
  unfold sizeBelow
  rw [← Finset.sum_add_distrib]
  exact Finset.sum_le_sum fun i _ => by rw [coeff_add]; exact Int.natAbs_add_le _ _

theorem sizeBelow_C_mul (a : ℤ) (P : ℤ[X]) (k : ℕ) : sizeBelow (C a * P) k = a.natAbs * sizeBelow P k := by
  unfold sizeBelow
  rw [Finset.mul_sum]
  exact Finset.sum_congr rfl fun i _ => by rw [coeff_C_mul, Int.natAbs_mul]

theorem sizeBelow_list (l : List ℤ) (k : ℕ) : sizeBelow (listPoly l) k ≤ size l := by
  induction l generalizing k with
  | nil => simp [sizeBelow, size]
  | cons a l ih =>
    rw [listPoly_cons, size_cons]
    refine (sizeBelow_add _ _ k).trans (add_le_add ?_ ((sizeBelow_X_mul _ _).trans (ih k)))
    unfold sizeBelow
    cases k with
    | zero => simp
    | succ k =>
      rw [Finset.sum_range_succ', coeff_C_zero]
      rw [Finset.sum_eq_zero fun i _ => by rw [coeff_C_succ]; rfl]
      omega

theorem sizeBelow_length (l : List ℤ) : sizeBelow (listPoly l) l.length = size l := by
  unfold sizeBelow
  induction l with
  | nil => simp [size]
  | cons a l ih =>
    rw [List.length_cons, Finset.sum_range_succ', size_cons, ← ih, add_comm]
    simp only [listPoly_coeff, List.getD_cons_zero, List.getD_cons_succ]

theorem sizeBelow_mul (l : List ℤ) (Q : ℤ[X]) (S k : ℕ) (hS : ∀ k, sizeBelow Q k ≤ S) :
    sizeBelow (listPoly l * Q) k ≤ size l * S := by
  induction l generalizing k with
  | nil => simp [sizeBelow]
  | cons a l ih =>
    rw [listPoly_cons, size_cons, add_mul, add_mul, mul_assoc]
    refine (sizeBelow_add _ _ k).trans (add_le_add ?_ ((sizeBelow_X_mul _ _).trans (ih k)))
    rw [sizeBelow_C_mul]
    exact Nat.mul_le_mul_left _ (hS k)

theorem coeff_le_sizeBelow (P : ℤ[X]) (n : ℕ) : (P.coeff n).natAbs ≤ sizeBelow P (n + 1) := by
  unfold sizeBelow
  rw [Finset.sum_range_succ]
  omega

theorem mul_returns (a b : List ℤ) (h : size a * size b < 2 ^ (w - 1)) :
    ∃ c, mul w .panics a b = some c ∧ size c ≤ size a * size b := by
  obtain ⟨c, hc⟩ := Option.isSome_iff_exists.mp ((mul_isSome (w := w) a b).mpr fun k hk j hj => by
    constructor
    · refine inRange_of_natAbs (lt_of_le_of_lt ?_ h)
      rw [Int.natAbs_mul]
      exact Nat.mul_le_mul (natAbs_getD_le a k) (natAbs_getD_le b j)
    · refine inRange_of_natAbs (lt_of_le_of_lt ?_ h)
      refine (coeff_le_sizeBelow _ _).trans ?_
      refine (sizeBelow_mul _ _ (size b) _ (sizeBelow_list b)).trans ?_
      exact Nat.mul_le_mul_right _ (size_take a _))
  refine ⟨c, hc, ?_⟩
  have hp : listPoly c = listPoly a * listPoly b := exact_of_hom (mul_hom (blind_panics w) _ _ _ hc)
  rw [← sizeBelow_length, hp]
  exact sizeBelow_mul _ _ _ _ (sizeBelow_list b)

theorem powLoop_returns (fuel : ℕ) : ∀ (base : List ℤ) (e : ℕ) (r : Option (List ℤ)), 0 < e →
    size base ^ e < 2 ^ (w - 1) → (r.elim 1 size) * size base ^ e < 2 ^ (w - 1) →
    (Poly.powLoop (mul w .panics) fuel base e r).isSome := by
  induction fuel with
  | zero => intro base e r _ _ _; rfl
  | succ fuel ih =>
    intro base e r he h1 h2
    have hself : size base ≤ size base ^ e := Nat.le_self_pow (by omega) _
    have hstep : ∃ r', Poly.powStep (mul w .panics) (e % 2 == 1) base r = some r' ∧
        r'.elim 1 size ≤ (r.elim 1 size) * size base ^ (e % 2) := by
      unfold Poly.powStep
      by_cases ho : e % 2 = 1
      · rw [if_pos (by simpa using ho), ho, pow_one]
        cases r with
        | none => exact ⟨some base, rfl, by simp⟩
        | some v =>
          obtain ⟨c, hc, hs⟩ := mul_returns (w := w) v base (by
            simp only [Option.elim_some] at h2
            exact lt_of_le_of_lt (Nat.mul_le_mul_left _ hself) h2)
          exact ⟨some c, by simp [hc], by simpa using hs⟩
      · rw [if_neg (by simpa using ho), show e % 2 = 0 by omega, pow_zero, mul_one]
        exact ⟨r, rfl, le_refl _⟩
    obtain ⟨r', hr', hs'⟩ := hstep
    rw [Poly.powLoop, hr']
    simp only
    split
    · rfl
    · rename_i hz
      have he2 : 0 < e / 2 := by
        rcases Nat.eq_zero_or_pos (e / 2) with h | h
        · simp [h] at hz
        · exact h
      have hsq : size base * size base ≤ size base ^ e := by
        rcases Nat.eq_zero_or_pos (size base) with h | h
        · simp [h]
        · rw [← pow_two]; exact Nat.pow_le_pow_right h (by omega)
      obtain ⟨b, hb, hsb⟩ := mul_returns (w := w) base base (lt_of_le_of_lt hsq h1)
      rw [hb]
      have hpow : size b ^ (e / 2) ≤ size base ^ (2 * (e / 2)) := by
        rw [pow_mul, pow_two]
        exact Nat.pow_le_pow_left hsb _
      refine ih b (e / 2) r' he2 ?_ ?_
      · refine lt_of_le_of_lt hpow (lt_of_le_of_lt ?_ h1)
        rcases Nat.eq_zero_or_pos (size base) with h | h
        · rw [h, zero_pow (by omega)]; exact Nat.zero_le _
        · exact Nat.pow_le_pow_right h (by omega)
      · refine lt_of_le_of_lt ?_ h2
        calc r'.elim 1 size * size b ^ (e / 2)
            ≤ (r.elim 1 size * size base ^ (e % 2)) * size base ^ (2 * (e / 2)) := Nat.mul_le_mul hs' hpow
          _ = r.elim 1 size * size base ^ e := by
            rw [mul_assoc, ← pow_add, Nat.mod_add_div]

theorem eval_bound (l : List ℤ) (x : ℤ) : ((listPoly l).eval x).natAbs ≤ size l * (max 1 x.natAbs) ^ (l.length - 1) := by
  have hM : 1 ≤ max 1 x.natAbs := le_max_left _ _
  induction l with
  | nil => simp
  | cons a l ih =>
    have e : (listPoly (a :: l)).eval x = a + x * (listPoly l).eval x := by simp
    rw [e, size_cons, List.length_cons, Nat.add_sub_cancel, add_mul]
    refine (Int.natAbs_add_le _ _).trans (add_le_add ?_ ?_)
    · exact Nat.le_mul_of_pos_right _ (Nat.pow_pos (by omega))
    · rw [Int.natAbs_mul]
      cases l with
      | nil => simp
      | cons b l =>
        calc x.natAbs * ((listPoly (b :: l)).eval x).natAbs
            ≤ max 1 x.natAbs * (size (b :: l) * (max 1 x.natAbs) ^ ((b :: l).length - 1)) :=
              Nat.mul_le_mul (le_max_right _ _) ih
          _ = size (b :: l) * (max 1 x.natAbs) ^ (b :: l).length := by
            rw [List.length_cons, Nat.add_sub_cancel, pow_succ]; ring

end MachinePoly

end Algebraics
