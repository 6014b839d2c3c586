import Verif.Lemmas.MachinePolyBounds

/-!
# C83: sizes for which products, powers and values over machine integers do not overflow
-/

namespace Algebraics

open Polynomial

open MachinePoly

/-- C83: with overflow checks, a product is returned if the sums of the absolute values of the coefficients have a
product that fits. -/
theorem C83_mul_returns (w : ℕ) (a b : List ℤ)
    (h : (a.map Int.natAbs).sum * (b.map Int.natAbs).sum < 2 ^ (w - 1)) :
    ∃ c, mul w .panics a b = some c ∧ listPoly c = listPoly a * listPoly b := by
  obtain ⟨c, hc, -⟩ := mul_returns (w := w) a b h
  exact ⟨c, hc, exact_of_hom (mul_hom (blind_panics w) _ _ _ hc)⟩

/-- C83: with overflow checks, a power is returned if the power of the sum of the absolute values of the coefficients
fits. -/
theorem C83_pow_returns (w : ℕ) (p : List ℤ) (e : ℕ) (he : 0 < e)
    (h : (p.map Int.natAbs).sum ^ e < 2 ^ (w - 1)) :
    ∃ c, checkedPow w .panics p e = some (some c) ∧ listPoly c = listPoly p ^ e := by
  unfold checkedPow
  rw [if_neg (by omega), if_neg (by omega)]
  split_ifs with h1
  · have : e = 1 := by exact_mod_cast h1
    subst this
    exact ⟨p, rfl, by simp⟩
  · obtain ⟨o, ho⟩ := Option.isSome_iff_exists.mp
      (powLoop_returns (w := w) ((e : ℤ).toNat + 1) p (e : ℤ).toNat none (by simpa using he)
        (by simpa [size] using h) (by simpa [size] using h))
    obtain ⟨c, rfl, hc⟩ := powLoop_hom (blind_panics w) _ _ _ _ _
      (lt_trans (Nat.lt_succ_self _) Nat.lt_two_pow_self) (by simpa using he) ho
    exact ⟨c, ho, by simpa using hc⟩

/-- C83: with overflow checks, a value is returned if the sum of the absolute values of the coefficients, times the
highest power of the point (or 1), fits. -/
theorem C83_eval_returns (w : ℕ) (p : List ℤ) (x : ℤ)
    (h : (p.map Int.natAbs).sum * (max 1 x.natAbs) ^ (p.length - 1) < 2 ^ (w - 1)) :
    eval w .panics p x = some ((listPoly p).eval x) := by
  have hM : 1 ≤ max 1 x.natAbs := le_max_left _ _
  obtain ⟨v, hv⟩ := Option.isSome_iff_exists.mp ((eval_isSome (w := w) p x).mpr fun n hn => by
    have hb := eval_bound (p.drop n) x
    have hlen : (p.drop n).length - 1 ≤ p.length - 1 := by rw [List.length_drop]; omega
    have hdrop : size (p.drop n) * (max 1 x.natAbs) ^ ((p.drop n).length - 1) < 2 ^ (w - 1) :=
      lt_of_le_of_lt (Nat.mul_le_mul (size_drop p n) (Nat.pow_le_pow_right hM hlen)) h
    refine ⟨?_, inRange_of_natAbs (lt_of_le_of_lt hb hdrop)⟩
    refine inRange_of_natAbs (lt_of_le_of_lt ?_ h)
    rw [Int.natAbs_mul]
    have hb' := eval_bound (p.drop (n + 1)) x
    by_cases hnil : p.drop (n + 1) = []
    · rw [hnil]; simp
    have hl : (p.drop (n + 1)).length - 1 + 1 ≤ p.length - 1 := by
      have := List.length_pos_of_ne_nil hnil
      rw [List.length_drop] at this ⊢
      omega
    calc ((listPoly (p.drop (n + 1))).eval x).natAbs * x.natAbs
        ≤ (size (p.drop (n + 1)) * (max 1 x.natAbs) ^ ((p.drop (n + 1)).length - 1)) * max 1 x.natAbs :=
          Nat.mul_le_mul hb' (le_max_right _ _)
      _ = size (p.drop (n + 1)) * (max 1 x.natAbs) ^ ((p.drop (n + 1)).length - 1 + 1) := by rw [pow_succ]; ring
      _ ≤ _ := Nat.mul_le_mul (size_drop p _) (Nat.pow_le_pow_right hM hl))
  have : v = (listPoly p).eval x := by simpa using eval_hom (blind_panics w) _ _ _ hv
  rw [hv, this]

example : ([3, -4].map Int.natAbs).sum ^ 6 < 2 ^ (32 - 1) ∧
    ([1, -2, 5].map Int.natAbs).sum * ([7, 8].map Int.natAbs).sum < 2 ^ (8 - 1) ∧
    ([1, -2, 5].map Int.natAbs).sum * (max 1 (Int.natAbs (-3))) ^ (3 - 1) < 2 ^ (8 - 1) := by decide

end Algebraics
