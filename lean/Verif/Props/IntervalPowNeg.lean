import Verif.Props.IntervalPow
import Mathlib.Data.Nat.Prime.Basic

/-!
# C09: exactly when a negative integer power of an interval misses a member
-/

namespace Algebraics

open DFI

/-- what the reciprocal of an interval looks like: it never has members of both signs, and it is one negative
number exactly for the negative powers of two whose inverse is a multiple of the unit -/
theorem DFI.recip_point (a s : DFI) (ho : a.Ordered) (hs : a.checkedRecip = some s) :
    ¬ (s.lo < 0 ∧ 0 < s.hi) ∧
    ((s.lo = s.hi ∧ s.hi < 0) ↔ ∃ j, a.lo = -2 ^ j ∧ a.hi = -2 ^ j ∧ j ≤ 2 * a.log2Denom) ∧
    ∀ j, a.lo = -2 ^ j → a.hi = -2 ^ j → j ≤ 2 * a.log2Denom →
      s.lo = -2 ^ (2 * a.log2Denom - j) ∧ s.hi = -2 ^ (2 * a.log2Denom - j) := by
  obtain ⟨lo, hi, n⟩ := a
  unfold Ordered at ho
  simp only at ho ⊢
  have hval := ((C04_recip ⟨lo, hi, n⟩).2 s hs).2
  have hn : s.log2Denom = n := ((C04_recip ⟨lo, hi, n⟩).2 s hs).1
  have hp : (0 : ℝ) < 2 ^ n := by positivity
  unfold checkedRecip at hs
  split at hs
  · cases hs
  next hz =>
  have hz' := containsZero_false (a := ⟨lo, hi, n⟩) (by simpa using hz) ho
  simp only at hz'
  cases hs
  simp only [divCeil] at hval ⊢
  have hD : shl 1 (2 * n) = 2 ^ (2 * n) := by simp [shl]
  rw [hD] at hval ⊢
  have hD0 : (0 : ℤ) < 2 ^ (2 * n) := by positivity
  have hpow : ∀ j, j ≤ 2 * n → (2 : ℤ) ^ (2 * n) = 2 ^ (2 * n - j) * 2 ^ j := fun j hj => by
    rw [← pow_add]; congr 1; omega
  have h3 : ∀ j, lo = -2 ^ j → hi = -2 ^ j → j ≤ 2 * n →
      ((2 : ℤ) ^ (2 * n)).fdiv hi = -2 ^ (2 * n - j) ∧ -(-(2 : ℤ) ^ (2 * n)).fdiv lo = -2 ^ (2 * n - j) := by
    intro j h1 h2 hj
    have hj0 : -(2 : ℤ) ^ j ≠ 0 := by simp
    rw [h1, h2, hpow j hj]
    constructor
    · rw [show (2 : ℤ) ^ (2 * n - j) * 2 ^ j = -2 ^ (2 * n - j) * -2 ^ j by ring]
      exact Int.mul_fdiv_cancel _ hj0
    · rw [show -((2 : ℤ) ^ (2 * n - j) * 2 ^ j) = 2 ^ (2 * n - j) * -2 ^ j by ring]
      rw [Int.mul_fdiv_cancel _ hj0]
  refine ⟨?_, ⟨?_, ?_⟩, h3⟩
  · rintro ⟨g1, g2⟩
    rcases hz' with ⟨p1, p2⟩ | ⟨p1, p2⟩
    · have := Int.fdiv_nonneg hD0.le p2.le
      omega
    · have : 0 ≤ (-(2 : ℤ) ^ (2 * n)).fdiv lo := by
        rw [← Int.neg_fdiv_neg, neg_neg]
        exact Int.fdiv_nonneg hD0.le (by omega)
      omega
  · rintro ⟨g1, g2⟩
    set q := -(-(2 : ℤ) ^ (2 * n)).fdiv lo with hq
    rw [g1] at hval
    have key : ∀ c : ℤ, c ≠ 0 → (⟨lo, hi, n⟩ : DFI).Contains ((c : ℝ) / 2 ^ n) → c * q = 2 ^ (2 * n) := by
      intro c hc0 hc
      have h1 := hval _ hc
      have h2 : ((c : ℝ) / 2 ^ n)⁻¹ = q / 2 ^ n := le_antisymm h1.2 h1.1
      have hcr : (c : ℝ) ≠ 0 := by exact_mod_cast hc0
      rw [inv_div, div_eq_div_iff hcr hp.ne'] at h2
      have h3 : ((c * q : ℤ) : ℝ) = ((2 ^ (2 * n) : ℤ) : ℝ) := by
        push_cast
        rw [two_mul, pow_add]
        linarith
      exact_mod_cast h3
    have hl := key lo (by omega) (contains_lower (a := ⟨lo, hi, n⟩) ho)
    have hh := key hi (by omega) (contains_upper (a := ⟨lo, hi, n⟩) ho)
    have hlh : lo = hi := by
      have : lo * q = hi * q := by rw [hl, hh]
      exact mul_right_cancel₀ (by omega : q ≠ 0) this
    subst hlh
    have hlo : lo < 0 := by
      by_contra hc
      have : lo * q ≤ 0 := mul_nonpos_of_nonneg_of_nonpos (not_lt.mp hc) g2.le
      omega
    have hdvd : lo.natAbs ∣ 2 ^ (2 * n) := by
      have : lo ∣ 2 ^ (2 * n) := ⟨q, hl.symm⟩
      have := Int.natAbs_dvd_natAbs.mpr this
      simpa [Int.natAbs_pow] using this
    obtain ⟨j, hj, hj'⟩ := (Nat.dvd_prime_pow Nat.prime_two).mp hdvd
    have : lo = -2 ^ j := by
      have h4 : (lo.natAbs : ℤ) = 2 ^ j := by exact_mod_cast hj'
      omega
    exact ⟨j, this, this, hj⟩
  · rintro ⟨j, h1, h2, hj⟩
    obtain ⟨g1, g2⟩ := h3 j h1 h2 hj
    rw [g1, g2]
    refine ⟨rfl, ?_⟩
    have : (0 : ℤ) < 2 ^ (2 * n - j) := by positivity
    omega

theorem two_pow_unit (n m e : ℕ) :
    (∃ k : ℤ, ((2 : ℝ) ^ m / 2 ^ n) ^ e = k / 2 ^ n) ↔ n * e ≤ m * e + n := by
  constructor
  · rintro ⟨k, hk⟩
    rw [div_pow, div_eq_div_iff (by positivity) (by positivity)] at hk
    have h1 : ((2 ^ (m * e + n) : ℤ) : ℝ) = ((k * 2 ^ (n * e) : ℤ) : ℝ) := by
      push_cast
      rw [pow_add, pow_mul, pow_mul]
      exact hk
    have h2 : (2 : ℤ) ^ (n * e) ∣ 2 ^ (m * e + n) := ⟨k, by rw [mul_comm _ k]; exact_mod_cast h1⟩
    have h3 : (2 : ℕ) ^ (n * e) ∣ 2 ^ (m * e + n) := by exact_mod_cast h2
    exact (Nat.pow_dvd_pow_iff_le_right (by norm_num)).mp h3
  · intro h
    refine ⟨2 ^ (m * e + n - n * e), ?_⟩
    rw [div_pow, div_eq_div_iff (by positivity) (by positivity)]
    push_cast
    rw [← pow_mul, ← pow_mul, ← pow_add, ← pow_add]
    congr 1
    omega

/-- C09, in full for negative exponents: the power `-e` of an interval without zero holds the powers of all its
members if and only if it is not one of the following.  The exponent is odd and at least 3 without its sign, and the
interval is one number `-2^j` in units of `2^-n`, whose reciprocal is a multiple of the unit but whose power is
not. -/
theorem C09_pow_negative_exact_iff (a : DFI) (e : ℕ) (he : 1 ≤ e) (ho : a.Ordered) (h0 : ¬ a.Contains 0) :
    ∃ r, a.pow (-e) = some r ∧ r.log2Denom = a.log2Denom ∧
      ((∀ x : ℝ, a.Contains x → r.Contains (x ^ (-e : ℤ))) ↔
        ¬ (Odd e ∧ 3 ≤ e ∧ ∃ j : ℕ, a.lo = -2 ^ j ∧ a.hi = -2 ^ j ∧ j ≤ 2 * a.log2Denom ∧
          a.log2Denom + a.log2Denom * e < j * e)) := by
  cases hs : a.checkedRecip with
  | none => exact absurd ((C04_recip a).1.mp hs) h0
  | some s =>
  obtain ⟨hn, hval⟩ := (C04_recip a).2 s hs
  have hso : s.Ordered := (hval _ (contains_lower ho)).ordered
  obtain ⟨q1, q2, q3⟩ := DFI.recip_point a s ho hs
  obtain ⟨r, hr, hrn, hiff⟩ := C09_pow_exact_iff s e hso
  have hpow : a.pow (-e) = some r := by
    unfold DFI.pow at hr ⊢
    rw [if_neg (by omega), if_neg (by omega), if_pos (by omega), hs]
    rw [if_neg (by omega)] at hr
    change (if (-e : ℤ) = -1 then some s else some (s.powPos (-e : ℤ).natAbs)) = some r
    by_cases h1 : (e : ℤ) = 1
    · rw [if_pos h1] at hr
      rw [if_pos (by omega)]
      exact hr
    · rw [if_neg h1, if_neg (by omega)] at hr
      rw [if_neg (by omega), Int.natAbs_neg]
      exact hr
  refine ⟨r, hpow, by rw [hrn, hn], ?_⟩
  have hbad : (Odd e ∧ 3 ≤ e ∧ (s.lo < 0 ∧ 0 < s.hi ∨ s.lo = s.hi ∧ s.hi < 0) ∧
      ¬ ∃ k : ℤ, (min |(s.lo : ℝ) / 2 ^ s.log2Denom| |(s.hi : ℝ) / 2 ^ s.log2Denom|) ^ e =
        k / 2 ^ s.log2Denom) ↔
      (Odd e ∧ 3 ≤ e ∧ ∃ j : ℕ, a.lo = -2 ^ j ∧ a.hi = -2 ^ j ∧ j ≤ 2 * a.log2Denom ∧
          a.log2Denom + a.log2Denom * e < j * e) := by
    have habs : ∀ j, a.lo = -2 ^ j → a.hi = -2 ^ j → j ≤ 2 * a.log2Denom →
        ((∃ k : ℤ, (min |(s.lo : ℝ) / 2 ^ s.log2Denom| |(s.hi : ℝ) / 2 ^ s.log2Denom|) ^ e =
          k / 2 ^ s.log2Denom) ↔ ¬ a.log2Denom + a.log2Denom * e < j * e) := by
      intro j h1 h2 hj
      obtain ⟨g1, g2⟩ := q3 j h1 h2 hj
      rw [g1, g2, min_self, hn]
      push_cast
      rw [neg_div, abs_neg, abs_of_pos (by positivity), two_pow_unit]
      obtain ⟨m, hm⟩ := Nat.exists_eq_add_of_le hj
      rw [hm, Nat.add_sub_cancel_left]
      have : a.log2Denom * e + a.log2Denom * e = j * e + m * e := by rw [← add_mul, ← add_mul, ← hm, two_mul]
      omega
    constructor
    · rintro ⟨g1, g2, g3, g4⟩
      have g5 : s.lo = s.hi ∧ s.hi < 0 := g3.resolve_left q1
      obtain ⟨j, h1, h2, hj⟩ := q2.mp g5
      exact ⟨g1, g2, j, h1, h2, hj, not_not.mp fun h => g4 ((habs j h1 h2 hj).mpr h)⟩
    · rintro ⟨g1, g2, j, h1, h2, hj, h4⟩
      exact ⟨g1, g2, Or.inr (q2.mpr ⟨j, h1, h2, hj⟩), fun h => (habs j h1 h2 hj).mp h h4⟩
  rw [hbad] at hiff
  rw [← hiff]
  constructor
  · intro h
    by_contra hc
    obtain ⟨g1, g2, j, h1, h2, hj, h4⟩ := not_not.mp fun h' => hc (hiff.mpr h')
    obtain ⟨e1, e2⟩ := q3 j h1 h2 hj
    refine hc fun y hy => ?_
    have hx := h _ (contains_lower ho)
    have hy' : y = ((a.lo : ℝ) / 2 ^ a.log2Denom)⁻¹ := by
      have hx' := hval _ (contains_lower ho)
      have hs' : s.lo = s.hi := by rw [e1, e2]
      have k1 := hy.1
      have k2 := hy.2
      have k3 := hx'.1
      have k4 := hx'.2
      rw [hs'] at k1 k3
      linarith
    rw [hy', inv_pow, ← zpow_natCast, ← zpow_neg]
    exact hx
  · intro h x hx
    have := h _ (hval x hx)
    rwa [inv_pow, ← zpow_natCast, ← zpow_neg] at this

/-- the failing case occurs: `(-2)^(-3)` with two digits after the point comes out with its bounds in the wrong
order; with three digits it is right -/
example : (⟨-8, -8, 2⟩ : DFI).Ordered ∧ ¬ (⟨-8, -8, 2⟩ : DFI).Contains 0 ∧
    (⟨-8, -8, 2⟩ : DFI).pow (-(3 : ℕ)) = some ⟨0, -1, 2⟩ ∧
    (⟨-16, -16, 3⟩ : DFI).pow (-(3 : ℕ)) = some ⟨-1, -1, 3⟩ := by
  refine ⟨le_rfl, ?_, by decide +kernel, by decide +kernel⟩
  unfold DFI.Contains
  norm_num

end Algebraics
