import Verif.Props.Poly
import Verif.Props.Traits
import Verif.Props.Quadratic
import Verif.Props.AlgNumSound

/-!
For claims that are false of the code in full: exactly which inputs are handled as claimed (C15, C37, C43, C60).
-/

namespace Algebraics

open Polynomial

/-! ## C15: polynomials over the rationals plus a scalar -/

/-- C15: exactly when adding a rational number `c` to a rational polynomial `p` is right. With `d` the least
common denominator of `p` and `q` the denominator of `c`: either `q` divides `d`, or `p` is a constant, and the
equation for the constant term has to hold by chance. -/
theorem C15_add_exact_iff (p : Poly ℚ) (c : ℚ) :
    let d : ℕ := (p.raw.divisor : ℕ+)
    (p.addCoeff c).toPoly = p.toPoly + C c ↔
      (c.den ∣ d ∨ p.toPoly.natDegree = 0) ∧
      (p.toPoly.coeff 0 * d ^ 2 + c * c.den ^ 2) * Nat.gcd d c.den =
        (p.toPoly.coeff 0 + c) * Nat.lcm d c.den := by
  intro d
  have hd : d ≠ 0 := (p.raw.divisor : ℕ+).ne_zero
  have hL : Nat.lcm d c.den ≠ 0 := Nat.lcm_ne_zero hd c.den_nz
  have hLq : (Nat.lcm d c.den : ℚ) ≠ 0 := by exact_mod_cast hL
  have key : ∀ k, (p.addCoeff c).toPoly.coeff k = if k = 0
      then (p.toPoly.coeff 0 * d ^ 2 + c * c.den ^ 2) * Nat.gcd d c.den / Nat.lcm d c.den
      else p.toPoly.coeff k * d / Nat.lcm d c.den := fun k => (C15_rational_result_partial p c k).1
  rw [Polynomial.ext_iff]
  constructor
  · intro h
    constructor
    · by_cases hdeg : p.toPoly.natDegree = 0
      · exact Or.inr hdeg
      · left
        have h1 := h p.toPoly.natDegree
        rw [key, if_neg hdeg, coeff_add, coeff_C, if_neg hdeg, add_zero, div_eq_iff hLq] at h1
        have h2 : p.toPoly.coeff p.toPoly.natDegree ≠ 0 := by
          rw [coeff_natDegree, leadingCoeff_ne_zero]
          rintro h0
          rw [h0] at hdeg
          simp at hdeg
        have h3 : (d : ℚ) = (Nat.lcm d c.den : ℕ) := mul_left_cancel₀ h2 h1
        have h4 : d = Nat.lcm d c.den := by exact_mod_cast h3
        rw [h4]
        exact Nat.dvd_lcm_right _ _
    · have h1 := h 0
      rw [key, if_pos rfl, coeff_add, coeff_C_zero, div_eq_iff hLq] at h1
      exact h1
  · rintro ⟨h1, h2⟩ k
    rw [key, coeff_add, coeff_C]
    by_cases hk : k = 0
    · rw [if_pos hk, if_pos hk, div_eq_iff hLq, h2, hk]
    · rw [if_neg hk, if_neg hk, add_zero, div_eq_iff hLq]
      rcases h1 with h1 | h1
      · rw [Nat.lcm_eq_left h1]
      · rw [coeff_eq_zero_of_natDegree_lt (by omega)]
        simp

/-- C15: the same for subtraction. -/
theorem C15_sub_exact_iff (p : Poly ℚ) (c : ℚ) :
    let d : ℕ := (p.raw.divisor : ℕ+)
    (p.subCoeff c).toPoly = p.toPoly - C c ↔
      (c.den ∣ d ∨ p.toPoly.natDegree = 0) ∧
      (p.toPoly.coeff 0 * d ^ 2 - c * c.den ^ 2) * Nat.gcd d c.den =
        (p.toPoly.coeff 0 - c) * Nat.lcm d c.den := by
  intro d
  have hd : d ≠ 0 := (p.raw.divisor : ℕ+).ne_zero
  have hL : Nat.lcm d c.den ≠ 0 := Nat.lcm_ne_zero hd c.den_nz
  have hLq : (Nat.lcm d c.den : ℚ) ≠ 0 := by exact_mod_cast hL
  have key : ∀ k, (p.subCoeff c).toPoly.coeff k = if k = 0
      then (p.toPoly.coeff 0 * d ^ 2 - c * c.den ^ 2) * Nat.gcd d c.den / Nat.lcm d c.den
      else p.toPoly.coeff k * d / Nat.lcm d c.den := fun k => (C15_rational_result_partial p c k).2
  rw [Polynomial.ext_iff]
  constructor
  · intro h
    constructor
    · by_cases hdeg : p.toPoly.natDegree = 0
      · exact Or.inr hdeg
      · left
        have h1 := h p.toPoly.natDegree
        rw [key, if_neg hdeg, coeff_sub, coeff_C, if_neg hdeg, sub_zero, div_eq_iff hLq] at h1
        have h2 : p.toPoly.coeff p.toPoly.natDegree ≠ 0 := by
          rw [coeff_natDegree, leadingCoeff_ne_zero]
          rintro h0
          rw [h0] at hdeg
          simp at hdeg
        have h3 : (d : ℚ) = (Nat.lcm d c.den : ℕ) := mul_left_cancel₀ h2 h1
        have h4 : d = Nat.lcm d c.den := by exact_mod_cast h3
        rw [h4]
        exact Nat.dvd_lcm_right _ _
    · have h1 := h 0
      rw [key, if_pos rfl, coeff_sub, coeff_C_zero, div_eq_iff hLq] at h1
      exact h1
  · rintro ⟨h1, h2⟩ k
    rw [key, coeff_sub, coeff_C]
    by_cases hk : k = 0
    · rw [if_pos hk, if_pos hk, div_eq_iff hLq, h2, hk]
    · rw [if_neg hk, if_neg hk, sub_zero, div_eq_iff hLq]
      rcases h1 with h1 | h1
      · rw [Nat.lcm_eq_left h1]
      · rw [coeff_eq_zero_of_natDegree_lt (by omega)]
        simp

/-- `x / 8 + 1/2` happens to be right, `x / 4 + 1/2` does not. -/
example : (Poly.addCoeff (Poly.ofCoeffs [0, 1 / 8]) (1 / 2 : ℚ)) = Poly.ofCoeffs [1 / 2, 1 / 8] ∧
    (Poly.addCoeff (Poly.ofCoeffs [0, 1 / 4]) (1 / 2 : ℚ)) ≠ Poly.ofCoeffs [1 / 2, 1 / 4] := by decide +kernel

/-! ## C37: the sign of the greatest common divisor of rationals -/

/-- C37: exactly when the gcd of two rationals is not negative: unless one of them is zero and the other
negative. With this, it is the greatest common divisor of the claim. -/
theorem C37_gcd_nonneg_iff (a b : ℚ) :
    0 ≤ (ratGcdLcm a b).1 ↔ ¬ (a = 0 ∧ b < 0) ∧ ¬ (b = 0 ∧ a < 0) := by
  by_cases ha : a = 0
  · have h : (ratGcdLcm a b).1 = b := by unfold ratGcdLcm; rw [if_pos ha]
    rw [h]
    constructor
    · intro hb
      exact ⟨fun h => absurd h.2 (not_lt.mpr hb), fun h => by rw [ha] at h; exact lt_irrefl _ h.2⟩
    · rintro ⟨h1, -⟩
      exact not_lt.mp fun hb => h1 ⟨ha, hb⟩
  · by_cases hb : b = 0
    · have h : (ratGcdLcm a b).1 = a := by unfold ratGcdLcm; rw [if_neg ha, if_pos hb]
      rw [h]
      constructor
      · intro h0
        exact ⟨fun h => ha h.1, fun h => absurd h.2 (not_lt.mpr h0)⟩
      · rintro ⟨-, h1⟩
        exact not_lt.mp fun h0 => h1 ⟨hb, h0⟩
    · exact ⟨fun _ => ⟨fun h => ha h.1, fun h => hb h.1⟩, fun _ => ((C37_gcd_partial a b).2.2.2 ha hb).le⟩

example : ¬ 0 ≤ (ratGcdLcm (-3 / 4) 0).1 ∧ 0 ≤ (ratGcdLcm (-3 / 4) (-1)).1 := by
  rw [C37_gcd_nonneg_iff, C37_gcd_nonneg_iff]
  norm_num

/-! ## C43: the fractional part -/

/-- C43: exactly which numbers get the right fractional part: whatever `fract` returns represents
`x - floor(x)` unless the number is rational, negative and not an integer. -/
theorem C43_fract_exact_iff (choose : ℕ → List ℕ → ℕ) (hc : Poly.HeapOrder choose)
    (rng : ℕ → ℕ) (ffuel fuel : ℕ) (a c : RealAlg) (x : ℝ) (h : a.Represents x)
    (hr : a.fract (RealAlg.factorCall choose rng ffuel) fuel = .ok c) :
    c.Represents (x - ⌊x⌋) ↔ Irrational x ∨ 0 ≤ x ∨ (∃ n : ℤ, x = n) := by
  constructor
  · intro h1
    by_cases hi : Irrational x
    · exact Or.inl hi
    · right
      by_contra hn
      push Not at hn
      obtain ⟨h0, hn⟩ := hn
      obtain ⟨q, rfl⟩ := not_not.mp hi
      obtain ⟨b, h2, h3, -⟩ := C43_fract_rational_partial a q h (RealAlg.factorCall choose rng ffuel) fuel
      rw [hr] at h2
      cases h2
      rw [if_neg (by have : q < 0 := by exact_mod_cast h0
                     linarith)] at h3
      have h4 := h1.unique h3
      have h5 : (⌊(q : ℝ)⌋ : ℝ) = ⌈(q : ℝ)⌉ := by linarith
      refine hn ⌊(q : ℝ)⌋ (le_antisymm ?_ (Int.floor_le _))
      rw [h5]
      exact Int.le_ceil _
  · rintro (h1 | h1 | ⟨n, rfl⟩)
    · exact C43_fract_sound_partial choose hc rng ffuel fuel a c x h (Or.inl h1) hr
    · exact C43_fract_sound_partial choose hc rng ffuel fuel a c x h (Or.inr h1) hr
    · have h' : a.Represents ((n : ℚ) : ℝ) := by simpa using h
      obtain ⟨b, h2, -, h3⟩ := C43_fract_rational_partial a n h' (RealAlg.factorCall choose rng ffuel) fuel
      rw [hr] at h2
      cases h2
      simpa using h3 (Or.inr (by simp))

namespace Quad

/-! ## C60: the reciprocal of a rational quadratic number -/

/-- C60: exactly when the reciprocal of a nonzero rational number comes out in lowest terms with a positive
denominator, as the other operations expect: when the number is negative. -/
theorem C60_recip_canonical_iff (x : Quad) (hx : x.Canonical) (q : ℚ) (hq : x.value = q) (z : Quad)
    (hz : x.checkedRecip = some (some z)) : z.Canonical ↔ q < 0 := by
  have ha : x.quadraticTerm = 0 := by
    have := (C53_to x hx).2.2.1.mpr ⟨q, hq⟩
    simpa [isRatio] using this
  have hx' : 0 < x.linearTerm ∧ Int.gcd x.constantTerm x.linearTerm = 1 := by
    rcases hx with ⟨-, h2⟩ | ⟨h1, -⟩
    · exact h2
    · exact absurd ha h1
  have hneg : q < 0 ↔ 0 < x.constantTerm := by
    have hs := (C53_sign x hx).2
    rw [hq] at hs
    have h1 : q < 0 ↔ x.isNegative = true := by rw [hs]; exact_mod_cast Iff.rfl
    rw [h1]
    unfold isNegative isZero isPositive
    rw [if_pos ha]
    by_cases h0 : x.constantTerm = 0
    · have hl : x.linearTerm = 1 := by
        have h2 := hx'.2
        rw [h0, Int.gcd_zero_left] at h2
        omega
      simp [ha, h0, hl]
    · simp [h0]
      omega
  unfold checkedRecip at hz
  rw [if_pos (by simpa [isRatio] using ha)] at hz
  unfold fromNegatedReducedRatioChecked at hz
  rw [hneg]
  by_cases h0 : x.constantTerm = 0
  · rw [if_pos h0] at hz
    simp at hz
  · rw [if_neg h0] at hz
    simp only [Option.some.injEq] at hz
    subst hz
    constructor
    · rintro (⟨-, h2, -⟩ | ⟨h1, -⟩)
      · exact h2
      · exact absurd rfl h1
    · intro h
      exact Or.inl ⟨rfl, h, by rw [Int.gcd_comm]; exact hx'.2⟩

/-- the reciprocal of `-2/3` is `-3/2` in lowest terms; that of `2/3` has the denominator `-2`. -/
example : (fromRatioNonInf (-2) 3).checkedRecip = some (some ⟨3, 2, 0⟩) ∧
    (fromRatioNonInf 2 3).checkedRecip = some (some ⟨3, -2, 0⟩) := by decide +kernel

end Quad

end Algebraics
