import Verif.Props.AlgNumIff

/-!
Property C40: exactly when a reciprocal is wrong, also for intervals that hold zero.
-/

namespace Algebraics

open Polynomial RealAlg

namespace RealAlg

/-- an interval that does not hold zero is left alone -/
theorem removeZero_no_zero {a : RealAlg} {x : ℝ} (h : a.Represents x) (hx0 : x ≠ 0)
    (hz : ¬ a.interval.Contains 0) (fuel : ℕ) :
    ∃ s, a.removeZeroFromInterval (fuel + 1) = .ok (some s) ∧ s.interval = a.interval := by
  have hz' : a.interval.containsZero = false := by
    rw [Bool.eq_false_iff, Ne, DFI.containsZero_iff]; exact hz
  obtain ⟨s, h4, h5, h6⟩ := h.intervalShrinker
  have hlh := h.lo_le_hi
  have hzz : ¬ (a.interval.lo ≤ 0 ∧ 0 ≤ a.interval.hi) := by
    unfold DFI.containsZero at hz'
    rintro ⟨e1, e2⟩
    simp [not_lt.mpr e1, not_lt.mpr e2] at hz'
  have hclip : ∀ b : Bool, b = decide (x < 0) → clipToSign b a.interval = some a.interval := by
    rintro b rfl
    unfold clipToSign
    rcases lt_or_gt_of_ne hx0 with h0 | h0
    · have := DFI.lo_neg_of h.mem h0
      simp only [h0, decide_true, if_true]
      rw [if_neg (by omega)]
    · have := DFI.hi_pos_of h.mem h0
      simp only [not_lt.mpr h0.le, decide_false, Bool.false_eq_true, if_false]
      rw [if_neg (by omega)]
  refine ⟨s, ?_, h6⟩
  have hloop : removeZeroLoop (fuel + 1) s = .ok s := by
    unfold removeZeroLoop
    rw [h6, if_neg (by rw [hz']; simp)]
  unfold RealAlg.removeZeroFromInterval
  rcases h.cmpWithZero with ⟨e1, e2⟩ | ⟨e1, e2⟩ | ⟨e1, e2⟩
  · rw [e1]
    have := hclip true (by simp [e2])
    simp [bind, Except.bind, pure, Except.pure, this, orPanic, h4, hloop]
  · exact absurd e2 hx0
  · rw [e1]
    have := hclip false (by simp [e2.le])
    simp [bind, Except.bind, pure, Except.pure, this, orPanic, h4, hloop]

end RealAlg

/-- C40: exactly when the reciprocal of an irrational number is wrong, for every interval.  The code first
shrinks the interval until it does not hold zero; the interval `s` it arrives at lies on one side of zero,
still isolates the number, and does not depend on how long the loops may run.  The reciprocal is right if
and only if no other real root of the polynomial has its reciprocal between the reciprocals of the ends of
`s`, rounded outwards to the precision of `s`. -/
theorem C40_recip_any_exact_iff (a : RealAlg) (x : ℝ) (h : a.Represents x) (hx : Irrational x) :
    ∃ s : DFI, (⟨a.poly, s⟩ : RealAlg).Represents x ∧ ¬ s.Contains 0 ∧
      (¬ a.interval.Contains 0 → s = a.interval) ∧
      ∃ b, (∃ N, ∀ fuel ≥ N, a.checkedRecip fuel = .ok (some b) ∧ a.recip fuel = .ok b ∧
          ∃ t, a.removeZeroFromInterval fuel = .ok (some t) ∧ t.interval = s) ∧
        (b.Represents x⁻¹ ↔ ∀ z : ℝ, aeval z a.poly.toPoly = 0 → z ≠ x →
          ¬ ((⌊2 ^ s.log2Denom / (s.upperBound : ℝ)⌋ : ℝ) ≤ 2 ^ s.log2Denom / z ∧
            2 ^ s.log2Denom / z ≤ (⌈2 ^ s.log2Denom / (s.lowerBound : ℝ)⌉ : ℝ))) := by
  have hx0 : x ≠ 0 := fun e => hx ⟨0, by simp [e]⟩
  obtain ⟨N, hN⟩ := h.removeZero hx0
  obtain ⟨t, h1, h2, h3⟩ := hN N le_rfl
  have hrep : (⟨a.poly, t.interval⟩ : RealAlg).Represents x := h2.rep
  have hz : ¬ t.interval.Contains 0 := by
    rw [← DFI.containsZero_iff, h3]
    simp
  obtain ⟨b, hb1, hb2, hb3⟩ := C40_recip_exact_iff ⟨a.poly, t.interval⟩ x hrep hx hz 0
  obtain ⟨r, hr1, hr2⟩ := RealAlg.checkedRecip_no_zero hrep hx hz 0
  have hbr : b = ⟨Poly.ofCoeffs a.poly.coeffs.reverse, r⟩ := by
    rw [hb1] at hr2
    cases hr2
    rfl
  have hfuel : ∀ fuel ≥ N, a.removeZeroFromInterval fuel = .ok (some t) ∧
      a.checkedRecip fuel = .ok (some b) := by
    intro fuel hf
    have h1' := RealAlg.removeZeroFromInterval_mono a N _ h1 fuel hf
    refine ⟨h1', ?_⟩
    unfold RealAlg.checkedRecip
    rw [h.toRational_irr hx]
    simp only at hr1
    simp [bind, Except.bind, pure, Except.pure, h1', orPanic, hr1, hbr]
  refine ⟨t.interval, hrep, hz, ?_, b, ⟨N, fun fuel hf => ⟨(hfuel fuel hf).2, ?_, t, (hfuel fuel hf).1,
    rfl⟩⟩, hb3⟩
  · intro hz0
    obtain ⟨s, hs1, hs2⟩ := RealAlg.removeZero_no_zero h hx0 hz0 N
    rw [(hfuel (N + 1) (by omega)).1] at hs1
    cases hs1
    exact hs2
  · unfold RealAlg.recip
    rw [(hfuel fuel hf).2]
    rfl

/-- Non-vacuity: `√2` held with the interval `[-1, 2]`, which holds zero. -/
example : (⟨Poly.ofCoeffs [-2, 0, 1], ⟨-1, 2, 0⟩⟩ : RealAlg).Represents (√2) ∧ Irrational (√2) ∧
    (⟨-1, 2, 0⟩ : DFI).Contains 0 := by
  have h0 : (0 : ℝ) < √2 := Real.sqrt_pos.mpr (by norm_num)
  have hs : √2 * √2 = (2 : ℝ) := Real.mul_self_sqrt (by norm_num)
  refine ⟨⟨sqrtTwo_represents.irreducible, sqrtTwo_represents.positive, sqrtTwo_represents.root, ?_, ?_⟩,
    irrational_sqrt_two, ?_⟩
  · constructor
    · norm_num; linarith
    · rw [le_div_iff₀ (by positivity)]; norm_num
  · intro y hy hyr
    have hy0 : -1 ≤ y := by simpa using hy.1
    rw [show (Poly.ofCoeffs [-2, 0, 1] : Poly ℤ).toPoly = X ^ 2 + C 0 * X + C (-2) from
      toPoly_quadratic 0 (-2)] at hyr
    simp only [map_add, map_mul, map_pow, aeval_X, aeval_C, algebraMap_int_eq, Int.coe_castRingHom,
      Int.cast_zero, zero_mul, add_zero, Int.cast_neg, Int.cast_ofNat] at hyr
    have hprod : (y - √2) * (y + √2) = 0 := by nlinarith
    rcases mul_eq_zero.mp hprod with h | h
    · linarith
    · nlinarith
  · constructor <;> norm_num

end Algebraics
