import Verif.Props.AlgNumIff
import Verif.Props.AlgNumQuotient

/-!
# C58, exactly when the remainder is wrong

`%` of `src/algebraic_numbers.rs:1451-1491` is a division, a truncation, a product and a subtraction.  The
truncation is always right (C43) and so is the product by an integer (C45).  What is left is the subtraction.
-/

namespace Algebraics

open Polynomial RealAlg

/-- C58: exactly when the remainder is wrong, given a right quotient `q` and a right product `m` of the truncated
quotient `t` and the divisor: when all of `x`, `t y` and `x - t y` are irrational and an end point is hit in the
subtraction.  Then a rational number is returned. -/
theorem C58_rem_exact_iff (F : FactorCall) (a b q m n : RealAlg) (x y : ℝ) (M : ℕ) (ha : a.Represents x)
    (hq : a.div F M b = .ok q) (hqr : q.Represents (x / y))
    (hm : (RealAlg.ofInt (truncate (x / y))).mul F M b = .ok m) (hmr : m.Represents (truncate (x / y) * y))
    (hn : m.neg = .ok n)
    (hF : ∀ R, addResultant a.poly n.poly = some R → FactorsRight F R) :
    ((∃ N, ∀ fuel ≥ N, ∃ c, a.rem F fuel b = .ok c ∧ c.Represents (x - truncate (x / y) * y)) ↔
      ¬ (Irrational x ∧ Irrational (truncate (x / y) * y) ∧ Irrational (x - truncate (x / y) * y) ∧
        EndpointHit (· + ·) DFI.add a n)) ∧
    (Irrational x ∧ Irrational (truncate (x / y) * y) ∧ Irrational (x - truncate (x / y) * y) ∧
        EndpointHit (· + ·) DFI.add a n →
      ∃ N, ∃ p : ℚ, ∀ fuel ≥ N, a.rem F fuel b = .ok (RealAlg.ofRat p)) := by
  obtain ⟨K, hK⟩ := hqr.integerTrunc
  have hrem : ∀ fuel ≥ max M K, a.rem F fuel b = a.sub F fuel m := by
    intro fuel hf
    unfold RealAlg.rem RealAlg.trunc
    rw [RealAlg.div_mono F a b q M hq fuel (by omega)]
    simp only [bind, Except.bind, pure, Except.pure]
    rw [hK fuel (by omega)]
    simp only
    rw [show (if 0 ≤ x / y then ⌊x / y⌋ else ⌈x / y⌉) = truncate (x / y) from rfl,
      RealAlg.mul_mono F _ b m M hm fuel (by omega)]
  obtain ⟨h1, h2⟩ := C44_sub_exact_iff F a m n x _ ha hmr hn hF
  refine ⟨Iff.trans ⟨?_, ?_⟩ h1, fun h => ?_⟩
  · rintro ⟨N, hN⟩
    refine ⟨max N (max M K), fun fuel hf => ?_⟩
    rw [← hrem fuel (by omega)]
    exact hN fuel (by omega)
  · rintro ⟨N, hN⟩
    refine ⟨max N (max M K), fun fuel hf => ?_⟩
    rw [hrem fuel (by omega)]
    exact hN fuel (by omega)
  · obtain ⟨N, p, hN⟩ := h2 h
    refine ⟨max N (max M K), p, fun fuel hf => ?_⟩
    rw [hrem fuel (by omega)]
    exact hN fuel (by omega)

/-- C58: the remainder is `x` itself if `x` is smaller than `y` in absolute value and the quotient is right: then
the truncated quotient is zero, and nothing is left to go wrong. -/
theorem C58_rem_small (F : FactorCall) (a b q : RealAlg) (x y : ℝ) (M : ℕ) (ha : a.Represents x)
    (hb : b.Represents y) (hxy : |x| < |y|) (hq : a.div F M b = .ok q) (hqr : q.Represents (x / y))
    (hF : ∀ n R, (RealAlg.ofInt 0).neg = .ok n → addResultant a.poly n.poly = some R → FactorsRight F R) :
    ∃ N, ∀ fuel ≥ N, ∃ c, a.rem F fuel b = .ok c ∧ c.Represents x := by
  have hy : 0 < |y| := (abs_nonneg x).trans_lt hxy
  have hlt : |x / y| < 1 := by rw [abs_div, div_lt_one hy]; exact hxy
  have ht : truncate (x / y) = 0 := by
    unfold truncate
    rw [abs_lt] at hlt
    split_ifs with h
    · exact Int.floor_eq_iff.mpr ⟨by simpa using h, by simpa using hlt.2⟩
    · exact Int.ceil_eq_iff.mpr ⟨by push_cast; linarith [hlt.1], by push_cast; linarith⟩
  have h0 : (RealAlg.ofInt 0).Represents (((0 : ℚ) : ℝ)) := by simpa using ofInt_represents 0
  have hbt : ∃ v, b.toRational = .ok v := by
    by_cases hi : Irrational y
    · exact ⟨_, hb.toRational_irr hi⟩
    · obtain ⟨p, hp⟩ := not_not.mp hi
      subst hp
      exact ⟨_, hb.toRational_rat⟩
  have hm : (RealAlg.ofInt 0).mul F M b = .ok (RealAlg.ofInt 0) := by
    obtain ⟨v, hv⟩ := hbt
    unfold RealAlg.mul
    rw [h0.toRational_rat, hv]
    cases v with
    | none => exact congrArg Except.ok (by decide +kernel : RealAlg.zero = RealAlg.ofInt 0)
    | some p =>
      refine congrArg Except.ok ?_
      rw [zero_mul]
      decide +kernel
  obtain ⟨n, hn, -⟩ := h0.neg
  have := (C58_rem_exact_iff F a b q (RealAlg.ofInt 0) n x y M ha hq hqr (by rw [ht]; exact hm)
    (by rw [ht]; simpa using h0) hn (hF n · hn)).1.mpr (by
      rw [ht]
      rintro ⟨-, h, -⟩
      exact h ⟨0, by simp⟩)
  rw [ht] at this
  simpa using this

/-- the right factorings of the two resultants of `√2 % √2`: `4 (x² - 1)²` and `x² (x² - 8)` -/
def RealAlg.remFactor : FactorCall := fun R =>
  if R = Poly.ofCoeffs [4, 0, -8, 0, 4] then oneFactor R else factorCall firstSmallest (fun _ => 0) 0 R

/-- `√2 % √2` is zero: all hypotheses are met. -/
example : ∃ N, ∀ fuel ≥ N, ∃ c, sqrtTwo.rem remFactor fuel sqrtTwo = .ok c ∧ c.Represents 0 := by
  have f1 : FactorsRight remFactor (Poly.ofCoeffs [4, 0, -8, 0, 4]) := by
    obtain ⟨r, h1, h2⟩ := oneFactor_right
    exact ⟨r, by rw [remFactor, if_pos rfl]; exact h1, h2⟩
  have f2 : FactorsRight remFactor sumRes := by
    obtain ⟨r, h1, h2⟩ := sumRes_right firstSmallest firstSmallest_order (fun _ => 0) 0
    exact ⟨r, by rw [remFactor, if_neg (by decide +kernel)]; exact h1, h2⟩
  have hs : √2 ^ 2 = (2 : ℝ) := Real.sq_sqrt (by norm_num)
  have h0 : 0 < √2 := Real.sqrt_pos.mpr (by norm_num)
  have hr : sqrtTwo.checkedRecip 1 = .ok (some ⟨Poly.ofCoeffs [1, 0, -2], ⟨0, 1, 0⟩⟩) := by decide +kernel
  obtain ⟨N, hN⟩ := C40_recip_one_sign_partial sqrtTwo _ sqrtTwo_represents irrational_sqrt_two (by
    intro y hy hpos
    rw [show sqrtTwo.poly.toPoly = X ^ 2 + C 0 * X + C (-2) from toPoly_quadratic 0 (-2),
      quadratic_aeval] at hy
    norm_num at hy
    have hy0 : 0 < y := (mul_pos_iff_of_pos_left h0).mp hpos
    have : (y - √2) * (y + √2) = 0 := by nlinarith
    rcases mul_eq_zero.mp this with h | h
    · linarith
    · linarith)
  obtain ⟨r, h1, h2⟩ := hN (max N 1) (le_max_left _ _)
  rw [checkedRecip_mono _ _ _ hr _ (le_max_right N 1)] at h1
  cases h1
  obtain ⟨K, hK⟩ := C45_self_div_partial remFactor sqrtTwo _ _ 1 sqrtTwo_represents irrational_sqrt_two hr h2
    (fun z hz => by
      have := hz.1
      simp only [sqrtTwo] at this
      norm_num at this
      exact mul_nonneg h0.le (by linarith))
    (fun R hR _ => by
      rw [show mulResultant sqrtTwo.poly (Poly.ofCoeffs [1, 0, -2]) = some (Poly.ofCoeffs [4, 0, -8, 0, 4]) by
        decide +kernel] at hR
      cases hR
      exact f1)
  obtain ⟨q, q1, q2⟩ := hK K le_rfl
  have hd : √2 / √2 = (1 : ℝ) := div_self h0.ne'
  have ht : truncate (√2 / √2) = 1 := by rw [hd, truncate]; norm_num
  obtain ⟨n, n1, n2⟩ : ∃ n, sqrtTwo.neg = .ok n ∧ n.poly = Poly.ofCoeffs [-2, 0, 1] :=
    ⟨⟨Poly.ofCoeffs [-2, 0, 1], ⟨-2, -1, 0⟩⟩, by decide +kernel, rfl⟩
  have := (C58_rem_exact_iff remFactor sqrtTwo sqrtTwo q sqrtTwo n _ _ K sqrtTwo_represents q1 (by rwa [hd])
    (by
      rw [ht]
      unfold RealAlg.mul
      rw [show (ofInt 1).toRational = .ok (some 1) by decide +kernel,
        sqrtTwo_represents.toRational_irr irrational_sqrt_two]
      rfl)
    (by rw [ht]; simpa using sqrtTwo_represents) n1
    (fun R hR => by
      rw [n2, show addResultant sqrtTwo.poly (Poly.ofCoeffs [-2, 0, 1]) = some sumRes by decide +kernel] at hR
      cases hR
      exact f2)).1.mpr (by
      rw [ht]
      rintro ⟨-, -, h, -⟩
      exact h ⟨0, by simp⟩)
  rw [ht] at this
  simpa using this

end Algebraics
