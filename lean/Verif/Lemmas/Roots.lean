import Verif.Spec.Roots
import Mathlib.NumberTheory.Real.Irrational
import Mathlib.FieldTheory.Separable
import Mathlib.FieldTheory.Minpoly.Field
import Mathlib.Analysis.Complex.Polynomial.Basic

/-!
# Roots of rational numbers and their conjugates
-/

namespace Algebraics

open Polynomial

/-! ## Conjugates of roots -/

theorem RootOfInteger.rational {x : ℝ} (h : RootOfInteger x) : RootOfRational x := by
  obtain ⟨k, hk, m, hm⟩ := h
  exact ⟨k, hk, m, by rw [hm]; simp⟩

theorem RootOfInteger.integral {x : ℝ} (h : RootOfInteger x) : IsIntegral ℤ x := by
  obtain ⟨k, hk, m, hm⟩ := h
  refine ⟨X ^ k - C m, monic_X_pow_sub_C _ hk.ne', ?_⟩
  rw [eval₂_sub, eval₂_X_pow, eval₂_C, hm]
  simp

theorem rootOfRational_rat (q : ℚ) : RootOfRational q := ⟨1, one_pos, q, by simp⟩

theorem rootOfInteger_int (m : ℤ) : RootOfInteger m := ⟨1, one_pos, m, by simp⟩

theorem RootOfRational.neg {x : ℝ} (h : RootOfRational x) : RootOfRational (-x) := by
  obtain ⟨k, hk, q, hq⟩ := h
  refine ⟨2 * k, by omega, q ^ 2, ?_⟩
  rw [mul_comm, pow_mul, neg_pow, hq, mul_pow, ← pow_mul]
  simp

theorem RootOfInteger.neg {x : ℝ} (h : RootOfInteger x) : RootOfInteger (-x) := by
  obtain ⟨k, hk, q, hq⟩ := h
  refine ⟨2 * k, by omega, q ^ 2, ?_⟩
  rw [mul_comm, pow_mul, neg_pow, hq, mul_pow, ← pow_mul]
  simp

theorem RootOfRational.mul {x y : ℝ} (hx : RootOfRational x) (hy : RootOfRational y) :
    RootOfRational (x * y) := by
  obtain ⟨k, hk, p, hp⟩ := hx
  obtain ⟨l, hl, q, hq⟩ := hy
  refine ⟨k * l, by positivity, p ^ l * q ^ k, ?_⟩
  rw [mul_pow, pow_mul, hp, mul_comm k, pow_mul, hq]
  push_cast
  rfl

theorem RootOfInteger.mul {x y : ℝ} (hx : RootOfInteger x) (hy : RootOfInteger y) :
    RootOfInteger (x * y) := by
  obtain ⟨k, hk, p, hp⟩ := hx
  obtain ⟨l, hl, q, hq⟩ := hy
  refine ⟨k * l, by positivity, p ^ l * q ^ k, ?_⟩
  rw [mul_pow, pow_mul, hp, mul_comm k, pow_mul, hq]
  push_cast
  rfl

theorem RootOfRational.inv {x : ℝ} (hx : RootOfRational x) : RootOfRational x⁻¹ := by
  obtain ⟨k, hk, p, hp⟩ := hx
  exact ⟨k, hk, p⁻¹, by rw [inv_pow, hp]; push_cast; rfl⟩

theorem RootOfRational.zpow {x : ℝ} (hx : RootOfRational x) (n : ℤ) : RootOfRational (x ^ n) := by
  obtain ⟨k, hk, p, hp⟩ := hx
  refine ⟨k, hk, p ^ n, ?_⟩
  rw [← zpow_natCast, ← zpow_mul, mul_comm, zpow_mul, zpow_natCast, hp]
  push_cast
  rfl

/-- all conjugates of a root have the same absolute value -/
theorem RootOfRational.norm_conj {x : ℝ} (h : RootOfRational x) {w : ℂ}
    (hw : aeval w (minpoly ℚ x) = 0) : ‖w‖ = |x| := by
  obtain ⟨k, hk, q, hq⟩ := h
  have h1 : aeval x (X ^ k - C q) = 0 := by simp [hq]
  obtain ⟨g, hg⟩ := minpoly.dvd ℚ x h1
  have h2 : aeval w (X ^ k - C q) = 0 := by rw [hg, map_mul, hw, zero_mul]
  have h3 : w ^ k = ((x ^ k : ℝ) : ℂ) := by
    simp only [map_sub, map_pow, aeval_X, aeval_C, eq_ratCast] at h2
    rw [sub_eq_zero.mp h2, hq]
    simp
  have h4 : ‖w‖ ^ k = |x| ^ k := by
    rw [← norm_pow, h3, Complex.norm_real, Real.norm_eq_abs, abs_pow]
  exact (pow_left_inj₀ (norm_nonneg _) (abs_nonneg _) hk.ne').mp h4

/-- a real conjugate of a root is the root or its negation -/
theorem RootOfRational.conj_real {x z : ℝ} (h : RootOfRational x) (hz : aeval z (minpoly ℚ x) = 0) :
    z = x ∨ z = -x := by
  have h1 := h.norm_conj (w := z) (by
    rw [show (z : ℂ) = algebraMap ℝ ℂ z from rfl, aeval_algebraMap_apply, hz, map_zero])
  rw [Complex.norm_real, Real.norm_eq_abs] at h1
  exact abs_eq_abs.mp h1

/-- a number with no other conjugate is rational -/
theorem rational_of_conj {x : ℝ} (hi : IsIntegral ℚ x) (h : ∀ w : ℂ, aeval w (minpoly ℚ x) = 0 → w = x) :
    ¬ Irrational x := by
  have hsep : (minpoly ℚ x).Separable := (minpoly.irreducible hi).separable
  have hspl : ((minpoly ℚ x).map (algebraMap ℚ ℂ)).Splits := IsAlgClosed.splits _
  have hcard := card_rootSet_eq_natDegree hsep hspl
  have hle : Fintype.card ((minpoly ℚ x).rootSet ℂ) ≤ 1 := by
    rw [Fintype.card_le_one_iff]
    rintro ⟨a, ha⟩ ⟨b, hb⟩
    rw [mem_rootSet] at ha hb
    rw [Subtype.mk.injEq, h a ha.2, h b hb.2]
  rw [hcard] at hle
  have hpos := minpoly.natDegree_pos hi
  have h1 : (minpoly ℚ x).degree = 1 := by
    rw [degree_eq_natDegree (minpoly.ne_zero hi)]
    have : (minpoly ℚ x).natDegree = 1 := by omega
    rw [this]; rfl
  obtain ⟨q, hq⟩ := minpoly.mem_range_of_degree_eq_one ℚ x h1
  exact not_not.mpr ⟨q, by rw [← hq]; rfl⟩

theorem RootOfRational.isIntegral {x : ℝ} (h : RootOfRational x) : IsIntegral ℚ x := by
  obtain ⟨k, hk, q, hq⟩ := h
  refine ⟨X ^ k - C q, monic_X_pow_sub_C _ hk.ne', ?_⟩
  simp [hq]

/-- two irrational roots differ by a rational number only if they are equal -/
theorem RootOfRational.sub_rat {x y : ℝ} (hx : RootOfRational x) (hy : RootOfRational y) (hi : Irrational x)
    (q : ℚ) (h : x - y = q) : x = y := by
  by_contra hne
  have hq0 : (q : ℝ) ≠ 0 := by rw [← h]; exact sub_ne_zero.mpr hne
  refine rational_of_conj hx.isIntegral (fun w hw => ?_) hi
  have h1 := hx.norm_conj hw
  have h2 : aeval (w - q) (minpoly ℚ y) = 0 := by
    have h3 : aeval x ((minpoly ℚ y).comp (X - C q)) = 0 := by
      rw [aeval_comp]
      simp only [map_sub, aeval_X, aeval_C, eq_ratCast]
      rw [← h, sub_sub_cancel]
      exact minpoly.aeval ℚ y
    obtain ⟨g, hg⟩ := minpoly.dvd ℚ x h3
    have h4 : aeval w ((minpoly ℚ y).comp (X - C q)) = 0 := by rw [hg, map_mul, hw, zero_mul]
    rw [aeval_comp] at h4
    simpa using h4
  have h3 := hy.norm_conj h2
  have h4 : w.re ^ 2 + w.im ^ 2 = x ^ 2 := by
    have := congrArg (· ^ 2) h1
    simp only [sq_abs, Complex.sq_norm, Complex.normSq_apply] at this
    linarith
  have h5 : (w.re - q) ^ 2 + w.im ^ 2 = y ^ 2 := by
    have := congrArg (· ^ 2) h3
    simp only [sq_abs, Complex.sq_norm, Complex.normSq_apply, Complex.sub_re, Complex.sub_im,
      Complex.ratCast_re, Complex.ratCast_im, sub_zero] at this
    linarith
  have hy' : y = x - q := by linarith
  have h6 : w.re = x := by
    have : (q : ℝ) * (w.re - x) = 0 := by rw [hy'] at h5; linarith
    rcases mul_eq_zero.mp this with h | h
    · exact absurd h hq0
    · linarith
  have h7 : w.im = 0 := by
    rw [h6] at h4
    have : w.im ^ 2 = 0 := by linarith
    exact pow_eq_zero_iff (two_ne_zero) |>.mp this
  exact Complex.ext (by simpa using h6) (by simpa using h7)

/-- the condition under which sums are exact -/
theorem RootOfRational.sum_alone {x y : ℝ} (hx : RootOfRational x) (hy : RootOfRational y) (hne : x ≠ y)
    (q : ℚ) (h : aeval ((q : ℝ) - x) (minpoly ℚ y) = 0) : (q : ℝ) = x + y := by
  rcases hy.conj_real h with h1 | h1
  · linarith
  · by_cases hi : Irrational x
    · exact absurd (hx.sub_rat hy hi q (by linarith)) hne
    · obtain ⟨p, rfl⟩ := not_not.mp hi
      have h2 : y = ((p - q : ℚ) : ℝ) := by push_cast; linarith
      rw [h2, show ((p - q : ℚ) : ℝ) = algebraMap ℚ ℝ (p - q) from rfl, minpoly.eq_X_sub_C] at h
      simp only [map_sub, aeval_X, aeval_C, eq_ratCast] at h
      rw [h2]; push_cast; linarith

/-- the condition under which products are exact -/
theorem RootOfRational.product_alone {x y : ℝ} (hy : RootOfRational y) (hx0 : x ≠ 0)
    (hi : Irrational (x * y)) (q : ℚ) (h : aeval ((q : ℝ) / x) (minpoly ℚ y) = 0) : (q : ℝ) = x * y := by
  rcases hy.conj_real h with h1 | h1
  · rw [div_eq_iff hx0] at h1; linarith
  · rw [div_eq_iff hx0] at h1
    exact absurd ⟨-q, by push_cast; linarith⟩ hi

/-- a root has no other real conjugate of its sign -/
theorem RootOfRational.recip_alone {x : ℝ} (hx : RootOfRational x) (z : ℝ) (h : aeval z (minpoly ℚ x) = 0)
    (hs : 0 < x * z) : z = x := by
  rcases hx.conj_real h with h1 | h1
  · exact h1
  · rw [h1] at hs
    nlinarith [mul_self_nonneg x]

end Algebraics
