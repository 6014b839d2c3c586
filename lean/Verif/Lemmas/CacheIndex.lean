import Mathlib.Analysis.SpecialFunctions.Log.Base
import Mathlib.Analysis.Complex.ExponentialBounds
import Verif.Model.CacheIndex
import Verif.Lemmas.ConstantCache

/-! Lemmas on the rounding of `f64` and the index of the constant cache. -/

namespace Algebraics
namespace Cache

theorem roundHalfEven_near (x : ℚ) : |(roundHalfEven x : ℚ) - x| ≤ 1 / 2 := by
  have h0 := Int.floor_le x
  have h1 := Int.lt_floor_add_one x
  unfold roundHalfEven
  rw [abs_le]
  split_ifs <;> push_cast <;> constructor <;> linarith

theorem roundHalfEven_int (k : ℤ) : roundHalfEven (k : ℚ) = k := by
  unfold roundHalfEven
  simp

theorem roundHalfEven_mono : Monotone roundHalfEven := by
  intro x y hxy
  rcases eq_or_lt_of_le (Int.floor_mono hxy) with h | h
  · unfold roundHalfEven
    rw [← h]
    have : x - ⌊x⌋ ≤ y - ⌊x⌋ := by linarith
    split_ifs <;> first | omega | linarith
  · have a : roundHalfEven x ≤ ⌊x⌋ + 1 := by unfold roundHalfEven; split_ifs <;> omega
    have b : ⌊y⌋ ≤ roundHalfEven y := by unfold roundHalfEven; split_ifs <;> omega
    omega

theorem f64Round_nonneg (q : ℚ) : 0 ≤ f64Round q := by
  unfold f64Round
  split_ifs with h
  · exact le_rfl
  · have hq := not_le.mp h
    have : 0 ≤ roundHalfEven (q / 2 ^ (Int.log 2 q - 52)) := by
      have := roundHalfEven_mono (show ((0:ℤ):ℚ) ≤ q / 2 ^ (Int.log 2 q - 52) by push_cast; positivity)
      rwa [roundHalfEven_int] at this
    positivity

theorem zpow_log_le {q : ℚ} (hq : 0 < q) : (2:ℚ) ^ Int.log 2 q ≤ q := by
  exact_mod_cast Int.zpow_log_le_self (b := 2) (by norm_num) hq

theorem lt_zpow_log (q : ℚ) : q < (2:ℚ) ^ (Int.log 2 q + 1) := by
  exact_mod_cast Int.lt_zpow_succ_log_self (b := 2) (by norm_num) q

/-- a rounded number stays between the powers of two around it. -/
theorem f64Round_binade {q : ℚ} (hq : 0 < q) :
    (2:ℚ) ^ Int.log 2 q ≤ f64Round q ∧ f64Round q ≤ 2 ^ (Int.log 2 q + 1) := by
  unfold f64Round
  rw [if_neg (not_le.mpr hq)]
  set e := Int.log 2 q
  have hu : (0:ℚ) < 2 ^ (e - 52) := by positivity
  have e1 : (2:ℚ) ^ e = ((2 ^ 52 : ℤ) : ℚ) * 2 ^ (e - 52) := by
    rw [show ((2 ^ 52 : ℤ) : ℚ) = (2:ℚ) ^ (52:ℤ) by norm_num, ← zpow_add₀ (by norm_num)]; congr 1; ring
  have e2 : (2:ℚ) ^ (e + 1) = ((2 ^ 53 : ℤ) : ℚ) * 2 ^ (e - 52) := by
    rw [show ((2 ^ 53 : ℤ) : ℚ) = (2:ℚ) ^ (53:ℤ) by norm_num, ← zpow_add₀ (by norm_num)]; congr 1; ring
  constructor
  · have h : ((2 ^ 52 : ℤ) : ℚ) ≤ q / 2 ^ (e - 52) := by
      rw [le_div_iff₀ hu, ← e1]; exact zpow_log_le hq
    have := roundHalfEven_mono h
    rw [roundHalfEven_int] at this
    rw [e1]
    exact mul_le_mul_of_nonneg_right (by exact_mod_cast this) hu.le
  · have h : q / 2 ^ (e - 52) ≤ ((2 ^ 53 : ℤ) : ℚ) := by
      rw [div_le_iff₀ hu, ← e2]; exact (lt_zpow_log q).le
    have := roundHalfEven_mono h
    rw [roundHalfEven_int] at this
    rw [e2]
    exact mul_le_mul_of_nonneg_right (by exact_mod_cast this) hu.le

theorem f64Round_mono : Monotone f64Round := by
  intro x y hxy
  by_cases hx : x ≤ 0
  · rw [show f64Round x = 0 by unfold f64Round; rw [if_pos hx]]
    exact f64Round_nonneg y
  have hx' := not_le.mp hx
  have hy' := hx'.trans_le hxy
  rcases eq_or_lt_of_le (Int.log_mono_right (b := 2) hx' hxy) with h | h
  · unfold f64Round
    rw [if_neg hx, if_neg (not_le.mpr hy'), ← h]
    have hu : (0:ℚ) < 2 ^ (Int.log 2 x - 52) := by positivity
    refine mul_le_mul_of_nonneg_right ?_ hu.le
    exact_mod_cast roundHalfEven_mono ((div_le_div_iff_of_pos_right hu).mpr hxy)
  · exact (f64Round_binade hx').2.trans ((zpow_le_zpow_right₀ (by norm_num) (by omega)).trans (f64Round_binade hy').1)

/-- the relative error of a rounding. -/
theorem f64Round_near {q : ℚ} (hq : 0 ≤ q) : |f64Round q - q| ≤ q / 2 ^ 53 := by
  rcases hq.eq_or_lt with rfl | hq
  · simp [f64Round]
  unfold f64Round
  rw [if_neg (not_le.mpr hq)]
  set e := Int.log 2 q
  have hu : (0:ℚ) < 2 ^ (e - 52) := by positivity
  have e1 : (2:ℚ) ^ e = 2 ^ 52 * 2 ^ (e - 52) := by
    rw [← zpow_natCast, ← zpow_add₀ (by norm_num)]; congr 1; push_cast; ring
  have hn := roundHalfEven_near (q / 2 ^ (e - 52))
  have h2 : (2:ℚ) ^ e ≤ q := zpow_log_le hq
  have h3 : (roundHalfEven (q / 2 ^ (e - 52)) : ℚ) * 2 ^ (e - 52) - q =
      ((roundHalfEven (q / 2 ^ (e - 52)) : ℚ) - q / 2 ^ (e - 52)) * 2 ^ (e - 52) := by
    field_simp
  rw [h3, abs_mul, abs_of_pos hu]
  calc _ ≤ 1 / 2 * (2:ℚ) ^ (e - 52) := mul_le_mul_of_nonneg_right hn hu.le
    _ ≤ q / 2 ^ 53 := by rw [le_div_iff₀ (by positivity)]; rw [e1] at h2; linarith

theorem f64Closure_mono {log2 : ℚ → ℚ} (h : MonotoneOn log2 (Set.Ici 1)) : Monotone (f64Closure log2) := by
  intro a b hab
  unfold f64Closure
  refine min_le_min_right _ (Int.toNat_le_toNat (Int.floor_mono ?_))
  unfold f64Scaled
  have one : f64Round 1 = 1 := by
    have : Int.log 2 (1:ℚ) = 0 := by simp
    unfold f64Round
    rw [if_neg (by norm_num), this]
    have := roundHalfEven_int (2 ^ 52)
    norm_num at this ⊢
    rw [this]; norm_num
  have ge : ∀ n : ℕ, (1:ℚ) ≤ f64Round (f64Round n + 1) := fun n => by
    rw [← one]; refine f64Round_mono ?_
    rw [one]; linarith [f64Round_nonneg (n:ℚ)]
  refine f64Round_mono (mul_le_mul_of_nonneg_right (h (ge a) (ge b) ?_) (by norm_num))
  exact f64Round_mono (by linarith [f64Round_mono (show (a:ℚ) ≤ b by exact_mod_cast hab)])

theorem logb_near {x y : ℝ} (hx : 0 < x) (h : |y - x| ≤ x / 2 ^ 20) : |Real.logb 2 y - Real.logb 2 x| ≤ 1 / 2 ^ 18 := by
  obtain ⟨h1, h2⟩ := abs_le.mp h
  have hy : 0 < y := by
    have : x / 2 ^ 20 < x := by rw [div_lt_iff₀ (by positivity)]; nlinarith
    linarith
  have l2 := Real.log_two_gt_d9
  have hl : Real.logb 2 y - Real.logb 2 x = Real.log (y / x) / Real.log 2 := by
    rw [Real.logb, Real.logb, Real.log_div hy.ne' hx.ne', sub_div]
  rw [hl, abs_div, abs_of_pos (show (0:ℝ) < Real.log 2 by linarith), div_le_iff₀ (by linarith)]
  have a1 : Real.log (y / x) ≤ 1 / 2 ^ 20 := by
    have := Real.log_le_sub_one_of_pos (div_pos hy hx)
    have : y / x ≤ 1 + 1 / 2 ^ 20 := by rw [div_le_iff₀ hx]; linarith
    linarith
  have a2 : -(1 / 2 ^ 19) ≤ Real.log (y / x) := by
    have h3 := Real.log_le_sub_one_of_pos (div_pos hx hy)
    have h4 : x / y ≤ 1 + 1 / 2 ^ 19 := by
      rw [div_le_iff₀ hy]
      have : x * (1 - 1 / 2 ^ 20) ≤ y := by linarith
      nlinarith
    have h5 : Real.log (y / x) = - Real.log (x / y) := by rw [← Real.log_inv, inv_div]
    rw [h5]; linarith
  rw [abs_le]
  constructor <;> norm_num at * <;> linarith

/-- the argument of `floor` is close to `3 log2(n + 1)`. -/
theorem f64Scaled_near {log2 : ℚ → ℚ} (hlog : ∀ x : ℚ, 1 ≤ x → x ≤ 2 ^ 65 →
    |((log2 x : ℚ) : ℝ) - Real.logb 2 x| ≤ 1 / 2 ^ 10) (h0 : ∀ x, 1 ≤ x → 0 ≤ log2 x) (n : ℕ) (hn : n < 2 ^ 64) :
    |((f64Scaled log2 n : ℚ) : ℝ) - 3 * Real.logb 2 (n + 1)| ≤ 1 / 2 ^ 7 := by
  have hn' : (n:ℚ) ≤ 18446744073709551616 := by exact_mod_cast hn.le
  obtain ⟨b11, b12⟩ := abs_le.mp (f64Round_near (show (0:ℚ) ≤ n by positivity))
  have p1 := f64Round_nonneg (n:ℚ)
  set u := f64Round (n:ℚ) with hu
  obtain ⟨b21, b22⟩ := abs_le.mp (f64Round_near (show (0:ℚ) ≤ u + 1 by linarith))
  set v := f64Round (u + 1) with hv
  have one : (1:ℚ) ≤ v := by
    have h1 : f64Round 1 = 1 := by
      have : Int.log 2 (1:ℚ) = 0 := by simp
      unfold f64Round
      rw [if_neg (by norm_num), this]
      have := roundHalfEven_int (2 ^ 52)
      norm_num at this ⊢
      rw [this]; norm_num
    have := f64Round_mono (show (1:ℚ) ≤ u + 1 by linarith)
    rwa [h1] at this
  have le : v ≤ 2 ^ 65 := by norm_num at b12 b22 ⊢; linarith
  have c1 : |v - (n + 1)| ≤ ((n:ℚ) + 1) / 2 ^ 20 := by
    rw [abs_le]; constructor <;> norm_num at * <;> linarith
  have c1' : |(v:ℝ) - ((n:ℝ) + 1)| ≤ ((n:ℝ) + 1) / 2 ^ 20 := by
    have := (Rat.cast_le (K := ℝ)).mpr c1
    push_cast at this; exact this
  obtain ⟨c21, c22⟩ := abs_le.mp (logb_near (by positivity) c1')
  obtain ⟨c31, c32⟩ := abs_le.mp (hlog v one le)
  have p3 := h0 v one
  have b3 : |f64Round (log2 v * 3) - log2 v * 3| ≤ log2 v * 3 / 2 ^ 53 := f64Round_near (by linarith)
  have b3' : |((f64Round (log2 v * 3) : ℚ) : ℝ) - (log2 v : ℚ) * 3| ≤ (log2 v : ℚ) * 3 / 2 ^ 53 := by
    have := (Rat.cast_le (K := ℝ)).mpr b3
    push_cast at this; exact this
  obtain ⟨d1, d2⟩ := abs_le.mp b3'
  have top : Real.logb 2 v ≤ 65 := by
    rw [Real.logb_le_iff_le_rpow (by norm_num) (by exact_mod_cast (by linarith : (0:ℚ) < v))]
    have : ((v:ℚ):ℝ) ≤ 2 ^ (65:ℕ) := by exact_mod_cast le
    exact_mod_cast this
  have e : f64Scaled log2 n = f64Round (log2 v * 3) := rfl
  rw [e, abs_le]
  constructor <;> norm_num at * <;> linarith

end Cache
end Algebraics
