import Verif.Lemmas.ExpTight

/-!
The bounds on the ends of `into_exp` (`src/interval_arithmetic.rs:685-759`) in terms of real numbers.
-/

namespace Algebraics
namespace DFI

theorem exp_le_of_le {z : ℝ} (h : z ≤ 0.7) : Real.exp z ≤ 2.1 := by
  have h1 := Real.exp_le_exp.mpr (show z ≤ Real.log 2 + 0.0069 by have := Real.log_two_gt_d9; linarith)
  rw [Real.exp_add, Real.exp_log (by norm_num)] at h1
  have h2 := exp_sub_le 0.0069 0
  rw [Real.exp_zero] at h2
  nlinarith [Real.exp_pos 0.0069]

/-- rounding `ln 2` up, in the lower end -/
theorem exp_low_gap {q : ℤ} {z d P : ℝ} {e : ℕ} (h1 : z ≤ 0.7) (d0 : 0 ≤ d) (d1 : d ≤ 8 / P)
    (hP : 0 < P) (hq : q ≤ e + 1) (he : 8 * ((e:ℝ) + 1) / P ≤ 1 / 4) :
    Real.exp (z + q * (Real.log 2 + d)) - 2 ^ q * Real.exp z ≤ 2 ^ q * (24 * (e + 1) / P) := by
  have hp : (0:ℝ) < 2 ^ q := by positivity
  have ex : Real.exp (z + q * (Real.log 2 + d)) = 2 ^ q * Real.exp z * Real.exp (q * d) := by
    rw [mul_add, ← add_assoc, Real.exp_add, Real.exp_add, mul_comm (q:ℝ), Real.exp_mul,
      Real.exp_log (by norm_num), Real.rpow_intCast]
    ring
  have hz := exp_le_of_le h1
  have hz0 := Real.exp_pos z
  rw [ex]
  rcases le_or_gt q 0 with h | h
  · have hq0 : (q:ℝ) ≤ 0 := by exact_mod_cast h
    have : Real.exp (q * d) ≤ 1 := Real.exp_le_one_iff.mpr (mul_nonpos_of_nonpos_of_nonneg hq0 d0)
    have hr : 0 ≤ 2 ^ q * (24 * ((e:ℝ) + 1) / P) := by positivity
    have : 2 ^ q * Real.exp z * Real.exp (q * d) ≤ 2 ^ q * Real.exp z * 1 := by gcongr
    linarith
  · have hqr : (q:ℝ) ≤ e + 1 := by exact_mod_cast hq
    have hq0 : (0:ℝ) < q := by exact_mod_cast h
    have hqd : q * d ≤ 8 * ((e:ℝ) + 1) / P := by
      calc q * d ≤ ((e:ℝ) + 1) * (8 / P) := by gcongr
        _ = _ := by ring
    have hqd0 : 0 ≤ q * d := by positivity
    have g := exp_sub_le (q * d) 0
    rw [Real.exp_zero, sub_zero] at g
    have g1 : Real.exp (q * d) ≤ 4 / 3 := by nlinarith [Real.exp_pos (q * d)]
    have g2 : Real.exp (q * d) - 1 ≤ 4 / 3 * (8 * ((e:ℝ) + 1) / P) :=
      g.trans (mul_le_mul g1 hqd hqd0 (by norm_num))
    have g3 : Real.exp z * (Real.exp (q * d) - 1) ≤ 2.1 * (4 / 3 * (8 * ((e:ℝ) + 1) / P)) :=
      mul_le_mul hz g2 (by have := Real.one_le_exp hqd0; linarith) (by norm_num)
    have g4 : 2.1 * (4 / 3 * (8 * ((e:ℝ) + 1) / P)) ≤ 24 * (e + 1) / P := by
      have : 0 ≤ ((e:ℝ) + 1) / P := by positivity
      have e1 : 24 * ((e:ℝ) + 1) / P = 24 * (((e:ℝ) + 1) / P) := by ring
      have e2 : 8 * ((e:ℝ) + 1) / P = 8 * (((e:ℝ) + 1) / P) := by ring
      rw [e1, e2]; linarith
    have := mul_le_mul_of_nonneg_left (g3.trans g4) hp.le
    linarith

/-- rounding `ln 2` down, in the upper end -/
theorem exp_high_gap {q : ℤ} {z d P : ℝ} {e : ℕ} (h1 : z ≤ 0.7) (d0 : 0 ≤ d) (d1 : d ≤ 8 / P)
    (hP : 0 < P) (hq : q ≤ e + 1) :
    2 ^ q * Real.exp z - Real.exp (z + q * (Real.log 2 - d)) ≤ 2 ^ q * (24 * (e + 1) / P) := by
  have hp : (0:ℝ) < 2 ^ q := by positivity
  have ex : Real.exp (z + q * (Real.log 2 - d)) = 2 ^ q * Real.exp z * Real.exp (-(q * d)) := by
    rw [show z + q * (Real.log 2 - d) = z + Real.log 2 * q + -(q * d) by ring, Real.exp_add, Real.exp_add,
      Real.exp_mul, Real.exp_log (by norm_num), Real.rpow_intCast]
    ring
  have hz := exp_le_of_le h1
  have hz0 := Real.exp_pos z
  rw [ex]
  have g := Real.add_one_le_exp (-(q * d))
  rcases le_or_gt q 0 with h | h
  · have hq0 : (q:ℝ) ≤ 0 := by exact_mod_cast h
    have : q * d ≤ 0 := mul_nonpos_of_nonpos_of_nonneg hq0 d0
    have : 1 ≤ Real.exp (-(q * d)) := Real.one_le_exp (by linarith)
    have hr : 0 ≤ 2 ^ q * (24 * ((e:ℝ) + 1) / P) := by positivity
    have : 2 ^ q * Real.exp z * 1 ≤ 2 ^ q * Real.exp z * Real.exp (-(q * d)) := by gcongr
    linarith
  · have hqr : (q:ℝ) ≤ e + 1 := by exact_mod_cast hq
    have hq0 : (0:ℝ) < q := by exact_mod_cast h
    have hqd : q * d ≤ 8 * ((e:ℝ) + 1) / P := by
      calc q * d ≤ ((e:ℝ) + 1) * (8 / P) := by gcongr
        _ = _ := by ring
    have hqd0 : 0 ≤ q * d := by positivity
    have g3 : Real.exp z * (1 - Real.exp (-(q * d))) ≤ 2.1 * (8 * ((e:ℝ) + 1) / P) := by
      refine mul_le_mul hz (by linarith) ?_ (by norm_num)
      have := Real.exp_le_one_iff.mpr (show -(q * d) ≤ 0 by linarith)
      linarith
    have g4 : 2.1 * (8 * ((e:ℝ) + 1) / P) ≤ 24 * (e + 1) / P := by
      have : 0 ≤ ((e:ℝ) + 1) / P := by positivity
      have e1 : 24 * ((e:ℝ) + 1) / P = 24 * (((e:ℝ) + 1) / P) := by ring
      have e2 : 8 * ((e:ℝ) + 1) / P = 8 * (((e:ℝ) + 1) / P) := by ring
      rw [e1, e2]; linarith
    have := mul_le_mul_of_nonneg_left (g3.trans g4) hp.le
    linarith

/-- remainders in the wrong order are close together. -/
theorem exp_cross_gap {q : ℤ} {z1 z2 P : ℝ} (h1 : z2 ≤ 0.7) (hP : 0 < P) (hz : z2 - z1 ≤ 16 * -(q:ℝ) / P)
    (hq : q < 0) : 2 ^ q * Real.exp z2 - 2 ^ q * Real.exp z1 ≤ 18 / P := by
  have hp : (0:ℝ) < 2 ^ q := by positivity
  have g := exp_sub_le z2 z1
  have hz2 := exp_le_of_le h1
  have hz0 := Real.exp_pos z2
  obtain ⟨m, rfl⟩ : ∃ m : ℕ, q = -((m:ℤ) + 1) := ⟨(-q - 1).toNat, by omega⟩
  have hm : (2:ℝ) ^ (-((m:ℤ) + 1)) * (m + 1) ≤ 1 / 2 := by
    have e : (2:ℝ) ^ (-((m:ℤ) + 1)) = 1 / (2 * 2 ^ m) := by
      rw [zpow_neg, zpow_add_one₀ (by norm_num), zpow_natCast]
      rw [one_div, mul_comm]
    have h2 : (m:ℝ) + 1 ≤ 2 ^ m := by
      have : m + 1 ≤ 2 ^ m := Nat.lt_pow_self (by norm_num)
      exact_mod_cast this
    rw [e, div_mul_eq_mul_div, one_mul, div_le_div_iff₀ (by positivity) (by norm_num)]
    linarith
  push_cast at hz
  have h3 : Real.exp z2 - Real.exp z1 ≤ 2.1 * (16 * ((m:ℝ) + 1) / P) := by
    have hr : 0 ≤ 16 * ((m:ℝ) + 1) / P := by positivity
    rw [neg_neg] at hz
    calc Real.exp z2 - Real.exp z1 ≤ Real.exp z2 * (z2 - z1) := g
      _ ≤ Real.exp z2 * (16 * ((m:ℝ) + 1) / P) := by gcongr
      _ ≤ _ := by gcongr
  have h4 := mul_le_mul_of_nonneg_left h3 hp.le
  have h5 : (2:ℝ) ^ (-((m:ℤ) + 1)) * (2.1 * (16 * ((m:ℝ) + 1) / P)) =
      (2 ^ (-((m:ℤ) + 1)) * (m + 1)) * 33.6 / P := by ring
  rw [h5] at h4
  have h6 : (2 ^ (-((m:ℤ) + 1)) * ((m:ℝ) + 1)) * 33.6 / P ≤ 18 / P := by
    gcongr; linarith
  linarith

/-- `exp_pieces` in terms of real numbers. -/
theorem exp_pieces_real (ln2 : ℕ → DFI) (hln2 : IsLn2 ln2) (a r : DFI) (hr : a.exp ln2 = some r)
    {l u N : ℝ} (hle : l ≤ u) (hN : N = 2 ^ a.log2Denom) (hl : l = a.lo / N) (hu : u = a.hi / N) :
    ∃ (P : ℝ) (e : ℕ) (ql qu : ℤ) (zl zu dl du : ℝ),
      N * 2 ^ 32 ≤ P ∧ (e:ℝ) ≤ 3 / 2 * max 0 u ∧ 8 * ((e:ℝ) + 1) / P ≤ 1 / 4 ∧
      l = zl + ql * (Real.log 2 + dl) ∧ u = zu + qu * (Real.log 2 - du) ∧
      (0 ≤ zl ∧ zl < Real.log 2 + dl) ∧ (0 ≤ zu ∧ zu < Real.log 2 - du) ∧ (zl ≤ 0.7 ∧ zu ≤ 0.7) ∧
      (0 ≤ dl ∧ dl ≤ 8 / P) ∧ (0 ≤ du ∧ du ≤ 8 / P) ∧
      (ql ≤ e + 1 ∧ N * 2 ^ ql / P ≤ 1 / 2 ^ 31) ∧ (qu ≤ e + 1 ∧ N * 2 ^ qu / P ≤ 1 / 2 ^ 31) ∧
      N * 2 ^ ql * Real.exp (min zl zu) - 1 - (150 + 4 * e) / 2 ^ 31 < r.lo ∧
      (r.hi : ℝ) < N * 2 ^ qu * Real.exp (max zl zu) + 1 + (150 + 4 * e) / 2 ^ 31 ∧
      (r.lo : ℝ) ≤ N * 2 ^ ql * Real.exp zu ∧ N * 2 ^ qu * (Real.exp zl - 1 / P) ≤ r.hi := by
  have hN0 : 0 < N := by rw [hN]; positivity
  have hle' : a.lo ≤ a.hi := by
    rw [hl, hu, div_le_div_iff_of_pos_right hN0] at hle
    exact_mod_cast hle
  obtain ⟨w, e, ql, qu, L, H, rl, ru, w32, he, eA, eB, ⟨a1, a2⟩, ⟨b1, b2⟩, ⟨H1, H2⟩, ⟨L1, L2⟩, ⟨q1, q2⟩, ⟨q3, q4⟩,
    ew, t1, t2, t3, t4⟩ := exp_pieces ln2 hln2 a r hle' hr
  rw [← hN] at q2 q4 t1 t2 t3 t4 he
  rw [← hu] at he
  have hP : (0:ℝ) < 2 ^ w := by positivity
  have hsp : (2:ℝ) ^ w = N * 2 ^ (w - a.log2Denom) := by rw [hN, ← pow_add]; congr 1; omega
  have hw32 : N * 2 ^ 32 ≤ 2 ^ w := by
    rw [hN, ← pow_add]; exact pow_le_pow_right₀ (by norm_num) w32
  have hP32 : (2:ℝ) ^ 32 ≤ 2 ^ w := pow_le_pow_right₀ (by norm_num) (by omega)
  have h2 := Real.log_two_lt_d9
  have a1' : (0:ℝ) ≤ rl := by exact_mod_cast a1
  have a2' : (rl:ℝ) < H := by exact_mod_cast a2
  have b1' : (0:ℝ) ≤ ru := by exact_mod_cast b1
  have b2' : (ru:ℝ) < L := by exact_mod_cast b2
  have HP : (H:ℝ) / 2 ^ w = Real.log 2 + (H / 2 ^ w - Real.log 2) := by ring
  have LP : (L:ℝ) / 2 ^ w = Real.log 2 - (Real.log 2 - L / 2 ^ w) := by ring
  have H1' : Real.log 2 ≤ H / 2 ^ w := by rw [le_div_iff₀ hP]; exact H1
  have H2' : (H:ℝ) / 2 ^ w ≤ Real.log 2 + 8 / 2 ^ w := by
    rw [div_le_iff₀ hP, add_mul, div_mul_cancel₀ _ hP.ne']; exact H2
  have L1' : (L:ℝ) / 2 ^ w ≤ Real.log 2 := by rw [div_le_iff₀ hP]; exact L1
  have L2' : Real.log 2 ≤ L / 2 ^ w + 8 / 2 ^ w := by
    rw [← add_div, le_div_iff₀ hP]; exact L2
  have h8 : (8:ℝ) / 2 ^ w ≤ 0.001 := by
    rw [div_le_iff₀ hP]; norm_num at hP32 ⊢; linarith
  have zlH : (rl:ℝ) / 2 ^ w < H / 2 ^ w := by gcongr
  have zuL : (ru:ℝ) / 2 ^ w < L / 2 ^ w := by gcongr
  have hmin : ((min rl ru : ℤ) : ℝ) / 2 ^ w = min ((rl:ℝ) / 2 ^ w) (ru / 2 ^ w) := by
    rw [Int.cast_min, min_div_div_right hP.le]
  have hmax : ((max rl ru : ℤ) : ℝ) / 2 ^ w = max ((rl:ℝ) / 2 ^ w) (ru / 2 ^ w) := by
    rw [Int.cast_max, max_div_div_right hP.le]
  rw [hmin] at t1
  rw [hmax] at t2
  have eAr : (rl:ℝ) + ql * H = a.lo * 2 ^ (w - a.log2Denom) := by exact_mod_cast eA
  have eBr : (ru:ℝ) + qu * L = a.hi * 2 ^ (w - a.log2Denom) := by exact_mod_cast eB
  have hPN : ∀ x : ℝ, x * 2 ^ (w - a.log2Denom) / 2 ^ w = x / N := by
    intro x
    rw [hsp]; field_simp
  refine ⟨2 ^ w, e, ql, qu, rl / 2 ^ w, ru / 2 ^ w, H / 2 ^ w - Real.log 2, Real.log 2 - L / 2 ^ w, hw32, he, ?_,
    ?_, ?_, ⟨by positivity, by linarith⟩, ⟨by positivity, by linarith⟩, ⟨by linarith, by linarith⟩,
    ⟨by linarith, by linarith⟩, ⟨by linarith, by linarith⟩, ⟨q1, ?_⟩, ⟨q3, ?_⟩, t1, t2, t3 ru (by simp),
    t4 rl (by simp)⟩
  · have hew : e + 32 ≤ w := by exact_mod_cast ew
    have h1 : (2:ℝ) ^ (e + 32) ≤ 2 ^ w := pow_le_pow_right₀ (by norm_num) hew
    have h2 : (e:ℝ) + 1 ≤ 2 ^ e := by
      have : e + 1 ≤ 2 ^ e := Nat.lt_pow_self (by norm_num)
      exact_mod_cast this
    rw [div_le_div_iff₀ hP (by norm_num)]
    rw [pow_add] at h1
    nlinarith
  · rw [← HP, hl, ← hPN, ← eAr]; ring
  · rw [← LP, hu, ← hPN, ← eBr]; ring
  · rw [div_le_div_iff₀ hP (by positivity)]; linarith
  · rw [div_le_div_iff₀ hP (by positivity)]; linarith

/-- a small multiple of `2^q` at the working precision is far below one unit of the result. -/
theorem scaled_small {N P c t : ℝ} {q : ℤ} (h : N * 2 ^ q / P ≤ 1 / 2 ^ 31) (hc : 0 ≤ c)
    (ht : t ≤ 2 ^ q * (c / P)) (hN : 0 < N) : N * t ≤ c / 2 ^ 31 := by
  calc N * t ≤ N * (2 ^ q * (c / P)) := by gcongr
    _ = c * (N * 2 ^ q / P) := by ring
    _ ≤ c * (1 / 2 ^ 31) := by gcongr
    _ = _ := by ring

/-- `2^z` for a remainder just below `ln 2` -/
theorem exp_rem_le {z d P : ℝ} (hz : z ≤ Real.log 2 + d) (d0 : 0 ≤ d) (d1 : d ≤ 8 / P) (hd : 8 / P ≤ 1 / 4) :
    Real.exp z ≤ 2 + 32 / P := by
  have h1 := Real.exp_le_exp.mpr hz
  rw [Real.exp_add, Real.exp_log (by norm_num)] at h1
  have g := exp_sub_le d 0
  rw [Real.exp_zero, sub_zero] at g
  have hp := Real.exp_pos d
  have g1 : Real.exp d ≤ 4 / 3 := by nlinarith
  have g2 : Real.exp d - 1 ≤ 4 / 3 * d := g.trans (by gcongr)
  have e : 32 / P = 4 * (8 / P) := by ring
  rw [e]; linarith

end DFI
end Algebraics
