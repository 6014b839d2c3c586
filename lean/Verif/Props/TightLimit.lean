import Verif.Props.Tight
import Verif.Props.AlgNum

/-!
# C72: results get arbitrarily narrow

At every point except the numbers `3 * 2^j` (logarithm) and the multiples of `ln 2` (exponential), narrow
intervals of high precision have narrow results.
-/

namespace Algebraics
open DFI

/-- every positive number lies between two neighbours of the form `3 * 2^j` -/
theorem exists_three_pow {y : ℝ} (hy : 0 < y) : ∃ m : ℤ, 3 * 2 ^ m ≤ y ∧ y < 3 * 2 ^ (m + 1) := by
  obtain ⟨m, h1, h2⟩ := exists_mem_Ico_zpow (show 0 < y / 3 by positivity) (show (1:ℝ) < 2 by norm_num)
  exact ⟨m, by linarith, by linarith⟩

/-- C72, logarithm: around every positive number that is not `3 * 2^j`, narrow intervals of high precision have
narrow logarithms, whatever the state of the cache of `ln 2`. -/
theorem C72_log_converges_partial (y : ℝ) (hy : 0 < y) (h3 : ∀ j : ℤ, y ≠ 3 * 2 ^ j) (δ : ℝ) (hδ : 0 < δ) :
    ∃ η > 0, ∀ (ln2 : ℕ → DFI), IsLn2 ln2 → ∀ a r : DFI, a.Contains y → (a.width : ℝ) < η →
      1 / 2 ^ a.log2Denom < η → a.log ln2 = some r →
      r.log2Denom = a.log2Denom ∧ r.Contains (Real.log y) ∧ (r.width : ℝ) < δ := by
  obtain ⟨m, m1, m2⟩ := exists_three_pow hy
  have m1' : 3 * 2 ^ m < y := lt_of_le_of_ne m1 (h3 m).symm
  -- the logarithm is continuous
  have hcont : ContinuousAt Real.log y := Real.continuousAt_log hy.ne'
  obtain ⟨η1, hη1, c1⟩ := Metric.continuousAt_iff.mp hcont (min (δ / 4) 1) (by positivity)
  have hlog2 := Real.log_two_gt_d9
  set C : ℝ := 1 + (8 * (2 * (|Real.log y| + 1)) + 16) / 2 ^ 16 with hC
  have hC0 : 0 < C := by positivity
  refine ⟨min (min η1 (y - 3 * 2 ^ m)) (min (min (3 * 2 ^ (m + 1) - y) (δ / (4 * C))) 1), ?_, ?_⟩
  · refine lt_min (lt_min hη1 (by linarith)) (lt_min (lt_min (by linarith) (by positivity)) one_pos)
  intro ln2 hln2 a r hc hw hn hr
  simp only [lt_min_iff] at hw hn
  obtain ⟨⟨w1, w2⟩, ⟨w3, -⟩, -⟩ := hw
  obtain ⟨-, ⟨-, n4⟩, -⟩ := hn
  obtain ⟨l, hl⟩ : ∃ l : ℝ, l = a.lo / 2 ^ a.log2Denom := ⟨_, rfl⟩
  obtain ⟨u, hu⟩ : ∃ u : ℝ, u = a.hi / 2 ^ a.log2Denom := ⟨_, rfl⟩
  have hwd : (a.width : ℝ) = u - l := by
    rw [DFI.width_real, hl, hu]
    unfold DFI.lowerBound DFI.upperBound shl
    push_cast; ring
  rw [hwd] at w1 w2 w3
  have hcl : l ≤ y := by rw [hl]; exact hc.1
  have hcu : y ≤ u := by rw [hu]; exact hc.2
  have hs : ∀ j : ℤ, ¬ (l < 3 * 2 ^ j ∧ 3 * 2 ^ j ≤ u) := by
    rintro j ⟨j1, j2⟩
    have k1 : (2:ℝ) ^ m < 2 ^ j := by linarith
    have k2 : (2:ℝ) ^ j < 2 ^ (m + 1) := by linarith
    rw [zpow_lt_zpow_iff_right₀ (by norm_num)] at k1 k2
    omega
  have hlpos : 0 < l := by
    have : (0:ℝ) < 3 * 2 ^ m := by positivity
    linarith
  have ho : a.Ordered := by
    have : l ≤ u := hcl.trans hcu
    rw [hl, hu, div_le_div_iff_of_pos_right (by positivity)] at this
    unfold Ordered; exact_mod_cast this
  have hlo : 0 < a.lo := by
    rw [hl, div_pos_iff_of_pos_right (by positivity)] at hlpos
    exact_mod_cast hlpos
  obtain ⟨r', e1, e2, e3⟩ := C07_log ln2 hln2 a ho hlo
  rw [hr] at e1
  cases e1
  refine ⟨e2, e3 y hc, ?_⟩
  obtain ⟨t1, t2⟩ := C72_log_tight_partial ln2 hln2 a r hr l u hl hu hs
  have d1 : |Real.log l - Real.log y| < min (δ / 4) 1 := by
    have := c1 (x := l) (by rw [Real.dist_eq, abs_lt]; constructor <;> linarith)
    rwa [Real.dist_eq] at this
  have d2 : |Real.log u - Real.log y| < min (δ / 4) 1 := by
    have := c1 (x := u) (by rw [Real.dist_eq, abs_lt]; constructor <;> linarith)
    rwa [Real.dist_eq] at this
  rw [lt_min_iff] at d1 d2
  have hb : ∀ z : ℝ, |Real.log z - Real.log y| < 1 → 1 + (8 * |Real.logb 2 z| + 16) / 2 ^ 16 ≤ C := by
    intro z hz
    have h1 : |Real.log z| ≤ |Real.log y| + 1 := by
      have := abs_sub_abs_le_abs_sub (Real.log z) (Real.log y)
      linarith
    have h2 : |Real.logb 2 z| ≤ 2 * (|Real.log y| + 1) := by
      unfold Real.logb
      rw [abs_div, abs_of_pos (by linarith : 0 < Real.log 2), div_le_iff₀ (by linarith)]
      have : 0 ≤ |Real.log y| + 1 := by positivity
      nlinarith
    rw [hC]
    have : (8 * |Real.logb 2 z| + 16) / 2 ^ 16 ≤ (8 * (2 * (|Real.log y| + 1)) + 16) / 2 ^ 16 :=
      div_le_div_of_nonneg_right (by linarith) (by positivity)
    linarith
  have b1 := hb l d1.2
  have b2 := hb u d2.2
  have hN : (0:ℝ) < 2 ^ a.log2Denom := by positivity
  have hCN : C < δ / 4 * 2 ^ a.log2Denom := by
    rw [div_lt_div_iff₀ hN (by positivity)] at n4
    linarith
  have g1 := (abs_lt.mp d1.1)
  have g2 := (abs_lt.mp d2.1)
  have hrw : (r.width : ℝ) = (r.hi - r.lo) / 2 ^ a.log2Denom := by
    rw [DFI.width_real]
    unfold DFI.lowerBound DFI.upperBound shl
    rw [e2]
    push_cast; ring
  rw [hrw, div_lt_iff₀ hN]
  have hlu : (Real.log u - Real.log l) * 2 ^ a.log2Denom ≤ δ / 2 * 2 ^ a.log2Denom :=
    mul_le_mul_of_nonneg_right (by linarith) hN.le
  linarith

/-- C72, exponential: around every number that is not a multiple of `ln 2`, narrow intervals of high precision
have narrow exponentials, whatever the state of the cache of `ln 2`. -/
theorem C72_exp_converges_partial (y : ℝ) (h2 : ∀ j : ℤ, y ≠ j * Real.log 2) (δ : ℝ) (hδ : 0 < δ) :
    ∃ η > 0, ∀ (ln2 : ℕ → DFI), IsLn2 ln2 → ∀ a r : DFI, a.Contains y → (a.width : ℝ) < η →
      1 / 2 ^ a.log2Denom < η → a.exp ln2 = some r →
      r.log2Denom = a.log2Denom ∧ (r.width : ℝ) < δ := by
  have hlog2 := Real.log_two_gt_d9
  have hl0 : 0 < Real.log 2 := by linarith
  -- the distance from the multiples of `ln 2`
  set m : ℤ := ⌊y / Real.log 2⌋ with hm
  have m1 : m * Real.log 2 < y := by
    have := Int.floor_le (y / Real.log 2)
    rw [← hm, le_div_iff₀ hl0] at this
    exact lt_of_le_of_ne this (h2 m).symm
  have m2 : y < (m + 1) * Real.log 2 := by
    have := Int.lt_floor_add_one (y / Real.log 2)
    rwa [← hm, div_lt_iff₀ hl0] at this
  set g : ℝ := min (y - m * Real.log 2) ((m + 1) * Real.log 2 - y) with hg
  have hg0 : 0 < g := lt_min (by linarith) (by linarith)
  have hgj : ∀ j : ℤ, g ≤ |j * Real.log 2 - y| := by
    intro j
    rcases le_or_gt j m with h | h
    · have : (j:ℝ) ≤ m := by exact_mod_cast h
      have : (j:ℝ) * Real.log 2 ≤ m * Real.log 2 := by gcongr
      refine (min_le_left _ _).trans ?_
      rw [abs_sub_comm]
      exact le_trans (by linarith) (le_abs_self _)
    · have : (m:ℝ) + 1 ≤ j := by exact_mod_cast h
      have : ((m:ℝ) + 1) * Real.log 2 ≤ j * Real.log 2 := by gcongr
      exact (min_le_right _ _).trans (le_trans (by linarith) (le_abs_self _))
  have hcont : ContinuousAt Real.exp y := Real.continuous_exp.continuousAt
  obtain ⟨η1, hη1, c1⟩ := Metric.continuousAt_iff.mp hcont (δ / 4) (by positivity)
  set C : ℝ := 1 + (256 + 80 * (|y| + 1)) / 2 ^ 31 with hC
  have hC0 : 0 < C := by positivity
  refine ⟨min (min η1 (g / 2)) (min (min (g / (4 * (|y| + 1))) (δ / (4 * C))) (1 / 4)), ?_, ?_⟩
  · exact lt_min (lt_min hη1 (by positivity)) (lt_min (lt_min (by positivity) (by positivity)) (by norm_num))
  intro ln2 hln2 a r hc hw hn hr
  simp only [lt_min_iff] at hw hn
  obtain ⟨⟨w1, w2⟩, -, w5⟩ := hw
  obtain ⟨-, ⟨n3, n4⟩, -⟩ := hn
  obtain ⟨l, hl⟩ : ∃ l : ℝ, l = a.lo / 2 ^ a.log2Denom := ⟨_, rfl⟩
  obtain ⟨u, hu⟩ : ∃ u : ℝ, u = a.hi / 2 ^ a.log2Denom := ⟨_, rfl⟩
  have hwd : (a.width : ℝ) = u - l := by
    rw [DFI.width_real, hl, hu]
    unfold DFI.lowerBound DFI.upperBound shl
    push_cast; ring
  rw [hwd] at w1 w2 w5
  have hcl : l ≤ y := by rw [hl]; exact hc.1
  have hcu : y ≤ u := by rw [hu]; exact hc.2
  have hN : (0:ℝ) < 2 ^ a.log2Denom := by positivity
  have hs : ∀ j : ℤ, ¬ (l - |(j:ℝ)| / 2 ^ (a.log2Denom + 29) < j * Real.log 2 ∧
      j * Real.log 2 ≤ u + |(j:ℝ)| / 2 ^ (a.log2Denom + 29)) := by
    rintro j ⟨j1, j2⟩
    have ej : |(j:ℝ)| / 2 ^ (a.log2Denom + 29) = |(j:ℝ)| / 2 ^ 29 * (1 / 2 ^ a.log2Denom) := by
      rw [pow_add]; field_simp
    rw [ej] at j1 j2
    have hjy : |j * Real.log 2 - y| ≤ (u - l) + |(j:ℝ)| / 2 ^ 29 * (1 / 2 ^ a.log2Denom) := by
      rw [abs_le]; constructor <;> linarith
    have hj0 : 0 ≤ |(j:ℝ)| := abs_nonneg _
    have hN1 : 1 / (2:ℝ) ^ a.log2Denom ≤ 1 := by
      rw [div_le_one hN]; exact one_le_pow₀ (by norm_num)
    have hq : |(j:ℝ)| / 2 ^ 29 * (1 / 2 ^ a.log2Denom) ≤ |(j:ℝ)| / 2 ^ 29 :=
      mul_le_of_le_one_right (by positivity) hN1
    have hjs : |(j:ℝ)| * Real.log 2 ≤ |y| + |j * Real.log 2 - y| := by
      have := abs_add_le y (j * Real.log 2 - y)
      rw [add_sub_cancel, abs_mul, abs_of_pos hl0] at this
      exact this
    have hjb : |(j:ℝ)| ≤ 2 * (|y| + 1) := by
      have h9 : |(j:ℝ)| / 2 ^ 29 ≤ |(j:ℝ)| * 0.1 := by
        rw [div_le_iff₀ (by positivity)]; nlinarith
      nlinarith
    have hsm : |(j:ℝ)| / 2 ^ 29 * (1 / 2 ^ a.log2Denom) < g / 2 := by
      have h9 : |(j:ℝ)| / 2 ^ 29 ≤ |(j:ℝ)| := div_le_self hj0 (by norm_num)
      have h10 : |(j:ℝ)| / 2 ^ 29 * (1 / 2 ^ a.log2Denom) ≤ 2 * (|y| + 1) * (1 / 2 ^ a.log2Denom) := by
        gcongr; linarith
      have h11 : 2 * (|y| + 1) * (1 / 2 ^ a.log2Denom) < 2 * (|y| + 1) * (g / (4 * (|y| + 1))) := by gcongr
      have h12 : 2 * (|y| + 1) * (g / (4 * (|y| + 1))) = g / 2 := by field_simp; ring
      linarith
    have := hgj j
    linarith
  obtain ⟨t1, t2⟩ := C72_exp_tight_partial ln2 hln2 a r hr l u hl hu (hcl.trans hcu) hs
  have e2 : r.log2Denom = a.log2Denom := (C08_exp_partial ln2 hln2 a r hr).1
  refine ⟨e2, ?_⟩
  have d1 : |Real.exp l - Real.exp y| < δ / 4 := by
    have := c1 (x := l) (by rw [Real.dist_eq, abs_lt]; constructor <;> linarith)
    rwa [Real.dist_eq] at this
  have d2 : |Real.exp u - Real.exp y| < δ / 4 := by
    have := c1 (x := u) (by rw [Real.dist_eq, abs_lt]; constructor <;> linarith)
    rwa [Real.dist_eq] at this
  have g1 := (abs_lt.mp d1)
  have g2 := (abs_lt.mp d2)
  have hsl : 1 + expSlack u ≤ C := by
    unfold expSlack
    rw [hC]
    have h0 : max 0 u ≤ |y| + 1 := by
      apply max_le (by positivity)
      have := le_abs_self y
      linarith
    have : (256 + 80 * max 0 u) / 2 ^ 31 ≤ (256 + 80 * (|y| + 1)) / 2 ^ 31 :=
      div_le_div_of_nonneg_right (by linarith) (by positivity)
    linarith
  have hCN : C < δ / 4 * 2 ^ a.log2Denom := by
    rw [div_lt_div_iff₀ hN (by positivity)] at n4
    linarith
  have hrw : (r.width : ℝ) = (r.hi - r.lo) / 2 ^ a.log2Denom := by
    rw [DFI.width_real]
    unfold DFI.lowerBound DFI.upperBound shl
    rw [e2]
    push_cast; ring
  rw [hrw, div_lt_iff₀ hN]
  have hlu : (Real.exp u - Real.exp l) * 2 ^ a.log2Denom ≤ δ / 2 * 2 ^ a.log2Denom :=
    mul_le_mul_of_nonneg_right (by linarith) hN.le
  linarith

/-- the conditions hold at `2` and at `1` -/
example : (∀ j : ℤ, (2:ℝ) ≠ 3 * 2 ^ j) ∧ ∀ j : ℤ, (1:ℝ) ≠ j * Real.log 2 := by
  constructor
  · intro j h
    rcases le_or_gt j (-1) with h1 | h1
    · have : (2:ℝ) ^ j ≤ 2 ^ (-1:ℤ) := zpow_le_zpow_right₀ (by norm_num) h1
      rw [zpow_neg_one] at this
      linarith
    · have : (2:ℝ) ^ (0:ℤ) ≤ 2 ^ j := zpow_le_zpow_right₀ (by norm_num) (by omega)
      rw [zpow_zero] at this
      linarith
  · intro j h
    have g := Real.log_two_gt_d9
    have g' := Real.log_two_lt_d9
    rcases le_or_gt j 1 with h1 | h1
    · have : (j:ℝ) ≤ 1 := by exact_mod_cast h1
      nlinarith
    · have : (2:ℝ) ≤ j := by exact_mod_cast h1
      nlinarith

end Algebraics
