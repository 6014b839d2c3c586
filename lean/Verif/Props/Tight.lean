import Verif.Lemmas.LogTight
import Verif.Lemmas.ExpWidth
import Verif.Props.IntervalFn
import Mathlib.Analysis.SpecialFunctions.Log.Base

/-!
# C72: how narrow the results of `log` and `exp` are
-/

namespace Algebraics
open DFI

/-! ## Logarithm -/

/-- the exponent used in the scaling is close to the base-2 logarithm -/
theorem abs_shift_le {v s : ℝ} {k : ℤ} (hv : v = s * 2 ^ k) (h1 : 3 / 2 ≤ s) (h2 : s < 3) :
    |(k:ℝ)| ≤ |Real.logb 2 v| + 7 / 4 := by
  have hs : 0 < s := by linarith
  have e : Real.logb 2 v = Real.logb 2 s + k := by
    have hk : Real.logb 2 ((2:ℝ) ^ k) = k := by
      rw [Real.logb, Real.log_zpow, mul_div_assoc, div_self (Real.log_pos (by norm_num)).ne', mul_one]
    rw [hv, Real.logb_mul hs.ne' (by positivity), hk]
  have l1 : 0 ≤ Real.logb 2 s := Real.logb_nonneg (by norm_num) (by linarith)
  have l2 : Real.logb 2 s ≤ 7 / 4 := by
    rw [Real.logb_le_iff_le_rpow (by norm_num) hs]
    have : (3:ℝ) ≤ 2 ^ (7 / 4 : ℝ) := by
      have h3 : ((2:ℝ) ^ (7 / 4 : ℝ)) ^ 4 = 128 := by
        rw [← Real.rpow_natCast, ← Real.rpow_mul (by norm_num)]; norm_num
      by_contra hc
      push Not at hc
      have : ((2:ℝ) ^ (7 / 4 : ℝ)) ^ 4 < 3 ^ 4 := by gcongr
      norm_num at this h3
      linarith
    linarith
  have e2 : (k:ℝ) = Real.logb 2 v - Real.logb 2 s := by rw [e]; ring
  rw [e2]
  refine (abs_sub _ _).trans ?_
  rw [abs_of_nonneg l1]
  linarith

/-- C72, logarithm, in part: when no number `3 * 2^j` lies above the lower end and not above the upper end (for
example for every single point), each end of the result is within one unit in the last place of the logarithm of
the end, plus `(8 |log2| + 16) / 2^16` of a unit. Missing: the other intervals (false, `C72_log_wide_false`). -/
theorem C72_log_tight_partial (ln2 : ℕ → DFI) (hln2 : IsLn2 ln2) (a r : DFI) (hr : a.log ln2 = some r)
    (l u : ℝ) (hl : l = a.lo / 2 ^ a.log2Denom) (hu : u = a.hi / 2 ^ a.log2Denom)
    (hs : ∀ j : ℤ, ¬ (l < 3 * 2 ^ j ∧ 3 * 2 ^ j ≤ u)) :
    Real.log l * 2 ^ a.log2Denom - 1 - (8 * |Real.logb 2 l| + 16) / 2 ^ 16 < r.lo ∧
    (r.hi : ℝ) < Real.log u * 2 ^ a.log2Denom + 1 + (8 * |Real.logb 2 u| + 16) / 2 ^ 16 := by
  obtain ⟨kl, kh, sl, sh, e1, e2, a1, a2, b1, b2, hk, -, t1, t2⟩ := log_pieces ln2 hln2 a r hr
  rw [← hl] at e1
  rw [← hu] at e2
  have hkk : kl = kh := by
    by_contra hne
    apply hs kl
    have hp : (0:ℝ) < 2 ^ kl := by positivity
    constructor
    · rw [e1]; gcongr
    · rw [e2]
      have : (2:ℝ) ^ (kl + 1) ≤ 2 ^ kh := zpow_le_zpow_right₀ (by norm_num) (by omega)
      rw [zpow_add_one₀ (by norm_num)] at this
      nlinarith
  subst hkk
  have hp : (0:ℝ) < 2 ^ kl := by positivity
  have ho : l ≤ u := by
    have hh : a.lo ≤ a.hi := by
      unfold DFI.log at hr
      by_contra hc
      push Not at hc
      split at hr <;> simp at hr
      all_goals simp [hc] at hr
    rw [hl, hu]
    have : (a.lo:ℝ) ≤ a.hi := by exact_mod_cast hh
    gcongr
  have hss : sl ≤ sh := by
    rw [e1, e2] at ho
    exact le_of_mul_le_mul_right ho hp
  have hlog : Real.log sl ≤ Real.log sh := Real.log_le_log (by linarith) hss
  rw [min_eq_left hlog] at t1
  rw [max_eq_right hlog] at t2
  have el : Real.log l = kl * Real.log 2 + Real.log sl := by
    rw [e1, Real.log_mul (by linarith) (by positivity), Real.log_zpow]; ring
  have eu : Real.log u = kl * Real.log 2 + Real.log sh := by
    rw [e2, Real.log_mul (by linarith) (by positivity), Real.log_zpow]; ring
  rw [← el] at t1
  rw [← eu] at t2
  have q1 := abs_shift_le e1 a1 a2
  have q2 := abs_shift_le e2 b1 b2
  constructor
  · refine lt_of_le_of_lt ?_ t1
    have : (8 * |(kl:ℝ)| + 2) / 2 ^ 16 ≤ (8 * |Real.logb 2 l| + 16) / 2 ^ 16 :=
      div_le_div_of_nonneg_right (by linarith) (by positivity)
    linarith
  · refine lt_of_lt_of_le t2 ?_
    have : (8 * |(kl:ℝ)| + 2) / 2 ^ 16 ≤ (8 * |Real.logb 2 u| + 16) / 2 ^ 16 :=
      div_le_div_of_nonneg_right (by linarith) (by positivity)
    linarith

/-- C72, logarithm: for every interval, the result reaches at most `ln 2` (and a unit, as above) further than
it should on either side. -/
theorem C72_log_within (ln2 : ℕ → DFI) (hln2 : IsLn2 ln2) (a r : DFI) (hr : a.log ln2 = some r)
    (l u : ℝ) (hl : l = a.lo / 2 ^ a.log2Denom) (hu : u = a.hi / 2 ^ a.log2Denom) :
    (Real.log l - Real.log 2) * 2 ^ a.log2Denom - 1 - (8 * |Real.logb 2 l| + 16) / 2 ^ 16 < r.lo ∧
    (r.hi : ℝ) < (Real.log u + Real.log 2) * 2 ^ a.log2Denom + 1 + (8 * |Real.logb 2 u| + 16) / 2 ^ 16 := by
  obtain ⟨kl, kh, sl, sh, e1, e2, a1, a2, b1, b2, hk, -, t1, t2⟩ := log_pieces ln2 hln2 a r hr
  rw [← hl] at e1
  rw [← hu] at e2
  have el : Real.log l = kl * Real.log 2 + Real.log sl := by
    rw [e1, Real.log_mul (by linarith) (by positivity), Real.log_zpow]; ring
  have eu : Real.log u = kh * Real.log 2 + Real.log sh := by
    rw [e2, Real.log_mul (by linarith) (by positivity), Real.log_zpow]; ring
  have q1 := abs_shift_le e1 a1 a2
  have q2 := abs_shift_le e2 b1 b2
  have key : ∀ s t : ℝ, 3 / 2 ≤ s → s < 3 → 3 / 2 ≤ t → t < 3 → Real.log s ≤ Real.log t + Real.log 2 := by
    intro s t s1 s2 t1 t2
    rw [← Real.log_mul (by linarith) (by norm_num)]
    exact Real.log_le_log (by linarith) (by linarith)
  have g2 : Real.log 2 > 0 := Real.log_pos (by norm_num)
  have m1 : Real.log sl - Real.log 2 ≤ min (Real.log sl) (Real.log sh) := by
    have := key sl sh a1 a2 b1 b2
    rw [le_min_iff]; constructor <;> linarith
  have m2 : max (Real.log sl) (Real.log sh) ≤ Real.log sh + Real.log 2 := by
    have := key sl sh a1 a2 b1 b2
    rw [max_le_iff]; constructor <;> linarith
  have hP : (0:ℝ) < 2 ^ a.log2Denom := by positivity
  constructor
  · refine lt_of_le_of_lt ?_ t1
    have h1 : (8 * |(kl:ℝ)| + 2) / 2 ^ 16 ≤ (8 * |Real.logb 2 l| + 16) / 2 ^ 16 :=
      div_le_div_of_nonneg_right (by linarith) (by positivity)
    have h2 : (Real.log l - Real.log 2) * 2 ^ a.log2Denom ≤
        (kl * Real.log 2 + min (Real.log sl) (Real.log sh)) * 2 ^ a.log2Denom := by
      apply mul_le_mul_of_nonneg_right _ hP.le
      rw [el]; linarith
    linarith
  · refine lt_of_lt_of_le t2 ?_
    have h1 : (8 * |(kh:ℝ)| + 2) / 2 ^ 16 ≤ (8 * |Real.logb 2 u| + 16) / 2 ^ 16 :=
      div_le_div_of_nonneg_right (by linarith) (by positivity)
    have h2 : (kh * Real.log 2 + max (Real.log sl) (Real.log sh)) * 2 ^ a.log2Denom ≤
        (Real.log u + Real.log 2) * 2 ^ a.log2Denom := by
      apply mul_le_mul_of_nonneg_right _ hP.le
      rw [eu]; linarith
    linarith

/-- C72 is false of the logarithm when a number `3 * 2^j` lies above the lower end and not above the upper end,
however close together the ends are and whatever the precision: the result then holds all numbers from
`log u - ln 2` to `log l + ln 2`. -/
theorem C72_log_wide_false (ln2 : ℕ → DFI) (hln2 : IsLn2 ln2) (a r : DFI) (hr : a.log ln2 = some r)
    (l u : ℝ) (hl : l = a.lo / 2 ^ a.log2Denom) (hu : u = a.hi / 2 ^ a.log2Denom)
    (j : ℤ) (hj : l < 3 * 2 ^ j ∧ 3 * 2 ^ j ≤ u) :
    r.Contains (Real.log u - Real.log 2) ∧ r.Contains (Real.log l + Real.log 2) := by
  obtain ⟨kl, kh, sl, sh, e1, e2, a1, a2, b1, b2, hk, hc, -⟩ := log_pieces ln2 hln2 a r hr
  rw [← hl] at e1
  rw [← hu] at e2
  have el : Real.log l = kl * Real.log 2 + Real.log sl := by
    rw [e1, Real.log_mul (by linarith) (by positivity), Real.log_zpow]; ring
  have eu : Real.log u = kh * Real.log 2 + Real.log sh := by
    rw [e2, Real.log_mul (by linarith) (by positivity), Real.log_zpow]; ring
  have hkk : kl + 1 ≤ kh := by
    have p1 : (0:ℝ) < 2 ^ kl := by positivity
    have p2 : (0:ℝ) < 2 ^ kh := by positivity
    have hj0 : (0:ℝ) < 2 ^ j := by positivity
    have h1 : kl ≤ j := by
      by_contra hlt
      have : (2:ℝ) ^ (j + 1) ≤ 2 ^ kl := zpow_le_zpow_right₀ (by norm_num) (by omega)
      rw [zpow_add_one₀ (by norm_num)] at this
      have := hj.1
      rw [e1] at this
      nlinarith
    have h2 : j < kh := by
      by_contra hlt
      have : (2:ℝ) ^ kh ≤ 2 ^ j := zpow_le_zpow_right₀ (by norm_num) (by omega)
      have := hj.2
      rw [e2] at this
      nlinarith
    omega
  have hkr : (kl:ℝ) + 1 ≤ kh := by exact_mod_cast hkk
  have g2 : Real.log 2 > 0 := Real.log_pos (by norm_num)
  have c1 := hc sl (by simp) kl (by simp)
  have c2 := hc sh (by simp) kl (by simp)
  have c3 := hc sl (by simp) kh (by simp)
  have c4 := hc sh (by simp) kh (by simp)
  have hm : ((kl:ℝ) + 1) * Real.log 2 ≤ kh * Real.log 2 := by gcongr
  constructor
  · exact ⟨c2.1.trans (by rw [eu]; linarith), le_trans (by linarith) (c4.2.trans' (le_of_eq eu))⟩
  · exact ⟨c1.1.trans (by rw [el]; linarith), le_trans (by rw [el]; linarith) c3.2⟩

/-- `log [11/4, 13/4] = [1/4, 7/4]`, although the logarithms of the ends are 1.01 and 1.18 -/
example : (⟨11, 13, 2⟩ : DFI).log ln2Direct = some ⟨1, 7, 2⟩ ∧
    ((11:ℝ) / 2 ^ 2 < 3 * 2 ^ (0:ℤ) ∧ 3 * 2 ^ (0:ℤ) ≤ (13:ℝ) / 2 ^ 2) := by
  refine ⟨by decide +kernel, by norm_num⟩

/-- and there are intervals that the tight bound covers -/
example : (⟨13, 14, 2⟩ : DFI).log ln2Direct = some ⟨4, 6, 2⟩ ∧
    ∀ j : ℤ, ¬ ((13:ℝ) / 2 ^ 2 < 3 * 2 ^ j ∧ 3 * 2 ^ j ≤ (14:ℝ) / 2 ^ 2) := by
  refine ⟨by decide +kernel, ?_⟩
  intro j hj
  rcases le_or_gt j 0 with h | h
  · have : (2:ℝ) ^ j ≤ 2 ^ (0:ℤ) := zpow_le_zpow_right₀ (by norm_num) h
    rw [zpow_zero] at this
    norm_num at hj
    linarith
  · have : (2:ℝ) ^ (1:ℤ) ≤ 2 ^ j := zpow_le_zpow_right₀ (by norm_num) (by omega)
    rw [zpow_one] at this
    norm_num at hj
    linarith

/-! ## Exponential -/

/-- how far, in units in the last place of the result, the ends of an exponential may be off beyond the rounding
to one unit, for an interval with upper end `u` -/
noncomputable def expSlack (u : ℝ) : ℝ := (256 + 80 * max 0 u) / 2 ^ 31

/-- C72, exponential, in part: when no multiple `j ln 2` lies above the lower end and not above the upper end, nor
closer to the interval than `|j| / 2^(n + 29)` (`n` digits after the point), each end of the result is within
one unit in the last place of the exponential of the end, plus `(256 + 80 hi) / 2^31` of a unit. Missing: the other
intervals (false, `C72_exp_wide_false`). -/
theorem C72_exp_tight_partial (ln2 : ℕ → DFI) (hln2 : IsLn2 ln2) (a r : DFI) (hr : a.exp ln2 = some r)
    (l u : ℝ) (hl : l = a.lo / 2 ^ a.log2Denom) (hu : u = a.hi / 2 ^ a.log2Denom) (hle : l ≤ u)
    (hs : ∀ j : ℤ, ¬ (l - |(j:ℝ)| / 2 ^ (a.log2Denom + 29) < j * Real.log 2 ∧
      j * Real.log 2 ≤ u + |(j:ℝ)| / 2 ^ (a.log2Denom + 29))) :
    Real.exp l * 2 ^ a.log2Denom - 1 - expSlack u < r.lo ∧
    (r.hi : ℝ) < Real.exp u * 2 ^ a.log2Denom + 1 + expSlack u := by
  obtain ⟨P, e, ql, qu, zl, zu, dl, du, P32, he, e4, el, eu, ⟨zl0, zl1⟩, ⟨zu0, zu1⟩, ⟨zl7, zu7⟩, ⟨dl0, dl1⟩, ⟨du0, du1⟩,
    ⟨ql1, ql2⟩, ⟨qu1, qu2⟩, t1, t2, -, -⟩ := exp_pieces_real ln2 hln2 a r hr hle rfl hl hu
  rw [pow_add] at hs
  set N : ℝ := 2 ^ a.log2Denom with hN
  have hN0 : 0 < N := by positivity
  have hP : 0 < P := lt_of_lt_of_le (by positivity) P32
  have h8 : 8 / P ≤ 1 / (N * 2 ^ 29) := by
    rw [div_le_div_iff₀ hP (by positivity)]; linarith
  have hj8 : ∀ j : ℤ, |(j:ℝ)| * (8 / P) ≤ |(j:ℝ)| / (N * 2 ^ 29) := by
    intro j
    calc |(j:ℝ)| * (8 / P) ≤ |(j:ℝ)| * (1 / (N * 2 ^ 29)) := by gcongr
      _ = _ := by ring
  have hjd : ∀ (j : ℤ) (d : ℝ), 0 ≤ d → d ≤ 8 / P → |(j:ℝ) * d| ≤ |(j:ℝ)| / (N * 2 ^ 29) := by
    intro j d h0 h1
    rw [abs_mul, abs_of_nonneg h0]
    exact (mul_le_mul_of_nonneg_left h1 (abs_nonneg _)).trans (hj8 j)
  have hq : ql = qu := by
    rcases lt_trichotomy ql qu with h | h | h
    · exfalso
      apply hs qu
      have h' : (ql:ℝ) + 1 ≤ qu := by exact_mod_cast h
      have k1 := abs_le.mp (hjd qu dl dl0 dl1)
      have k2 := abs_le.mp (hjd qu du du0 du1)
      constructor
      · have : l < (ql + 1) * (Real.log 2 + dl) := by rw [el]; linarith
        have : ((ql:ℝ) + 1) * (Real.log 2 + dl) ≤ qu * (Real.log 2 + dl) := by gcongr
        linarith
      · rw [eu]; linarith
    · exact h
    · exfalso
      apply hs ql
      have h' : (qu:ℝ) + 1 ≤ ql := by exact_mod_cast h
      have k1 := abs_le.mp (hjd ql dl dl0 dl1)
      have k2 := abs_le.mp (hjd ql du du0 du1)
      constructor
      · have : u < (qu + 1) * (Real.log 2 - du) := by rw [eu]; linarith
        have : ((qu:ℝ) + 1) * (Real.log 2 - du) ≤ ql * (Real.log 2 - du) := by gcongr; linarith
        linarith
      · linarith
  subst hq
  have s0 : (0:ℝ) ≤ e := by positivity
  have low := scaled_small ql2 (c := 24 * (e + 1)) (t := Real.exp l - 2 ^ ql * Real.exp zl) (by positivity) (by
    have := exp_low_gap zl7 dl0 dl1 hP ql1 e4; rw [← el] at this; exact this) hN0
  have high := scaled_small ql2 (c := 24 * (e + 1)) (t := 2 ^ ql * Real.exp zu - Real.exp u) (by positivity) (by
    have := exp_high_gap zu7 du0 du1 hP ql1; rw [← eu] at this; exact this) hN0
  have hNP : N * (18 / P) ≤ 9 / 2 ^ 31 := by
    rw [← mul_div_assoc, div_le_div_iff₀ hP (by positivity)]; linarith
  have cross : ∀ x y : ℝ, x - y ≤ 16 * -(ql:ℝ) / P → ql < 0 → x ≤ 0.7 →
      N * (2 ^ ql * Real.exp x) ≤ N * (2 ^ ql * Real.exp y) + 9 / 2 ^ 31 := by
    intro x y h1 h2 h3
    have := mul_le_mul_of_nonneg_left (exp_cross_gap h3 hP h1 h2) hN0.le
    linarith
  have hzz : zl - zu ≤ -(ql:ℝ) * (dl + du) := by rw [el, eu] at hle; linarith
  have order : zl ≤ zu ∨ (ql < 0 ∧ zl - zu ≤ 16 * -(ql:ℝ) / P) := by
    rcases le_or_gt 0 ql with h | h
    · left
      have : (0:ℝ) ≤ ql := by exact_mod_cast h
      have : 0 ≤ (ql:ℝ) * (dl + du) := by positivity
      linarith
    · right
      have h' : (ql:ℝ) < 0 := by exact_mod_cast h
      refine ⟨h, hzz.trans ?_⟩
      calc -(ql:ℝ) * (dl + du) ≤ -(ql:ℝ) * (8 / P + 8 / P) :=
            mul_le_mul_of_nonneg_left (by linarith) (by linarith)
        _ = _ := by ring
  have lo' : N * (2 ^ ql * Real.exp zl) ≤ N * (2 ^ ql * Real.exp (min zl zu)) + 9 / 2 ^ 31 := by
    rcases le_total zl zu with h | h
    · rw [min_eq_left h]; linarith
    · rw [min_eq_right h]
      rcases order with h' | h'
      · rw [le_antisymm h h']; linarith
      · exact cross _ _ h'.2 h'.1 zl7
  have hi' : N * (2 ^ ql * Real.exp (max zl zu)) ≤ N * (2 ^ ql * Real.exp zu) + 9 / 2 ^ 31 := by
    rcases le_total zl zu with h | h
    · rw [max_eq_right h]; linarith
    · rw [max_eq_left h]
      rcases order with h' | h'
      · rw [le_antisymm h h']; linarith
      · exact cross _ _ h'.2 h'.1 zl7
  unfold expSlack
  have tot : (150 + 4 * (e:ℝ)) / 2 ^ 31 + 24 * (e + 1) / 2 ^ 31 + 9 / 2 ^ 31 ≤ (256 + 80 * max 0 u) / 2 ^ 31 := by
    rw [← add_div, ← add_div]
    exact div_le_div_of_nonneg_right (by linarith) (by positivity)
  constructor <;> linarith

/-- C72, exponential: for every interval, the result reaches at most a factor 2 (and a unit, as above) further
than it should on either side. -/
theorem C72_exp_within (ln2 : ℕ → DFI) (hln2 : IsLn2 ln2) (a r : DFI) (hr : a.exp ln2 = some r)
    (l u : ℝ) (hl : l = a.lo / 2 ^ a.log2Denom) (hu : u = a.hi / 2 ^ a.log2Denom) (hle : l ≤ u) :
    Real.exp l / 2 * 2 ^ a.log2Denom - 1 - expSlack u < r.lo ∧
    (r.hi : ℝ) < Real.exp u * 2 * 2 ^ a.log2Denom + 1 + expSlack u := by
  obtain ⟨P, e, ql, qu, zl, zu, dl, du, P32, he, e4, el, eu, ⟨zl0, zl1⟩, ⟨zu0, zu1⟩, ⟨zl7, zu7⟩, ⟨dl0, dl1⟩, ⟨du0, du1⟩,
    ⟨ql1, ql2⟩, ⟨qu1, qu2⟩, t1, t2, -, -⟩ := exp_pieces_real ln2 hln2 a r hr hle rfl hl hu
  set N : ℝ := 2 ^ a.log2Denom with hN
  have hN0 : 0 < N := by positivity
  have hP : 0 < P := lt_of_lt_of_le (by positivity) P32
  have s0 : (0:ℝ) ≤ e := by positivity
  have h84 : 8 / P ≤ 1 / 4 := by
    refine le_trans ?_ e4
    gcongr; linarith
  have low := scaled_small ql2 (c := 24 * (e + 1)) (t := Real.exp l - 2 ^ ql * Real.exp zl) (by positivity) (by
    have := exp_low_gap zl7 dl0 dl1 hP ql1 e4; rw [← el] at this; exact this) hN0
  have high := scaled_small qu2 (c := 24 * (e + 1)) (t := 2 ^ qu * Real.exp zu - Real.exp u) (by positivity) (by
    have := exp_high_gap zu7 du0 du1 hP qu1; rw [← eu] at this; exact this) hN0
  have r1 := scaled_small ql2 (c := 32) (t := 2 ^ ql * (Real.exp zl - 2)) (by norm_num) (by
    have := exp_rem_le zl1.le dl0 dl1 h84
    gcongr; linarith) hN0
  have r2 := scaled_small qu2 (c := 32) (t := 2 ^ qu * (Real.exp (max zl zu) - 2)) (by norm_num) (by
    have := exp_rem_le (z := max zl zu) (max_le zl1.le (by linarith)) dl0 dl1 h84
    gcongr; linarith) hN0
  have m1 : N * 2 ^ ql ≤ N * 2 ^ ql * Real.exp (min zl zu) :=
    le_mul_of_one_le_right (by positivity) (Real.one_le_exp (le_min zl0 zu0))
  have m2 : N * 2 ^ qu ≤ N * 2 ^ qu * Real.exp zu :=
    le_mul_of_one_le_right (by positivity) (Real.one_le_exp zu0)
  unfold expSlack
  have tot : (150 + 4 * (e:ℝ)) / 2 ^ 31 + 2 * (24 * (e + 1) / 2 ^ 31) + 32 / 2 ^ 31 ≤ (256 + 80 * max 0 u) / 2 ^ 31 := by
    rw [← mul_div_assoc, ← add_div, ← add_div]
    exact div_le_div_of_nonneg_right (by linarith) (by positivity)
  have p1 : 0 ≤ 24 * ((e:ℝ) + 1) / 2 ^ 31 := by positivity
  have p2 : (0:ℝ) ≤ 32 / 2 ^ 31 := by positivity
  constructor <;> linarith

/-- C72 is false of the exponential when a multiple `j ln 2` lies inside the interval (by `|j| / 2^(n + 29)`),
however close together the ends are and whatever the precision: the result then reaches from half the exponential
of the upper end to twice that of the lower end. -/
theorem C72_exp_wide_false (ln2 : ℕ → DFI) (hln2 : IsLn2 ln2) (a r : DFI) (hr : a.exp ln2 = some r)
    (l u : ℝ) (hl : l = a.lo / 2 ^ a.log2Denom) (hu : u = a.hi / 2 ^ a.log2Denom)
    (j : ℤ) (hj : l + |(j:ℝ)| / 2 ^ (a.log2Denom + 29) < j * Real.log 2 ∧
      j * Real.log 2 ≤ u - |(j:ℝ)| / 2 ^ (a.log2Denom + 29)) :
    (r.lo : ℝ) ≤ Real.exp u / 2 * 2 ^ a.log2Denom + expSlack u ∧
    Real.exp l * 2 * 2 ^ a.log2Denom - expSlack u ≤ r.hi := by
  have hle : l ≤ u := by
    have : 0 ≤ |(j:ℝ)| / 2 ^ (a.log2Denom + 29) := by positivity
    linarith [hj.1, hj.2]
  obtain ⟨P, e, ql, qu, zl, zu, dl, du, P32, he, e4, el, eu, ⟨zl0, zl1⟩, ⟨zu0, zu1⟩, ⟨zl7, zu7⟩, ⟨dl0, dl1⟩, ⟨du0, du1⟩,
    ⟨ql1, ql2⟩, ⟨qu1, qu2⟩, -, -, t3, t4⟩ := exp_pieces_real ln2 hln2 a r hr hle rfl hl hu
  rw [pow_add] at hj
  set N : ℝ := 2 ^ a.log2Denom with hN
  have hN0 : 0 < N := by positivity
  have hP : 0 < P := lt_of_lt_of_le (by positivity) P32
  have s0 : (0:ℝ) ≤ e := by positivity
  have h8 : 8 / P ≤ 1 / (N * 2 ^ 29) := by
    rw [div_le_div_iff₀ hP (by positivity)]; linarith
  have hjd : ∀ (d : ℝ), 0 ≤ d → d ≤ 8 / P → |(j:ℝ) * d| ≤ |(j:ℝ)| / (N * 2 ^ 29) := by
    intro d h0 h1
    rw [abs_mul, abs_of_nonneg h0]
    calc |(j:ℝ)| * d ≤ |(j:ℝ)| * (1 / (N * 2 ^ 29)) := by gcongr; linarith
      _ = _ := by ring
  have k1 := abs_le.mp (hjd dl dl0 dl1)
  have k2 := abs_le.mp (hjd du du0 du1)
  have g2 := Real.log_two_gt_d9
  have j1 : ql < j := by
    by_contra hc
    push Not at hc
    have hc' : (j:ℝ) ≤ ql := by exact_mod_cast hc
    have : (j:ℝ) * (Real.log 2 + dl) ≤ ql * (Real.log 2 + dl) := by gcongr
    linarith [hj.1]
  have j2 : j ≤ qu := by
    by_contra hc
    push Not at hc
    have hc' : (qu:ℝ) + 1 ≤ j := by exact_mod_cast hc
    have : ((qu:ℝ) + 1) * (Real.log 2 - du) ≤ j * (Real.log 2 - du) := by gcongr; linarith
    linarith [hj.2]
  have hqq : (2:ℝ) ^ ql * 2 ≤ 2 ^ qu := by
    rw [← zpow_add_one₀ (by norm_num)]
    exact zpow_le_zpow_right₀ (by norm_num) (by omega)
  have low := scaled_small ql2 (c := 24 * (e + 1)) (t := Real.exp l - 2 ^ ql * Real.exp zl) (by positivity) (by
    have := exp_low_gap zl7 dl0 dl1 hP ql1 e4; rw [← el] at this; exact this) hN0
  have high := scaled_small qu2 (c := 24 * (e + 1)) (t := 2 ^ qu * Real.exp zu - Real.exp u) (by positivity) (by
    have := exp_high_gap zu7 du0 du1 hP qu1; rw [← eu] at this; exact this) hN0
  have one := scaled_small ql2 (c := 1) (t := 2 ^ ql * (1 / P)) (by norm_num) (le_refl _) hN0
  unfold expSlack
  have tot : 2 * (24 * ((e:ℝ) + 1) / 2 ^ 31) + 2 * (1 / 2 ^ 31) ≤ (256 + 80 * max 0 u) / 2 ^ 31 := by
    rw [← mul_div_assoc, ← mul_div_assoc, ← add_div]
    exact div_le_div_of_nonneg_right (by linarith) (by positivity)
  have p1 : 0 ≤ 24 * ((e:ℝ) + 1) / 2 ^ 31 := by positivity
  have p2 : (0:ℝ) ≤ 1 / 2 ^ 31 := by positivity
  constructor
  · have : N * 2 ^ ql * 2 * Real.exp zu ≤ N * 2 ^ qu * Real.exp zu := by
      have := mul_le_mul_of_nonneg_left hqq hN0.le
      exact mul_le_mul_of_nonneg_right (by linarith) (Real.exp_pos zu).le
    linarith
  · have h1 : 0 ≤ Real.exp zl - 1 / P := by
      have := Real.one_le_exp zl0
      have : 1 / P ≤ 1 := by
        rw [div_le_one hP]
        refine le_trans ?_ P32
        have : (1:ℝ) ≤ N := one_le_pow₀ (by norm_num)
        norm_num; linarith
      linarith
    have : N * 2 ^ ql * 2 * (Real.exp zl - 1 / P) ≤ N * 2 ^ qu * (Real.exp zl - 1 / P) := by
      have := mul_le_mul_of_nonneg_left hqq hN0.le
      exact mul_le_mul_of_nonneg_right (by linarith) h1
    linarith

/-- `exp [-1/1024, 1/1024] = [512/1024, 2047/1024]`: about `[1/2, 2]` -/
example : (⟨-1, 1, 10⟩ : DFI).exp ln2Direct = some ⟨512, 2047, 10⟩ ∧
    ((-1:ℝ) / 2 ^ 10 + |((0:ℤ):ℝ)| / 2 ^ (10 + 29) < ((0:ℤ):ℝ) * Real.log 2 ∧
      ((0:ℤ):ℝ) * Real.log 2 ≤ (1:ℝ) / 2 ^ 10 - |((0:ℤ):ℝ)| / 2 ^ (10 + 29)) := by
  refine ⟨by decide +kernel, by norm_num⟩

/-- and there are intervals that the tight bound covers -/
example : (⟨1, 2, 2⟩ : DFI).exp ln2Direct = some ⟨5, 7, 2⟩ ∧ ∀ j : ℤ,
    ¬ ((1:ℝ) / 2 ^ 2 - |(j:ℝ)| / 2 ^ (2 + 29) < j * Real.log 2 ∧
      j * Real.log 2 ≤ (2:ℝ) / 2 ^ 2 + |(j:ℝ)| / 2 ^ (2 + 29)) := by
  refine ⟨by decide +kernel, ?_⟩
  intro j hj
  have g := Real.log_two_gt_d9
  rcases le_or_gt j 0 with h | h
  · have h' : (j:ℝ) ≤ 0 := by exact_mod_cast h
    rw [abs_of_nonpos h'] at hj
    norm_num at hj
    nlinarith [hj.1]
  · have h' : (1:ℝ) ≤ j := by exact_mod_cast h
    rw [abs_of_pos (by linarith)] at hj
    norm_num at hj
    nlinarith [hj.2]

end Algebraics
