import Verif.Lemmas.ExpReturns
import Verif.Props.IntervalFn

/-!
Property C08, continued: exactly when `exp` panics (`/repo/src/interval_arithmetic.rs:685-759`).
-/

namespace Algebraics

open DFI

/-- C08, in part: exactly when `exp` panics. The argument is brought to the working precision `w` and its
ends are reduced modulo `ln 2`; `exp` panics exactly when the two reduced ends are the same number `s`
of units and `s`, or half of its square, is one unit. Missing: that this never happens (it does,
`C08_panics_false`). -/
theorem C08_panics_iff_partial (ln2 : ℕ → DFI) (hln2 : IsLn2 ln2) (a : DFI) :
    a.exp ln2 = none ↔ ∃ (w : ℕ) (s : ℤ), w = expPrecision ln2 a ∧
      s = (a.lo * 2 ^ (w - a.log2Denom)) % (ln2 w).hi ∧
      s = (a.hi * 2 ^ (w - a.log2Denom)) % (ln2 w).lo ∧ (s = 1 ∨ s ^ 2 = 2 ^ (w + 1)) := by
  rw [exp_none_iff ln2 hln2 a _ rfl]
  constructor
  · rintro ⟨h1, h2⟩
    exact ⟨_, _, rfl, rfl, h1, h2⟩
  · rintro ⟨w, s, rfl, h1, h2, h3⟩
    rw [← h1, ← h2]
    exact ⟨rfl, h3⟩

/-- C08, in part: `exp` returns on every interval of width up to one half that is not a single point and
starts within `2^25` of zero, and its result encloses the exponential up to `2^-26` of a unit. -/
theorem C08_narrow_partial (ln2 : ℕ → DFI) (hln2 : IsLn2 ln2) (a : DFI) (h1 : a.lo < a.hi)
    (h2 : 2 * (a.hi - a.lo) ≤ 2 ^ a.log2Denom) (h3 : |a.lo| ≤ 2 ^ 25 * 2 ^ a.log2Denom) :
    ∃ r, a.exp ln2 = some r ∧ r.log2Denom = a.log2Denom ∧ ∀ x : ℝ, a.Contains x →
      ((r.lo : ℝ) - 1 / 2 ^ 26) / 2 ^ a.log2Denom ≤ Real.exp x ∧
      (0 ≤ a.lo → (r.lo : ℝ) / 2 ^ a.log2Denom ≤ Real.exp x) ∧
      Real.exp x ≤ ((r.hi : ℝ) + 1 / 2 ^ 26) / 2 ^ a.log2Denom := by
  obtain ⟨r, hr⟩ := exp_narrow ln2 hln2 a h1 h2 h3
  exact ⟨r, hr, C08_exp_partial ln2 hln2 a r hr⟩

example : (⟨-7, -5, 2⟩ : DFI).lo < (⟨-7, -5, 2⟩ : DFI).hi ∧
    2 * ((⟨-7, -5, 2⟩ : DFI).hi - (⟨-7, -5, 2⟩ : DFI).lo) ≤ 2 ^ 2 ∧
    |(⟨-7, -5, 2⟩ : DFI).lo| ≤ 2 ^ 25 * 2 ^ 2 := by decide

/-- working precision and reduced ends of a number from 0 to 1/2. -/
theorem exp_point_reduce (ln2 : ℕ → DFI) (hln2 : IsLn2 ln2) (m n : ℕ) (hm : 2 * m ≤ 2 ^ n) :
    expPrecision ln2 ⟨m, m, n⟩ = n + 32 + 2 * Nat.log 2 (n + 1) ∧
    ∀ w, n + 32 ≤ w → (m * 2 ^ (w - n) : ℤ) % (ln2 w).hi = m * 2 ^ (w - n) ∧
      (m * 2 ^ (w - n) : ℤ) % (ln2 w).lo = m * 2 ^ (w - n) := by
  have g1 := log_two_gt
  have hmr : 2 * (m : ℝ) ≤ 2 ^ n := by exact_mod_cast hm
  have below : ∀ w, n + 10 ≤ w → (m * 2 ^ (w - n) : ℤ) < (ln2 w).lo ∧
      (m * 2 ^ (w - n) : ℤ) < (ln2 w).hi := by
    intro w hw
    obtain ⟨sd, sc, su⟩ := hln2 w
    obtain ⟨s1, s2, s3, s4⟩ := isLn2_bounds sd sc su
    obtain ⟨k, rfl⟩ : ∃ k, w = n + k := ⟨w - n, by omega⟩
    rw [show n + k - n = k by omega]
    have hk : (2 : ℝ) ^ 10 ≤ 2 ^ k := pow_le_pow_right₀ (by norm_num) (by omega)
    have hn : (1 : ℝ) ≤ 2 ^ n := one_le_pow₀ (by norm_num)
    have hp : 2 * (m : ℝ) * 2 ^ k ≤ 2 ^ n * 2 ^ k := mul_le_mul_of_nonneg_right hmr (by positivity)
    have hnk : (2 : ℝ) ^ 10 ≤ 2 ^ n * 2 ^ k := by nlinarith
    norm_num at hnk
    rw [pow_add] at s1 s2 s3 s4
    have h1 : (m : ℝ) * 2 ^ k < (ln2 (n + k)).lo := by nlinarith
    have h2 : (m : ℝ) * 2 ^ k < (ln2 (n + k)).hi := by nlinarith
    exact ⟨by exact_mod_cast h1, by exact_mod_cast h2⟩
  refine ⟨?_, fun w hw => ?_⟩
  · unfold expPrecision
    have h := (below (n + 10) (le_refl _)).1
    rw [show n + 10 - n = 10 by omega] at h
    rw [Int.ediv_eq_zero_of_lt (by positivity) h]
    simp
  · obtain ⟨h1, h2⟩ := below w (by omega)
    exact ⟨Int.emod_eq_of_lt (by positivity) h2, Int.emod_eq_of_lt (by positivity) h1⟩

/-- C08, in part: exactly on which numbers from 0 to 1/2, taken as one-point intervals, `exp` panics: with
`w` digits of working precision, on those whose square is twice the last unit, `2 / 2^w`. -/
theorem C08_point_iff_partial (ln2 : ℕ → DFI) (hln2 : IsLn2 ln2) (m n : ℕ) (hm : 2 * m ≤ 2 ^ n) :
    (⟨m, m, n⟩ : DFI).exp ln2 = none ↔
      ((m : ℚ) / 2 ^ n) ^ 2 = 2 / 2 ^ (n + 32 + 2 * Nat.log 2 (n + 1)) := by
  obtain ⟨h1, h2⟩ := exp_point_reduce ln2 hln2 m n hm
  rw [exp_none_iff ln2 hln2 _ _ h1.symm]
  simp only
  set w := n + 32 + 2 * Nat.log 2 (n + 1) with hw
  obtain ⟨h3, h4⟩ := h2 w (by omega)
  rw [h3, h4]
  obtain ⟨k, hk⟩ : ∃ k, w = n + k := ⟨w - n, by omega⟩
  have hk32 : 32 ≤ k := by omega
  rw [show w - n = k by omega]
  have hne : (m * 2 ^ k : ℤ) ≠ 1 := by
    intro h
    have : (2 : ℤ) ∣ m * 2 ^ k := Dvd.dvd.mul_left (dvd_pow_self 2 (by omega)) _
    rw [h] at this
    omega
  rw [hk]
  constructor
  · rintro ⟨-, h | h⟩
    · exact absurd h hne
    · have : ((m : ℚ) * 2 ^ k) ^ 2 = 2 ^ (n + k + 1) := by exact_mod_cast h
      rw [div_pow, div_eq_div_iff (by positivity) (by positivity)]
      have hkp : (0 : ℚ) < 2 ^ k := by positivity
      apply mul_right_cancel₀ hkp.ne'
      rw [pow_succ, pow_add] at this
      rw [pow_add]
      linear_combination 2 ^ n * this
  · intro h
    refine ⟨rfl, Or.inr ?_⟩
    rw [div_pow, div_eq_div_iff (by positivity) (by positivity)] at h
    have : ((m : ℚ) * 2 ^ k) ^ 2 = 2 ^ (n + k + 1) := by
      have hnp : (0 : ℚ) < 2 ^ n := by positivity
      apply mul_left_cancel₀ hnp.ne'
      rw [pow_add] at h
      rw [pow_succ, pow_add]
      linear_combination 2 ^ k * h
    exact_mod_cast this

/-- C08 is false at every odd precision from 41 on: there is a positive number with that many binary
digits on which `exp` panics. -/
theorem C08_panics_every_odd_false (ln2 : ℕ → DFI) (hln2 : IsLn2 ln2) (n : ℕ) (hodd : n % 2 = 1)
    (hn : 41 ≤ n) : ∃ m : ℕ, 0 < m ∧ (⟨m, m, n⟩ : DFI).exp ln2 = none := by
  obtain ⟨j, rfl⟩ : ∃ j, n = 2 * j + 1 := ⟨n / 2, by omega⟩
  have hlog : Nat.log 2 (2 * j + 1 + 1) ≤ j - 15 := by
    have hpow : 2 * j + 1 + 1 < 2 ^ (j - 15 + 1) := by
      obtain ⟨i, rfl⟩ : ∃ i, j = i + 20 := ⟨j - 20, by omega⟩
      rw [show i + 20 - 15 + 1 = i + 6 by omega]
      clear hodd hn
      induction i with
      | zero => norm_num
      | succ i ih =>
        rw [show i + 1 + 6 = (i + 6) + 1 by omega, pow_succ]
        omega
    have := Nat.log_lt_of_lt_pow (by omega) hpow
    omega
  set l := Nat.log 2 (2 * j + 1 + 1) with hl
  have h2 : 2 * 2 ^ (j - 15 - l) ≤ 2 ^ (2 * j + 1) := by
    rw [← pow_succ']
    exact Nat.pow_le_pow_right (by norm_num) (by omega)
  refine ⟨2 ^ (j - 15 - l), by positivity, ?_⟩
  rw [C08_point_iff_partial ln2 hln2 _ _ h2, ← hl]
  rw [div_pow, div_eq_div_iff (by positivity) (by positivity)]
  push_cast
  rw [← pow_mul, ← pow_mul, ← pow_add, ← pow_succ']
  congr 1
  omega

/-- at 51 digits the number is `32`; next to it `exp` returns. -/
example (ln2 : ℕ → DFI) (hln2 : IsLn2 ln2) : (⟨(32 : ℕ), (32 : ℕ), 51⟩ : DFI).exp ln2 = none ∧
    (⟨(33 : ℕ), (33 : ℕ), 51⟩ : DFI).exp ln2 ≠ none := by
  have e : Nat.log 2 (51 + 1) = 5 := by decide
  rw [C08_point_iff_partial ln2 hln2 32 51 (by norm_num), Ne,
    C08_point_iff_partial ln2 hln2 33 51 (by norm_num), e]
  norm_num

end Algebraics
