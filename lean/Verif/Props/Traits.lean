import Verif.Lemmas.Traits

/-!
# Properties C35–C38: integer logarithms, nearest division, rational gcd, exact division
-/

namespace Algebraics

/-! ## C35 -/

/-- C35: `floor_log2` of `n` is the `k` with `2^k ≤ n < 2^(k+1)`, and `None` iff `n ≤ 0`. -/
theorem C35_floor_log2 (n : Int) :
    (∀ k : Nat, floorLog2 n = some k ↔ 2 ^ k ≤ n ∧ n < 2 ^ (k + 1)) ∧
    (floorLog2 n = none ↔ n ≤ 0) := by
  refine ⟨floorLog2_spec n, ?_⟩
  unfold floorLog2; split <;> simp_all

example : floorLog2 1023 = some 9 := by decide +kernel

/-- C35: `ceil_log2` of `n` is the least `k` with `n ≤ 2^k`, and `None` iff `n ≤ 0`. -/
theorem C35_ceil_log2 (n : Int) :
    (∀ k : Nat, ceilLog2 n = some k ↔ 0 < n ∧ n ≤ 2 ^ k ∧ ∀ j : Nat, n ≤ 2 ^ j → k ≤ j) ∧
    (ceilLog2 n = none ↔ n ≤ 0) := by
  refine ⟨ceilLog2_spec n, ?_⟩
  unfold ceilLog2; split <;> simp_all

example : ceilLog2 1025 = some 11 := by decide +kernel

/-- C35: the unsigned versions agree with the signed ones. -/
theorem C35_log2_unsigned (n : Nat) : floorLog2U n = floorLog2 n ∧ ceilLog2U n = ceilLog2 n := by
  unfold floorLog2U floorLog2 ceilLog2U ceilLog2
  by_cases h : n = 0
  · simp [h]
  · have h2 : ((n:Int) - 1).natAbs = n - 1 := by omega
    simp [h, h2]

/-- C35: `trailing_zeros` of `n` is the exponent of 2 in `n`; `None` iff `n = 0`. Both the machine
word fast path and the shifting loop for larger numbers are covered. -/
theorem C35_trailing_zeros (n : Int) :
    (∀ k : Nat, trailingZeros n = some k ↔ (2:Int) ^ k ∣ n ∧ ¬ (2:Int) ^ (k + 1) ∣ n) ∧
    (trailingZeros n = none ↔ n = 0) := by
  have hd : ∀ k : Nat, (2:Int) ^ k ∣ n ↔ 2 ^ k ∣ n.natAbs := fun k => by
    rw [← Int.natAbs_dvd_natAbs]; simp [Int.natAbs_pow]
  unfold trailingZeros
  rw [trailingZerosU_eq]
  by_cases h : n = 0
  · simp [h]
  · have h' : n.natAbs ≠ 0 := by omega
    simp only [h', if_false, Option.some.injEq, h]
    refine ⟨fun k => ?_, by simp⟩
    rw [hd, hd, padicValNat_dvd_iff_le h', padicValNat_dvd_iff_le h']
    omega

example : trailingZeros (-(48 * 2 ^ 60)) = some 64 := by decide +kernel
example : trailingZeros (-48) = some 4 := by decide +kernel

/-! ## C36 -/

/-- what "nearest division" promises: Euclid's identity and a remainder of at most half the
divisor. -/
def IsNearestDivision (a b q r : Int) : Prop := a = q * b + r ∧ 2 * |r| ≤ |b|

/-- C36 is false of the `BigInt` implementation: `10 / 3` gives `(4, 4)`. -/
theorem C36_bigint_false :
    ∃ a b q r, divRemNearest a b = some (q, r) ∧ a ≠ q * b + r := by
  exact ⟨10, 3, 4, 4, by decide +kernel, by decide⟩

/-- C36, exact extent of the defect: the `BigInt` implementation is right if and only if the
truncated remainder is exactly half of the divisor. -/
theorem C36_bigint_correct_iff_partial (a b q r : Int) (h : divRemNearest a b = some (q, r)) :
    IsNearestDivision a b q r ↔ 2 * |a.tmod b| = |b| := by
  unfold divRemNearest at h
  have hb : b ≠ 0 := by rintro rfl; simp at h
  simp only [hb, if_false] at h
  have hid := Int.tdiv_mul_add_tmod a b
  have hlt : |a.tmod b| < |b| := by
    rw [Int.abs_eq_natAbs, Int.abs_eq_natAbs, Int.natAbs_tmod]
    have : a.natAbs % b.natAbs < b.natAbs := Nat.mod_lt _ (by omega)
    exact_mod_cast this
  unfold IsNearestDivision
  split_ifs at h with h1 h2 <;> simp only [Option.some.injEq, Prod.mk.injEq] at h <;>
    obtain ⟨rfl, rfl⟩ := h
  · -- adjusted, negative divisor
    constructor
    · rintro ⟨h3, h4⟩
      have hbn : |b| = -b := abs_of_neg h2
      have h5 : a = a.tdiv b * b - b + a.tmod b - |b| := by linarith
      rw [hbn] at h5 h4 h1 hlt
      have h6 : |a.tmod b - -b| ≥ -b - |a.tmod b| := by
        have := abs_sub_abs_le_abs_sub (-b) (a.tmod b)
        rw [abs_sub_comm] at this
        rw [abs_of_pos (by omega : (0:Int) < -b)] at this
        linarith
      rcases abs_cases (a.tmod b) with ⟨e, _⟩ | ⟨e, _⟩ <;> rcases abs_cases (a.tmod b - -b) with ⟨e', _⟩ | ⟨e', _⟩ <;>
        omega
    · intro h3; omega
  · constructor
    · rintro ⟨h3, h4⟩
      have hbn : |b| = b := abs_of_pos (by omega)
      have h5 : a = a.tdiv b * b + b + (a.tmod b + |b|) := by linarith
      omega
    · intro h3; omega
  · constructor
    · rintro ⟨h3, h4⟩; omega
    · intro h3; exact ⟨by linarith, h3.le⟩

/-- C36 is false of the signed machine integer implementation: `-16i8 / 10` gives `(0, -16)`. -/
theorem C36_signed_false :
    ∃ a b q r, divRemNearestSigned 8 a b = some (q, r) ∧ ¬ 2 * |r| ≤ |b| := by
  exact ⟨-16, 10, 0, -16, by decide +kernel, by decide⟩

/-- C36 (partial): for signed machine integers of any width the identity always holds, and the
remainder is at most half of the divisor for non-negative dividends (divisor other than the
minimum value). Missing: negative dividends, where the claim is false. -/
theorem C36_signed_partial (w : Nat) (a b : Int)
    (ha : -2 ^ (w - 1) ≤ a ∧ a < 2 ^ (w - 1)) (hb : -2 ^ (w - 1) ≤ b ∧ b < 2 ^ (w - 1)) :
    (∀ q r, divRemNearestSigned w a b = some (q, r) → a = q * b + r ∧
      (0 ≤ a → b ≠ -2 ^ (w - 1) → IsNearestDivision a b q r)) ∧
    (0 ≤ a → (divRemNearestSigned w a b = none ↔ b = 0)) := by
  have hid := Int.tdiv_mul_add_tmod a b
  have hlt : b ≠ 0 → |a.tmod b| < |b| := by
    intro hb0
    rw [Int.abs_eq_natAbs, Int.abs_eq_natAbs, Int.natAbs_tmod]
    have : a.natAbs % b.natAbs < b.natAbs := Nat.mod_lt _ (by omega)
    exact_mod_cast this
  have hnn : 0 ≤ a → 0 ≤ a.tmod b := fun h => Int.tmod_nonneg b h
  have hP : (0:Int) < 2 ^ (w - 1) := by positivity
  have hq : b ≠ 0 → a.tdiv b ≠ 0 → |a.tdiv b| * |b| ≤ |a| := by
    intro h0 _
    rw [← abs_mul]
    rw [Int.abs_eq_natAbs, Int.abs_eq_natAbs, Int.natAbs_mul, Int.natAbs_tdiv]
    exact_mod_cast Nat.div_mul_le_self _ _
  unfold divRemNearestSigned IsNearestDivision
  simp only
  by_cases hb0 : b = 0
  · subst hb0; simp
  simp only [hb0, if_false]
  by_cases hov : b = -1 ∧ a = -2 ^ (w - 1)
  · simp only [hov, and_self, if_true]
    refine ⟨by simp, fun h => by omega⟩
  simp only [hov, if_false]
  have hlt' := hlt hb0
  generalize hqq : a.tdiv b = q at *
  generalize hrr : a.tmod b = r at *
  by_cases hc : b ≠ -2 ^ (w - 1) ∧ r.natAbs > b.natAbs / 2
  · simp only [hc, if_true, ne_eq, not_false_eq_true, true_and]
    obtain ⟨hc1, hc2⟩ := hc
    refine ⟨?_, ?_⟩
    · intro q' r' h
      split at h
      · next q1 r1 e1 e2 =>
        simp only [Option.some.injEq, Prod.mk.injEq] at h
        obtain ⟨rfl, rfl⟩ := h
        split_ifs at e1 e2 <;> simp only [Option.some.injEq] at e1 e2 <;> subst e1 <;> subst e2
        · refine ⟨by linarith, fun h0 _ => ⟨by linarith, ?_⟩⟩
          have := hnn h0
          rw [abs_of_neg (by assumption : b < 0)] at *
          rw [abs_of_nonneg this] at hlt'
          rw [abs_of_neg (by omega)]
          omega
        · refine ⟨by linarith, fun h0 _ => ⟨by linarith, ?_⟩⟩
          have := hnn h0
          rw [abs_of_pos (by omega : 0 < b)] at *
          rw [abs_of_nonneg this] at hlt'
          rw [abs_of_neg (by omega)]
          omega
      · simp at h
    · intro h0
      simp only [iff_false]
      have hr0 := hnn h0
      have hr1 : 0 < r.natAbs := by omega
      have hrpos : 0 < r := by omega
      rw [abs_of_nonneg hr0] at hlt'
      have hq2 : |q| + 1 < 2 ^ (w - 1) ∨ q = 0 := by
        by_cases hq0 : q = 0
        · exact Or.inr hq0
        · left
          have h3 := hq hb0 hq0
          have hb2 : 2 ≤ |b| := by omega
          rw [abs_of_nonneg h0] at h3
          have h4 : |q| ≥ 1 := Int.one_le_abs hq0
          by_cases h5 : |q| = 1
          · have : |q| * |b| = q * b := by
              rw [← abs_mul]
              apply abs_of_nonneg
              by_contra hneg
              push Not at hneg
              have : q * b ≤ -|b| := by
                have : |q * b| = |b| := by rw [abs_mul, h5, one_mul]
                rw [abs_of_neg hneg] at this; omega
              omega
            rw [h5] at *
            nlinarith
          · have : 2 ≤ |q| := by omega
            nlinarith
      have hq3 : -2 ^ (w - 1) ≤ q - 1 ∧ q + 1 < 2 ^ (w - 1) ∨ q = 0 := by
        rcases hq2 with h | h
        · left
          rcases abs_cases q with ⟨e, _⟩ | ⟨e, _⟩ <;> omega
        · exact Or.inr h
      have hP2 : (2:Int) ≤ 2 ^ (w - 1) := by
        by_contra h
        have : (2:Int) ^ (w - 1) = 1 := by omega
        rcases abs_cases b with ⟨e, _⟩ | ⟨e, _⟩ <;> omega
      by_cases hbn : b < 0
      · simp only [hbn, if_true]
        rw [abs_of_neg hbn] at hlt'
        have e1 : -2 ^ (w - 1) ≤ q + -1 ∧ q + -1 < 2 ^ (w - 1) := by
          rcases hq3 with h | h <;> omega
        have e2 : -2 ^ (w - 1) ≤ r + b ∧ r + b < 2 ^ (w - 1) := by omega
        simp [e1, e2]
      · simp only [hbn, if_false]
        rw [abs_of_pos (by omega)] at hlt'
        have e1 : -2 ^ (w - 1) ≤ q + 1 ∧ q + 1 < 2 ^ (w - 1) := by
          rcases hq3 with h | h <;> omega
        have e2 : -2 ^ (w - 1) ≤ r + -b ∧ r + -b < 2 ^ (w - 1) := by omega
        simp [e1, e2]
  · simp only [hc, if_false]
    refine ⟨?_, by simp⟩
    intro q' r' h
    simp only [Option.some.injEq, Prod.mk.injEq] at h
    obtain ⟨rfl, rfl⟩ := h
    refine ⟨by linarith, fun h0 h1 => ⟨by linarith, ?_⟩⟩
    have : ¬ r.natAbs > b.natAbs / 2 := fun h => hc ⟨h1, h⟩
    rw [Int.abs_eq_natAbs, Int.abs_eq_natAbs]
    omega

example : divRemNearestSigned 8 16 10 = some (2, -4) := by decide +kernel
example : divRemNearestSigned 8 (-15) 10 = some (-1, -5) := by decide +kernel

/-- C36: unsigned division with remainder is the ordinary one (the quotient is rounded down, as
documented). -/
theorem C36_unsigned (a b : Nat) :
    (divRemNearestUnsigned a b = none ↔ b = 0) ∧
    ∀ q r, divRemNearestUnsigned a b = some (q, r) → a = q * b + r ∧ r < b := by
  unfold divRemNearestUnsigned
  by_cases hb : b = 0
  · simp [hb]
  · simp only [hb, if_false, Option.some.injEq, Prod.mk.injEq, iff_false]
    refine ⟨by simp, ?_⟩
    rintro q r ⟨rfl, rfl⟩
    exact ⟨(Nat.div_add_mod' a b).symm, Nat.mod_lt _ (by omega)⟩

example : divRemNearestUnsigned 8 5 = some (1, 3) := by decide

/-! ## C37 -/

/-- `b` is an integer multiple of `a` in the rationals. -/
def IntMultiple (a b : Rat) : Prop := ∃ k : Int, b = k * a

theorem intMultiple_scale (d : Rat) (hd : d ≠ 0) (g l : Int) :
    IntMultiple ((g : Rat) / d) ((l : Rat) / d) ↔ g ∣ l := by
  constructor
  · rintro ⟨k, hk⟩
    have : (l : Rat) = k * g := by field_simp at hk; exact hk
    exact ⟨k, by rw [mul_comm]; exact_mod_cast this⟩
  · rintro ⟨k, rfl⟩
    exact ⟨k, by push_cast; ring⟩

theorem common_denom (a b : Rat) :
    a = ((a.num * b.den : Int) : Rat) / ((a.den : Rat) * b.den) ∧
    b = ((b.num * a.den : Int) : Rat) / ((a.den : Rat) * b.den) := by
  have ha : (a.den : Rat) ≠ 0 := by exact_mod_cast a.den_nz
  have hb : (b.den : Rat) ≠ 0 := by exact_mod_cast b.den_nz
  constructor
  · conv_lhs => rw [← Rat.num_div_den a]
    push_cast; field_simp
  · conv_lhs => rw [← Rat.num_div_den b]
    push_cast; field_simp

theorem bezout_scaled (l r : Int) (d a b : Rat) (ea : a = l / d) (eb : b = r / d) :
    ((Int.gcd l r : Int) : Rat) / d = (Int.gcdA l r : Rat) * a + (Int.gcdB l r : Rat) * b := by
  subst ea eb
  rw [Int.gcd_eq_gcd_ab]; push_cast; ring

/-- every common divisor of two rationals divides any integer combination of them. -/
theorem intMultiple_comb {d a b : Rat} (ha : IntMultiple d a) (hb : IntMultiple d b) (x y : Int) :
    IntMultiple d (x * a + y * b) := by
  obtain ⟨m, rfl⟩ := ha
  obtain ⟨n, rfl⟩ := hb
  exact ⟨x * m + y * n, by push_cast; ring⟩

/-- C37: the rational gcd divides both arguments with integer quotients and is divisible by every
common divisor; it is positive when both arguments are nonzero (partial: with one zero argument the
other is returned unchanged, possibly negative, see `C37_gcd_sign_false`). -/
theorem C37_gcd_partial (a b : Rat) :
    IntMultiple (ratGcdLcm a b).1 a ∧ IntMultiple (ratGcdLcm a b).1 b ∧
    (∀ d, IntMultiple d a → IntMultiple d b → IntMultiple d (ratGcdLcm a b).1) ∧
    (a ≠ 0 → b ≠ 0 → 0 < (ratGcdLcm a b).1) := by
  unfold ratGcdLcm
  by_cases ha : a = 0
  · subst ha; simp only [if_true]
    exact ⟨⟨0, by simp⟩, ⟨1, by simp⟩, fun d _ h => h, by simp⟩
  by_cases hb : b = 0
  · subst hb; simp only [ha, if_false, if_true]
    exact ⟨⟨1, by simp⟩, ⟨0, by simp⟩, fun d h _ => h, by simp⟩
  simp only [ha, hb, if_false]
  obtain ⟨ea, eb⟩ := common_denom a b
  have hda : (0:Rat) < a.den := by exact_mod_cast a.den_pos
  have hdb : (0:Rat) < b.den := by exact_mod_cast b.den_pos
  have hd : (a.den : Rat) * b.den ≠ 0 := by positivity
  set l := a.num * b.den with hl
  set r := b.num * a.den with hr
  refine ⟨?_, ?_, ?_, ?_⟩
  · conv_rhs => rw [ea]
    exact (intMultiple_scale _ hd _ _).mpr (Int.gcd_dvd_left ..)
  · conv_rhs => rw [eb]
    exact (intMultiple_scale _ hd _ _).mpr (Int.gcd_dvd_right ..)
  · intro d h1 h2
    have := intMultiple_comb h1 h2 (Int.gcdA l r) (Int.gcdB l r)
    have e : ((Int.gcd l r : Int) : Rat) / ((a.den : Rat) * b.den) =
        (Int.gcdA l r : Rat) * a + (Int.gcdB l r : Rat) * b := by
      exact bezout_scaled l r _ a b ea eb
    rw [e]; exact this
  · intro _ _
    have : l ≠ 0 := by
      rw [hl]; exact mul_ne_zero (Rat.num_ne_zero.mpr ha) (by exact_mod_cast b.den_nz)
    have h0 : 0 < Int.gcd l r := Int.gcd_pos_of_ne_zero_left _ this
    have : (0:Rat) < ((Int.gcd l r : Int) : Rat) := by exact_mod_cast h0
    positivity

/-- C37: the claim "the gcd is positive" fails when one argument is zero. -/
theorem C37_gcd_sign_false : (ratGcdLcm 0 (-1 / 2)).1 < 0 := by decide +kernel

example : ratGcdLcm (3 / 4) (5 / 6) = (1 / 12, 15 / 2) := by decide +kernel

/-- C37: the rational lcm is the least common multiple (0 if an argument is 0). -/
theorem C37_lcm (a b : Rat) :
    IntMultiple a (ratGcdLcm a b).2 ∧ IntMultiple b (ratGcdLcm a b).2 ∧ 0 ≤ (ratGcdLcm a b).2 ∧
    ((ratGcdLcm a b).2 = 0 ↔ a = 0 ∨ b = 0) ∧
    (∀ m, IntMultiple a m → IntMultiple b m → IntMultiple (ratGcdLcm a b).2 m) := by
  unfold ratGcdLcm
  by_cases ha : a = 0
  · subst ha; simp only [if_true]
    refine ⟨⟨0, by simp⟩, ⟨0, by simp⟩, le_refl _, by simp, ?_⟩
    rintro m ⟨k, rfl⟩ _; exact ⟨0, by simp⟩
  by_cases hb : b = 0
  · subst hb; simp only [ha, if_false, if_true]
    refine ⟨⟨0, by simp⟩, ⟨0, by simp⟩, le_refl _, by simp, ?_⟩
    rintro m _ ⟨k, rfl⟩; exact ⟨0, by simp⟩
  simp only [ha, hb, if_false, or_self, iff_false]
  obtain ⟨ea, eb⟩ := common_denom a b
  have hda : (0:Rat) < a.den := by exact_mod_cast a.den_pos
  have hdb : (0:Rat) < b.den := by exact_mod_cast b.den_pos
  have hd : (a.den : Rat) * b.den ≠ 0 := by positivity
  have hl0 : a.num * b.den ≠ 0 := mul_ne_zero (Rat.num_ne_zero.mpr ha) (by exact_mod_cast b.den_nz)
  have hr0 : b.num * a.den ≠ 0 := mul_ne_zero (Rat.num_ne_zero.mpr hb) (by exact_mod_cast a.den_nz)
  set l := a.num * b.den with hl
  set r := b.num * a.den with hr
  have hlcm : 0 < Int.lcm l r := Nat.pos_of_ne_zero (Int.lcm_ne_zero hl0 hr0)
  have hlcm' : (0:Rat) < ((Int.lcm l r : Int) : Rat) := by exact_mod_cast hlcm
  refine ⟨?_, ?_, by positivity, ?_, ?_⟩
  · conv_lhs => rw [ea]
    exact (intMultiple_scale _ hd _ _).mpr (Int.dvd_lcm_left ..)
  · conv_lhs => rw [eb]
    exact (intMultiple_scale _ hd _ _).mpr (Int.dvd_lcm_right ..)
  · exact (div_pos hlcm' (by positivity)).ne'
  · rintro m ⟨k, hk⟩ ⟨k', hk'⟩
    have e1 : m = ((k * l : Int) : Rat) / ((a.den : Rat) * b.den) := by
      rw [hk]; conv_lhs => rw [ea]
      push_cast; ring
    have e2 : m = ((k' * r : Int) : Rat) / ((a.den : Rat) * b.den) := by
      rw [hk']; conv_lhs => rw [eb]
      push_cast; ring
    have e3 : k * l = k' * r := by
      have := e1.symm.trans e2
      rw [div_left_inj' hd] at this
      exact_mod_cast this
    rw [e1, intMultiple_scale _ hd]
    exact Int.coe_lcm_dvd (Dvd.intro_left _ rfl) (by rw [e3]; exact Dvd.intro_left _ rfl)

/-- C37: the extended gcd of rationals satisfies Bézout's identity with the nonnegative greatest
common divisor, for all rationals including zero. -/
theorem C37_extended_gcd (a b : Rat) :
    let (g, x, y, l) := ratExtendedGcdLcm a b
    g = x * a + y * b ∧ 0 ≤ g ∧ IntMultiple g a ∧ IntMultiple g b ∧
      (∀ d, IntMultiple d a → IntMultiple d b → IntMultiple d g) ∧
      IntMultiple a l ∧ IntMultiple b l := by
  unfold ratExtendedGcdLcm
  obtain ⟨ea, eb⟩ := common_denom a b
  have hda : (0:Rat) < a.den := by exact_mod_cast a.den_pos
  have hdb : (0:Rat) < b.den := by exact_mod_cast b.den_pos
  have hd : (a.den : Rat) * b.den ≠ 0 := by positivity
  set l := a.num * b.den with hl
  set r := b.num * a.den with hr
  have e : ((Int.gcd l r : Int) : Rat) / ((a.den : Rat) * b.den) =
      (Int.gcdA l r : Rat) * a + (Int.gcdB l r : Rat) * b := by
    exact bezout_scaled l r _ a b ea eb
  refine ⟨e, ?_, ?_, ?_, ?_, ?_, ?_⟩
  · have : (0:Rat) ≤ ((Int.gcd l r : Int) : Rat) := by exact_mod_cast Nat.zero_le _
    positivity
  · conv_rhs => rw [ea]
    exact (intMultiple_scale _ hd _ _).mpr (Int.gcd_dvd_left ..)
  · conv_rhs => rw [eb]
    exact (intMultiple_scale _ hd _ _).mpr (Int.gcd_dvd_right ..)
  · intro d h1 h2
    rw [e]; exact intMultiple_comb h1 h2 _ _
  · conv_lhs => rw [ea]
    exact (intMultiple_scale _ hd _ _).mpr (Int.dvd_lcm_left ..)
  · conv_lhs => rw [eb]
    exact (intMultiple_scale _ hd _ _).mpr (Int.dvd_lcm_right ..)

example : (ratExtendedGcdLcm (-3 / 4) (5 / 6)).1 = 1 / 12 := by decide +kernel

/-! ## C38 -/

/-- C38: `checked_exact_div` returns `q` exactly when the divisor is nonzero and `q * b = a`. -/
theorem C38_exact_div (a b q : Int) : checkedExactDivInt a b = some q ↔ b ≠ 0 ∧ q * b = a := by
  unfold checkedExactDivInt
  by_cases hb : b = 0
  · simp [hb]
  simp only [hb, if_false, ne_eq, not_false_eq_true, true_and]
  have hid := Int.tdiv_mul_add_tmod a b
  constructor
  · intro h
    split at h
    · next h0 =>
      simp only [Option.some.injEq] at h
      rw [← h]; linarith
    · simp at h
  · rintro rfl
    simp [hb]

/-- C38: and it returns `None` exactly when `b` is zero or does not divide `a`. -/
theorem C38_exact_div_none (a b : Int) : checkedExactDivInt a b = none ↔ b = 0 ∨ ¬ b ∣ a := by
  rw [Option.eq_none_iff_forall_ne_some]
  simp only [ne_eq, C38_exact_div, not_and]
  constructor
  · intro h
    by_cases hb : b = 0
    · exact Or.inl hb
    · right; rintro ⟨k, rfl⟩; exact h k hb (mul_comm _ _)
  · rintro (rfl | h) q hq
    · simp at hq
    · intro e; exact h ⟨q, by rw [← e, mul_comm]⟩

example : checkedExactDivInt (-12) 4 = some (-3) := by decide +kernel
example : checkedExactDivInt (-13) 4 = none := by decide +kernel

end Algebraics
