import Mathlib.Tactic.Linarith
import Verif.Lemmas.Quadratic

/-!
Comparison of quadratic numbers (`/repo/src/quadratic_numbers.rs:541-710`).
-/

namespace Algebraics

namespace Quad

/-- the root of the square and the square -/
theorem sqrt_facts (r : ℤ) (hr : 0 ≤ r) : 0 ≤ √(r : ℝ) ∧ √(r : ℝ) * √(r : ℝ) = r :=
  ⟨Real.sqrt_nonneg _, Real.mul_self_sqrt (by exact_mod_cast hr)⟩

theorem mul_self_lt_iff {x y : ℝ} (hx : 0 ≤ x) (hy : 0 ≤ y) : x < y ↔ x * x < y * y :=
  ⟨fun h => mul_self_lt_mul_self hx h, fun h => lt_of_mul_self_lt_mul_self₀ hy h⟩

/-- `n < 2 p √r` and `2 p √r < n` for `p ≤ 0` -/
theorem lt_two_mul (p r n : ℤ) (hr : 0 ≤ r) (hp : p ≤ 0) :
    ((n : ℝ) < 2 * p * √(r : ℝ) ↔ ¬ 0 < n ∧ r * (2 * p) * (2 * p) < n * n) ∧
    (2 * p * √(r : ℝ) < (n : ℝ) ↔ 0 < n ∨ r * (2 * p) * (2 * p) > n * n) := by
  obtain ⟨h0, h1⟩ := sqrt_facts r hr
  have hpR : (p : ℝ) ≤ 0 := by exact_mod_cast hp
  generalize √(r : ℝ) = U at *
  have h2 : 2 * p * U ≤ 0 := by nlinarith
  have hsq : (-(2 * p * U)) * (-(2 * p * U)) = ((r * (2 * p) * (2 * p) : ℤ) : ℝ) := by
    push_cast; rw [← h1]; ring
  have hnn : (-(n : ℝ)) * (-(n : ℝ)) = ((n * n : ℤ) : ℝ) := by push_cast; ring
  by_cases hn : 0 < n
  · have hnR : (0 : ℝ) < n := by exact_mod_cast hn
    refine ⟨⟨fun h => absurd h (by linarith), fun h => absurd hn h.1⟩,
      ⟨fun _ => Or.inl hn, fun _ => by linarith⟩⟩
  · have hnR : (n : ℝ) ≤ 0 := by exact_mod_cast not_lt.mp hn
    refine ⟨?_, ?_⟩
    · rw [← neg_lt_neg_iff, mul_self_lt_iff (by linarith) (by linarith), hsq, hnn, Int.cast_lt]
      exact ⟨fun h => ⟨hn, h⟩, fun h => h.2⟩
    · rw [← neg_lt_neg_iff, mul_self_lt_iff (by linarith) (by linarith), hsq, hnn, Int.cast_lt]
      exact ⟨fun h => Or.inr h, fun h => h.resolve_left hn⟩

theorem two_mul_lt_pos (p r n : ℤ) (hr : 0 ≤ r) (hp : 0 ≤ p) :
    2 * p * √(r : ℝ) < (n : ℝ) ↔ ¬ n < 0 ∧ r * (2 * p) * (2 * p) < n * n := by
  have h := (lt_two_mul (-p) r (-n) hr (by omega)).1
  have e : ((-n : ℤ) : ℝ) < 2 * ((-p : ℤ) : ℝ) * √(r : ℝ) ↔ 2 * p * √(r : ℝ) < (n : ℝ) := by
    push_cast
    constructor <;> intro h <;> linarith
  rw [e] at h
  rw [h]
  have e2 : r * (2 * -p) * (2 * -p) = r * (2 * p) * (2 * p) := by ring
  have e3 : -n * -n = n * n := by ring
  rw [e2, e3]
  constructor <;> rintro ⟨h1, h2⟩ <;> exact ⟨by omega, h2⟩

theorem sqrtTest_pos (p r q : ℤ) (hq : 0 < q) (hr : 0 ≤ r) :
    sqrtTest p r q = true ↔ (p : ℝ) + √(r : ℝ) < 0 := by
  unfold sqrtTest
  rw [if_pos hq, decide_eq_true_eq]
  obtain ⟨h0, h1⟩ := sqrt_facts r hr
  generalize √(r : ℝ) = U at *
  constructor
  · rintro ⟨h2, -, h3⟩
    have h3' : (p : ℝ) ≤ 0 := by exact_mod_cast not_lt.mp h3
    have h2' : U * U < (-p) * (-(p : ℝ)) := by
      have : (r : ℝ) < ((p * p : ℤ) : ℝ) := by exact_mod_cast h2
      push_cast at this; rw [h1]; linarith
    have := (mul_self_lt_iff h0 (by linarith)).mpr h2'
    linarith
  · intro h
    have h3 : (p : ℝ) < 0 := by linarith
    have h3' : p < 0 := by exact_mod_cast h3
    have h2 := (mul_self_lt_iff h0 (show (0 : ℝ) ≤ -p by linarith)).mp (by linarith)
    refine ⟨?_, by omega, by omega⟩
    have : (r : ℝ) < ((p * p : ℤ) : ℝ) := by push_cast; rw [← h1]; linarith
    exact_mod_cast this

theorem sqrtTest_neg (p r q : ℤ) (hq : q < 0) (hr : 0 ≤ r) :
    sqrtTest p r q = true ↔ 0 < (p : ℝ) + √(r : ℝ) := by
  unfold sqrtTest
  rw [if_neg (by omega)]
  obtain ⟨h0, h1⟩ := sqrt_facts r hr
  generalize √(r : ℝ) = U at *
  by_cases hp : 0 < p
  · rw [if_pos hp, decide_eq_true_eq]
    have : (0 : ℝ) < p := by exact_mod_cast hp
    exact ⟨fun _ => by linarith, fun _ => by omega⟩
  · rw [if_neg hp, decide_eq_true_eq]
    have h3 : (p : ℝ) ≤ 0 := by exact_mod_cast not_lt.mp hp
    have h4 := mul_self_lt_iff (show (0 : ℝ) ≤ -p by linarith) h0
    rw [h1] at h4
    have h5 : (r > p * p) ↔ (-(p : ℝ)) * (-(p : ℝ)) < r := by
      rw [gt_iff_lt, ← Int.cast_lt (R := ℝ)]; push_cast
      rw [neg_mul_neg]
    rw [h5, ← h4]
    constructor <;> intro h <;> linarith

/-- the square root of the discriminant, with the factor in the root -/
theorem sqrt_scale (D a : ℤ) : √((D * (a * a) : ℤ) : ℝ) = √(D : ℝ) * |(a : ℝ)| := by
  push_cast
  rw [Real.sqrt_mul' _ (mul_self_nonneg _), Real.sqrt_mul_self_eq_abs]

theorem lessArms_spec (x y : Quad) (hx : x.quadraticTerm ≠ 0) (hy : y.quadraticTerm ≠ 0)
    (hxD : 0 ≤ x.linearTerm ^ 2 - 4 * x.quadraticTerm * x.constantTerm)
    (hyD : 0 ≤ y.linearTerm ^ 2 - 4 * y.quadraticTerm * y.constantTerm)
    (h : ¬ (x.quadraticTerm < 0 ∧ y.quadraticTerm < 0)) :
    lessArms x y = true ↔ x.value < y.value := by
  rw [value_of_ne hx, value_of_ne hy]
  obtain ⟨c1, b1, a1⟩ := x
  obtain ⟨c2, b2, a2⟩ := y
  simp only at *
  have e1 : (b1 : ℝ) ^ 2 - 4 * a1 * c1 = ((b1 * b1 - 4 * a1 * c1 : ℤ) : ℝ) := by push_cast; ring
  have e2 : (b2 : ℝ) ^ 2 - 4 * a2 * c2 = ((b2 * b2 - 4 * a2 * c2 : ℤ) : ℝ) := by push_cast; ring
  have hxD : 0 ≤ b1 * b1 - 4 * a1 * c1 := by rwa [← sq]
  have hyD : 0 ≤ b2 * b2 - 4 * a2 * c2 := by rwa [← sq]
  rw [e1, e2]
  unfold lessArms
  simp only
  generalize b1 * b1 - 4 * a1 * c1 = D1 at *
  generalize b2 * b2 - 4 * a2 * c2 = D2 at *
  have hr1 : 0 ≤ D1 * (a2 * a2) := mul_nonneg hxD (mul_self_nonneg _)
  have hr2 : 0 ≤ D2 * (a1 * a1) := mul_nonneg hyD (mul_self_nonneg _)
  have s1 := sqrt_scale D1 a2
  have s2 := sqrt_scale D2 a1
  obtain ⟨f1, f2⟩ := sqrt_facts _ hr1
  obtain ⟨g1, g2⟩ := sqrt_facts _ hr2
  have ha1 : (a1 : ℝ) ≠ 0 := by exact_mod_cast hx
  have ha2 : (a2 : ℝ) ≠ 0 := by exact_mod_cast hy
  by_cases h1 : a1 < 0
  · have h2 : 0 < a2 := by omega
    have h1R : (a1 : ℝ) < 0 := by exact_mod_cast h1
    have h2R : (0 : ℝ) < a2 := by exact_mod_cast h2
    rw [if_neg (not_not.mpr h1)]
    rw [abs_of_neg h1R] at s2
    rw [abs_of_pos h2R] at s1
    have hgoal : (-(b1 : ℝ) + √(D1 : ℝ)) / (2 * a1) < (-(b2 : ℝ) + √(D2 : ℝ)) / (2 * a2) ↔
        -(((b2 * a1 - b1 * a2 : ℤ) : ℝ) + √((D2 * (a1 * a1) : ℤ) : ℝ)) < √((D1 * (a2 * a2) : ℤ) : ℝ) := by
      rw [div_lt_iff_of_neg (by linarith), div_mul_eq_mul_div, div_lt_iff₀ (by linarith), s1, s2]
      push_cast
      constructor <;> intro h <;> nlinarith
    rw [hgoal]
    by_cases ht : sqrtTest (b2 * a1 - b1 * a2) (D2 * (a1 * a1)) (-a2) = true
    · rw [if_pos ht]
      rw [sqrtTest_neg _ _ _ (by omega) hr2] at ht
      simp only [true_iff]
      linarith
    · rw [if_neg ht]
      rw [sqrtTest_neg _ _ _ (by omega) hr2, not_lt] at ht
      have hpR : ((b2 * a1 - b1 * a2 : ℤ) : ℝ) ≤ 0 := by linarith
      have hp : b2 * a1 - b1 * a2 ≤ 0 := by exact_mod_cast hpR
      rw [if_neg (by omega)]
      have key := (lt_two_mul (b2 * a1 - b1 * a2) (D2 * (a1 * a1))
        (D1 * (a2 * a2) - (b2 * a1 - b1 * a2) * (b2 * a1 - b1 * a2) - D2 * (a1 * a1)) hr2 hp).2
      rw [mul_self_lt_iff (by linarith) f1, f2]
      have e : -(((b2 * a1 - b1 * a2 : ℤ) : ℝ) + √((D2 * (a1 * a1) : ℤ) : ℝ)) *
          -(((b2 * a1 - b1 * a2 : ℤ) : ℝ) + √((D2 * (a1 * a1) : ℤ) : ℝ)) < ((D1 * (a2 * a2) : ℤ) : ℝ) ↔
          2 * ((b2 * a1 - b1 * a2 : ℤ) : ℝ) * √((D2 * (a1 * a1) : ℤ) : ℝ) <
          ((D1 * (a2 * a2) - (b2 * a1 - b1 * a2) * (b2 * a1 - b1 * a2) - D2 * (a1 * a1) : ℤ) : ℝ) := by
        generalize √((D2 * (a1 * a1) : ℤ) : ℝ) = U at *
        rw [Int.cast_sub (_ - _) (D2 * (a1 * a1)), ← g2, Int.cast_sub _ ((b2 * a1 - b1 * a2) * _), Int.cast_mul (b2 * a1 - b1 * a2)]
        constructor <;> intro h <;> nlinarith
      rw [e, key]
      by_cases hn : 0 < D1 * (a2 * a2) - (b2 * a1 - b1 * a2) * (b2 * a1 - b1 * a2) - D2 * (a1 * a1)
      · rw [if_pos hn]; exact ⟨fun _ => Or.inl hn, fun _ => rfl⟩
      · rw [if_neg hn, decide_eq_true_eq]
        exact ⟨fun h => Or.inr h, fun h => h.resolve_left hn⟩
  · have h1p : 0 < a1 := by omega
    have h1R : (0 : ℝ) < a1 := by exact_mod_cast h1p
    rw [if_pos h1]
    rw [abs_of_pos h1R] at s2
    by_cases h2 : a2 < 0
    · have h2R : (a2 : ℝ) < 0 := by exact_mod_cast h2
      rw [if_neg (not_not.mpr h2)]
      rw [abs_of_neg h2R] at s1
      have hgoal : (-(b1 : ℝ) + √(D1 : ℝ)) / (2 * a1) < (-(b2 : ℝ) + √(D2 : ℝ)) / (2 * a2) ↔
          √((D1 * (a2 * a2) : ℤ) : ℝ) < -(((b1 * a2 - b2 * a1 : ℤ) : ℝ) + √((D2 * (a1 * a1) : ℤ) : ℝ)) := by
        rw [lt_div_iff_of_neg (by linarith), div_mul_eq_mul_div, lt_div_iff₀ (by linarith), s1, s2]
        push_cast
        constructor <;> intro h <;> nlinarith
      rw [hgoal]
      by_cases ht : sqrtTest (b1 * a2 - b2 * a1) (D2 * (a1 * a1)) a2 = true
      · rw [if_pos ht]
        rw [sqrtTest_neg _ _ _ h2 hr2] at ht
        constructor
        · intro h; cases h
        · intro h; linarith
      · rw [if_neg ht]
        rw [sqrtTest_neg _ _ _ h2 hr2, not_lt] at ht
        have hpR : ((b1 * a2 - b2 * a1 : ℤ) : ℝ) ≤ 0 := by linarith
        have hp : b1 * a2 - b2 * a1 ≤ 0 := by exact_mod_cast hpR
        rw [if_neg (by omega)]
        have key := (lt_two_mul (b1 * a2 - b2 * a1) (D2 * (a1 * a1))
          (D1 * (a2 * a2) - (b1 * a2 - b2 * a1) * (b1 * a2 - b2 * a1) - D2 * (a1 * a1)) hr2 hp).1
        rw [mul_self_lt_iff f1 (by linarith), f2]
        have e : ((D1 * (a2 * a2) : ℤ) : ℝ) < -(((b1 * a2 - b2 * a1 : ℤ) : ℝ) + √((D2 * (a1 * a1) : ℤ) : ℝ)) *
            -(((b1 * a2 - b2 * a1 : ℤ) : ℝ) + √((D2 * (a1 * a1) : ℤ) : ℝ)) ↔
            ((D1 * (a2 * a2) - (b1 * a2 - b2 * a1) * (b1 * a2 - b2 * a1) - D2 * (a1 * a1) : ℤ) : ℝ) <
            2 * ((b1 * a2 - b2 * a1 : ℤ) : ℝ) * √((D2 * (a1 * a1) : ℤ) : ℝ) := by
          generalize √((D2 * (a1 * a1) : ℤ) : ℝ) = U at *
          rw [Int.cast_sub (_ - _) (D2 * (a1 * a1)), ← g2, Int.cast_sub _ ((b1 * a2 - b2 * a1) * _), Int.cast_mul (b1 * a2 - b2 * a1)]
          constructor <;> intro h <;> nlinarith
        rw [e, key]
        by_cases hn : 0 < D1 * (a2 * a2) - (b1 * a2 - b2 * a1) * (b1 * a2 - b2 * a1) - D2 * (a1 * a1)
        · rw [if_pos hn]; exact ⟨fun h => (by cases h), fun h => absurd hn h.1⟩
        · rw [if_neg hn, decide_eq_true_eq]
          exact ⟨fun h => ⟨hn, h⟩, fun h => h.2⟩
    · have h2p : 0 < a2 := by omega
      have h2R : (0 : ℝ) < a2 := by exact_mod_cast h2p
      rw [if_pos h2]
      rw [abs_of_pos h2R] at s1
      have hgoal : (-(b1 : ℝ) + √(D1 : ℝ)) / (2 * a1) < (-(b2 : ℝ) + √(D2 : ℝ)) / (2 * a2) ↔
          ((b2 * a1 - b1 * a2 : ℤ) : ℝ) + √((D1 * (a2 * a2) : ℤ) : ℝ) < √((D2 * (a1 * a1) : ℤ) : ℝ) := by
        rw [div_lt_div_iff₀ (by linarith) (by linarith), s1, s2]
        push_cast
        constructor <;> intro h <;> nlinarith
      rw [hgoal]
      by_cases ht : sqrtTest (b2 * a1 - b1 * a2) (D1 * (a2 * a2)) a1 = true
      · rw [if_pos ht]
        rw [sqrtTest_pos _ _ _ h1p hr1] at ht
        simp only [true_iff]
        linarith
      · rw [if_neg ht]
        rw [sqrtTest_pos _ _ _ h1p hr1, not_lt] at ht
        rw [mul_self_lt_iff ht g1, g2]
        have e : (((b2 * a1 - b1 * a2 : ℤ) : ℝ) + √((D1 * (a2 * a2) : ℤ) : ℝ)) *
            (((b2 * a1 - b1 * a2 : ℤ) : ℝ) + √((D1 * (a2 * a2) : ℤ) : ℝ)) < ((D2 * (a1 * a1) : ℤ) : ℝ) ↔
            2 * ((b2 * a1 - b1 * a2 : ℤ) : ℝ) * √((D1 * (a2 * a2) : ℤ) : ℝ) <
            ((D2 * (a1 * a1) - D1 * (a2 * a2) - (b2 * a1 - b1 * a2) * (b2 * a1 - b1 * a2) : ℤ) : ℝ) := by
          generalize √((D1 * (a2 * a2) : ℤ) : ℝ) = U at *
          rw [Int.cast_sub (_ - _) ((b2 * a1 - b1 * a2) * _), Int.cast_sub _ (D1 * (a2 * a2)), ← f2, Int.cast_mul (b2 * a1 - b1 * a2)]
          constructor <;> intro h <;> nlinarith
        rw [e]
        by_cases hp : b2 * a1 - b1 * a2 < 0
        · rw [if_pos hp, (lt_two_mul _ _ _ hr1 hp.le).2]
          by_cases hn : 0 < D2 * (a1 * a1) - D1 * (a2 * a2) - (b2 * a1 - b1 * a2) * (b2 * a1 - b1 * a2)
          · rw [if_pos hn]; exact ⟨fun _ => Or.inl hn, fun _ => rfl⟩
          · rw [if_neg hn, decide_eq_true_eq, ← mul_assoc]
            exact ⟨fun h => Or.inr h, fun h => h.resolve_left hn⟩
        · rw [if_neg hp, two_mul_lt_pos _ _ _ hr1 (by omega)]
          by_cases hn : D2 * (a1 * a1) - D1 * (a2 * a2) - (b2 * a1 - b1 * a2) * (b2 * a1 - b1 * a2) < 0
          · rw [if_pos hn]; exact ⟨fun h => (by cases h), fun h => absurd hn h.1⟩
          · rw [if_neg hn, decide_eq_true_eq, ← mul_assoc]
            exact ⟨fun h => ⟨hn, h⟩, fun h => h.2⟩

theorem neg_value (x : Quad) : x.neg.value = -x.value := by
  unfold value neg
  simp only [neg_eq_zero]
  by_cases h : x.quadraticTerm = 0
  · rw [if_pos h, if_pos h]; push_cast; ring
  · rw [if_neg h, if_neg h]
    push_cast
    rw [show (x.linearTerm : ℝ) ^ 2 - 4 * -x.quadraticTerm * -x.constantTerm =
      (x.linearTerm : ℝ) ^ 2 - 4 * x.quadraticTerm * x.constantTerm by ring, mul_neg, div_neg]

theorem neg_canonical {x : Quad} (h : x.Canonical) : x.neg.Canonical := by
  have e : x.linearTerm ^ 2 - 4 * -x.quadraticTerm * -x.constantTerm =
      x.linearTerm ^ 2 - 4 * x.quadraticTerm * x.constantTerm := by ring
  rcases h with ⟨h1, h2, h3⟩ | ⟨h1, h2, h3, h4⟩
  · refine Or.inl ⟨by show -x.quadraticTerm = 0; omega, h2, ?_⟩
    show Int.gcd (-x.constantTerm) x.linearTerm = 1
    rw [Int.neg_gcd]; exact h3
  · refine Or.inr ⟨by show -x.quadraticTerm ≠ 0; omega, ?_, ?_, ?_⟩
    · show 0 ≤ x.linearTerm ^ 2 - 4 * -x.quadraticTerm * -x.constantTerm
      rw [e]; exact h2
    · show ¬ IsSquare (x.linearTerm ^ 2 - 4 * -x.quadraticTerm * -x.constantTerm)
      rw [e]; exact h3
    · show Int.gcd (Int.gcd (-x.constantTerm) x.linearTerm) (-x.quadraticTerm) = 1
      rw [Int.neg_gcd, Int.gcd_neg]; exact h4

theorem less_spec (x y : Quad) (hx : x.quadraticTerm ≠ 0) (hy : y.quadraticTerm ≠ 0)
    (hxD : 0 ≤ x.linearTerm ^ 2 - 4 * x.quadraticTerm * x.constantTerm)
    (hyD : 0 ≤ y.linearTerm ^ 2 - 4 * y.quadraticTerm * y.constantTerm) :
    less x y = true ↔ x.value < y.value := by
  unfold less
  by_cases h : x.quadraticTerm < 0 ∧ y.quadraticTerm < 0
  · rw [if_pos h, lessArms_spec y.neg x.neg (by show -y.quadraticTerm ≠ 0; omega)
      (by show -x.quadraticTerm ≠ 0; omega)
      (by show 0 ≤ y.linearTerm ^ 2 - 4 * -y.quadraticTerm * -y.constantTerm; linarith)
      (by show 0 ≤ x.linearTerm ^ 2 - 4 * -x.quadraticTerm * -x.constantTerm; linarith)
      (by show ¬ (-y.quadraticTerm < 0 ∧ -x.quadraticTerm < 0); omega), neg_value, neg_value, neg_lt_neg_iff]
  · rw [if_neg h]; exact lessArms_spec x y hx hy hxD hyD h

theorem toRatio_of_ne {x : Quad} (h : x.quadraticTerm ≠ 0) : x.toRatio = none := by
  simp [toRatio, toTupleRatio, isRatio, h]

theorem toRatio_of_eq {x : Quad} (h : x.quadraticTerm = 0) :
    ∃ q, x.toRatio = some q ∧ (q : ℝ) = x.value := by
  refine ⟨_, by simp [toRatio, toTupleRatio, isRatio, h]; rfl, ?_⟩
  unfold value; rw [if_pos h]; push_cast; rfl

theorem ltRat_spec (x : Quad) (hx : x.HasValue) (q : ℚ) : x.ltRat q = true ↔ x.value < q := by
  unfold ltRat
  by_cases ha : x.quadraticTerm = 0
  · obtain ⟨l, h1, h2⟩ := toRatio_of_eq ha
    rw [h1]
    simp only [decide_eq_true_eq]
    rw [← h2, Rat.cast_lt]
  · rw [toRatio_of_ne ha]
    simp only
    have hD := hx.2
    have haR : (x.quadraticTerm : ℝ) ≠ 0 := by exact_mod_cast ha
    rw [value_of_ne ha]
    obtain ⟨c, b, a⟩ := x
    simp only at *
    have hDR : (0 : ℝ) ≤ (b : ℝ) ^ 2 - 4 * a * c := by exact_mod_cast hD
    have hS0 := Real.sqrt_nonneg ((b : ℝ) ^ 2 - 4 * a * c)
    have hS := Real.mul_self_sqrt hDR
    generalize √((b : ℝ) ^ 2 - 4 * a * c) = S at *
    have hd : (0 : ℤ) < q.den := by exact_mod_cast q.den_pos
    have hdR : (0 : ℝ) < (q.den : ℝ) := by exact_mod_cast hd
    have hq : (q : ℝ) = (q.num : ℝ) / (q.den : ℝ) := Rat.cast_def q
    have hP : (c * q.den * q.den > -q.num * (a * q.num + b * q.den)) ↔
        0 < (a : ℝ) * q ^ 2 + b * q + c := by
      rw [gt_iff_lt, ← Int.cast_lt (R := ℝ), hq]
      have : (a : ℝ) * ((q.num : ℝ) / (q.den : ℝ)) ^ 2 + b * ((q.num : ℝ) / (q.den : ℝ)) + c =
          (a * q.num ^ 2 + b * q.num * q.den + c * q.den ^ 2) / (q.den : ℝ) ^ 2 := by
        field_simp
      rw [this, div_pos_iff_of_pos_right (by positivity)]
      push_cast
      constructor <;> intro h <;> nlinarith
    by_cases han : a < 0
    · have hanR : (a : ℝ) < 0 := by exact_mod_cast han
      rw [if_pos han]
      have hL : (b * (q.den : ℤ) < 2 * |a| * q.num) ↔ (b : ℝ) < -2 * a * q := by
        rw [abs_of_neg han, ← Int.cast_lt (R := ℝ), hq]
        push_cast
        rw [mul_div_assoc', lt_div_iff₀ hdR]
        constructor <;> intro h <;> linarith
      rw [div_lt_iff_of_neg (by linarith)]
      by_cases h1 : b * (q.den : ℤ) < 2 * |a| * q.num
      · rw [if_pos h1]
        rw [hL] at h1
        simp only [true_iff]
        linarith
      · rw [if_neg h1, decide_eq_true_eq, hP]
        rw [hL, not_lt] at h1
        have h2 : (q : ℝ) * (2 * a) < -b + S ↔ b + 2 * a * q < S := by
          constructor <;> intro h <;> linarith
        rw [h2, mul_self_lt_iff (by linarith) hS0, hS]
        constructor <;> intro h <;> nlinarith
    · have hap : 0 < a := by omega
      have hapR : (0 : ℝ) < a := by exact_mod_cast hap
      rw [if_neg han]
      have hL : (b * (q.den : ℤ) > -2 * |a| * q.num) ↔ -2 * a * q < (b : ℝ) := by
        rw [abs_of_pos hap, gt_iff_lt, ← Int.cast_lt (R := ℝ), hq]
        push_cast
        rw [mul_div_assoc', div_lt_iff₀ hdR]
      rw [div_lt_iff₀ (by linarith)]
      by_cases h1 : b * (q.den : ℤ) > -2 * |a| * q.num
      · rw [if_pos h1, decide_eq_true_eq, hP]
        rw [hL] at h1
        have h2 : -(b : ℝ) + S < q * (2 * a) ↔ S < b + 2 * a * q := by
          constructor <;> intro h <;> linarith
        rw [h2, mul_self_lt_iff hS0 (by linarith), hS]
        constructor <;> intro h <;> nlinarith
      · rw [if_neg h1]
        rw [hL, not_lt] at h1
        constructor
        · intro h; cases h
        · intro h; linarith

end Quad

end Algebraics
