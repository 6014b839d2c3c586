import Verif.Lemmas.QuadraticCmp
import Verif.Lemmas.Poly

/-!
# C53, C60: quadratic numbers
-/

namespace Algebraics

namespace Quad

/-- **C53**: `new` returns `None` exactly when the polynomial stands for no real number. Otherwise it
returns the lowest terms of the number that the polynomial stands for. It never panics. -/
theorem C53_new (p : Quad) :
    (¬ p.HasValue → p.new = some none) ∧
    (p.HasValue → ∃ x, p.new = some (some x) ∧ x.Canonical ∧ x.value = p.value) := by
  unfold new
  rw [discriminant_eq]
  constructor
  · intro h
    rw [if_pos]
    unfold HasValue at h
    by_contra hc
    push Not at hc
    exact h ⟨fun h1 h2 => hc.1 h1 h2, hc.2⟩
  · intro h
    obtain ⟨y, h1, h2, h3⟩ := intoReduced_spec p h
    rw [if_neg, h1]
    · exact ⟨y, rfl, h2, h3⟩
    · push Not
      exact ⟨fun h1 h2 => h.1 h1 h2, h.2⟩

/-- **C53**: the polynomial and its negation stand for the two roots, and nothing else is a root. With a
positive leading coefficient the negation stands for the smaller one. -/
theorem C53_roots (p : Quad) (ha : p.quadraticTerm ≠ 0) (hp : p.HasValue) :
    (∀ t : ℝ, (p.quadraticTerm : ℝ) * t ^ 2 + p.linearTerm * t + p.constantTerm = 0 ↔
      t = p.value ∨ t = p.swappedRoots.value) ∧
    (0 < p.quadraticTerm → p.swappedRoots.value ≤ p.value) ∧
    (p.quadraticTerm < 0 → p.value ≤ p.swappedRoots.value) := by
  have ha' : p.swappedRoots.quadraticTerm ≠ 0 := by show -p.quadraticTerm ≠ 0; omega
  rw [value_of_ne ha, value_of_ne ha']
  have hD := hp.2
  obtain ⟨c, b, a⟩ := p
  simp only [swappedRoots] at *
  have haR : (a : ℝ) ≠ 0 := by exact_mod_cast ha
  have hDR : (0 : ℝ) ≤ (b : ℝ) ^ 2 - 4 * a * c := by exact_mod_cast hD
  push_cast
  rw [show (-(b : ℝ)) ^ 2 - 4 * -a * -c = (b : ℝ) ^ 2 - 4 * a * c by ring]
  have hS0 := Real.sqrt_nonneg ((b : ℝ) ^ 2 - 4 * a * c)
  have hS := Real.mul_self_sqrt hDR
  generalize √((b : ℝ) ^ 2 - 4 * a * c) = S at *
  refine ⟨fun t => ?_, fun h => ?_, fun h => ?_⟩
  · rw [eq_div_iff (by simpa using haR), eq_div_iff (by simpa using haR)]
    have key : (a : ℝ) * t ^ 2 + b * t + c = 0 ↔
        (t * (2 * a) - (-b + S)) * (t * (2 * -a) - (- -b + S)) = 0 := by
      have : (t * (2 * a) - (-b + S)) * (t * (2 * -a) - (- -b + S)) =
          -(4 * a) * ((a : ℝ) * t ^ 2 + b * t + c) := by linear_combination hS
      rw [this, mul_eq_zero]
      simp [haR]
    rw [key, mul_eq_zero, sub_eq_zero, sub_eq_zero]
  · have hR : (0 : ℝ) < a := by exact_mod_cast h
    rw [div_le_iff_of_neg (by linarith), div_mul_eq_mul_div, div_le_iff₀ (by linarith)]
    nlinarith
  · have hR : (a : ℝ) < 0 := by exact_mod_cast h
    rw [div_le_iff_of_neg (by linarith), div_mul_eq_mul_div, div_le_iff₀ (by linarith)]
    nlinarith

/-- **C53**: the conversions from integers and fractions, and the lowest terms they are kept in. -/
theorem C53_from (n d : ℤ) :
    ((fromInteger n).Canonical ∧ (fromInteger n).value = n) ∧
    (fromRatio n 0 = none ∧ fromRatioChecked n 0 = none) ∧
    (d ≠ 0 → ∃ x, fromRatio n d = some x ∧ fromRatioChecked n d = some x ∧ x.Canonical ∧
      x.value = (n : ℝ) / d) := by
  refine ⟨⟨Or.inl ⟨rfl, by simp [fromInteger, fromNegatedInteger],
    by simp [fromInteger, fromNegatedInteger]⟩,
    by simp [fromInteger, fromNegatedInteger, value]⟩, ⟨rfl, rfl⟩, fun hd => ?_⟩
  obtain ⟨y, h1, h2, h3⟩ := fromRatio_spec n d hd
  exact ⟨y, h1, h1, h2, h3⟩

/-- **C53**: equal values have equal representations, so the derived `==` compares the values. -/
theorem C53_eq (x y : Quad) (hx : x.Canonical) (hy : y.Canonical) : x = y ↔ x.value = y.value :=
  ⟨fun h => by rw [h], canonical_unique hx hy⟩

theorem fromInteger_canonical (n : ℤ) : (fromInteger n).Canonical := ((C53_from n 1).1).1

theorem fromInteger_value (n : ℤ) : (fromInteger n).value = n := ((C53_from n 1).1).2

/-- **C53**: the tests for zero and one. -/
theorem C53_is_zero_one (x : Quad) (hx : x.Canonical) :
    (x.isZero = true ↔ x.value = 0) ∧ (x.isOne = true ↔ x.value = 1) ∧
    default.Canonical ∧ default.value = 0 := by
  have h0 : x.isZero = true ↔ x = fromInteger 0 := by
    obtain ⟨c, b, a⟩ := x
    simp [isZero, fromInteger, fromNegatedInteger]
  have h1 : x.isOne = true ↔ x = fromInteger 1 := by
    obtain ⟨c, b, a⟩ := x
    simp [isOne, fromInteger, fromNegatedInteger]
  refine ⟨?_, ?_, fromInteger_canonical 0, by simp [default, value]⟩
  · rw [h0, C53_eq _ _ hx (fromInteger_canonical 0), fromInteger_value, Int.cast_zero]
  · rw [h1, C53_eq _ _ hx (fromInteger_canonical 1), fromInteger_value, Int.cast_one]

theorem canonical_toRatio {x : Quad} (hx : x.Canonical) (q : ℚ) :
    x.toRatio = some q ↔ x.value = q := by
  by_cases ha : x.quadraticTerm = 0
  · obtain ⟨l, h1, h2⟩ := toRatio_of_eq ha
    rw [h1, ← h2, Rat.cast_inj, Option.some.injEq]
  · rw [toRatio_of_ne ha]
    constructor
    · intro h; cases h
    · intro h
      exact absurd ⟨q, h.symm⟩ (value_irrational hx ha)

/-- **C53**: the conversions to rational numbers and integers: they succeed exactly for the numbers that
are rational and integer, with the right result. -/
theorem C53_to (x : Quad) (hx : x.Canonical) :
    (∀ q : ℚ, x.toRatio = some q ↔ x.value = q) ∧ (∀ n : ℤ, x.toInteger = some n ↔ x.value = n) ∧
    (x.isRatio = true ↔ ∃ q : ℚ, x.value = q) ∧ (x.isInteger = true ↔ ∃ n : ℤ, x.value = n) ∧
    (∀ q : ℚ, x.eqRat q = true ↔ x.value = q) := by
  have hto := canonical_toRatio hx
  have hint : ∀ n : ℤ, x.toInteger = some n ↔ x.value = n := by
    intro n
    have h1 : x.toInteger = some n ↔ x = fromInteger n := by
      obtain ⟨c, b, a⟩ := x
      by_cases h : a = 0 ∧ b = 1
      · obtain ⟨rfl, rfl⟩ := h
        simp [toInteger, isInteger, isRatio, fromInteger, fromNegatedInteger]
        omega
      · have h' : ¬ (b = 1 ∧ a = 0) := fun hh => h ⟨hh.2, hh.1⟩
        simp [toInteger, isInteger, isRatio, fromInteger, fromNegatedInteger, h, h']
    rw [h1, C53_eq _ _ hx (fromInteger_canonical n), fromInteger_value]
  refine ⟨hto, hint, ?_, ?_, ?_⟩
  · constructor
    · intro h
      obtain ⟨q, h1, h2⟩ := toRatio_of_eq (x := x) (by simpa [isRatio] using h)
      exact ⟨q, h2.symm⟩
    · rintro ⟨q, hq⟩
      by_contra h
      have ha : x.quadraticTerm ≠ 0 := by simpa [isRatio] using h
      exact value_irrational hx ha ⟨q, hq.symm⟩
  · constructor
    · intro h
      exact ⟨-x.constantTerm, (hint _).mp (by unfold toInteger; rw [if_pos h])⟩
    · rintro ⟨n, hn⟩
      have := (hint n).mpr hn
      unfold toInteger at this
      by_contra h
      rw [if_neg h] at this
      cases this
  · intro q
    have hc : Canonical ⟨-q.num, q.den, 0⟩ := by
      refine Or.inl ⟨rfl, Int.natCast_pos.mpr q.den_pos, ?_⟩
      show Int.gcd (-q.num) q.den = 1
      rw [Int.neg_gcd]; exact q.reduced
    have hv : value ⟨-q.num, q.den, 0⟩ = q := by
      simp only [value, if_true]
      push_cast
      rw [neg_neg]
      exact (Rat.cast_def q).symm
    have h1 : x.eqRat q = true ↔ x = ⟨-q.num, q.den, 0⟩ := by
      obtain ⟨c, b, a⟩ := x
      simp [eqRat, isRatio]
      constructor
      · rintro ⟨h1, h2, h3⟩; exact ⟨by omega, h2, h1⟩
      · rintro ⟨h1, h2, h3⟩; exact ⟨h3, h2, by omega⟩
    rw [h1, C53_eq _ _ hx hc, hv]

/-- **C53**: negation. -/
theorem C53_neg (x : Quad) (hx : x.Canonical) : x.neg.Canonical ∧ x.neg.value = -x.value :=
  ⟨neg_canonical hx, neg_value x⟩

/-- **C53**: the sign tests. -/
theorem C53_sign (x : Quad) (hx : x.Canonical) :
    (x.isPositive = true ↔ 0 < x.value) ∧ (x.isNegative = true ↔ x.value < 0) := by
  have hpos : x.isPositive = true ↔ 0 < x.value := by
    unfold isPositive
    by_cases ha : x.quadraticTerm = 0
    · rw [if_pos ha, decide_eq_true_eq]
      rcases hx with ⟨-, h2, -⟩ | ⟨h1, -⟩
      · unfold value
        rw [if_pos ha, div_pos_iff_of_pos_right (by exact_mod_cast h2), neg_pos]
        norm_cast
      · exact absurd ha h1
    · rw [if_neg ha, value_of_ne ha]
      have hD := hx.hasValue.2
      have hns : ¬ IsSquare (x.linearTerm ^ 2 - 4 * x.quadraticTerm * x.constantTerm) := by
        rcases hx with ⟨h1, -⟩ | ⟨-, -, h3, -⟩
        · exact absurd h1 ha
        · exact h3
      obtain ⟨c, b, a⟩ := x
      simp only at *
      have hDR : (0 : ℝ) ≤ (b : ℝ) ^ 2 - 4 * a * c := by exact_mod_cast hD
      have hD0 : (0 : ℝ) < (b : ℝ) ^ 2 - 4 * a * c := by
        refine lt_of_le_of_ne hDR fun h => hns ?_
        have : b ^ 2 - 4 * a * c = 0 := by exact_mod_cast h.symm
        rw [this]
        exact IsSquare.zero
      have hS0 := Real.sqrt_pos.mpr hD0
      have hS := Real.mul_self_sqrt hDR
      have hc : c ≠ 0 := by
        rintro rfl
        exact hns ⟨b, by ring⟩
      generalize √((b : ℝ) ^ 2 - 4 * a * c) = S at *
      by_cases han : a < 0
      · have hR : (a : ℝ) < 0 := by exact_mod_cast han
        have h2 : 0 < (-(b : ℝ) + S) / (2 * a) ↔ S < b := by
          rw [lt_div_iff_of_neg (by linarith), zero_mul]
          constructor <;> intro h <;> linarith
        rw [h2]
        by_cases hb : b < 0
        · have hbR : (b : ℝ) < 0 := by exact_mod_cast hb
          rw [if_pos hb]
          simp only [han, decide_true, Bool.not_true, Bool.false_eq_true, false_iff, not_lt]
          linarith
        · have hbR : (0 : ℝ) ≤ b := by exact_mod_cast not_lt.mp hb
          rw [if_neg hb, decide_eq_true_eq, mul_self_lt_iff hS0.le hbR, hS]
          constructor
          · intro h
            have : (c : ℝ) < 0 := by exact_mod_cast h
            nlinarith
          · intro h
            by_contra hcn
            have : (0 : ℝ) ≤ c := by exact_mod_cast not_lt.mp hcn
            nlinarith
      · have hap : (0 : ℝ) < a := by exact_mod_cast lt_of_le_of_ne (not_lt.mp han) (Ne.symm ha)
        have h2 : 0 < (-(b : ℝ) + S) / (2 * a) ↔ b < S := by
          rw [lt_div_iff₀ (by linarith), zero_mul]
          constructor <;> intro h <;> linarith
        rw [h2]
        by_cases hb : b < 0
        · have hbR : (b : ℝ) < 0 := by exact_mod_cast hb
          rw [if_pos hb]
          simp only [han, decide_false, Bool.not_false, true_iff]
          linarith
        · have hbR : (0 : ℝ) ≤ b := by exact_mod_cast not_lt.mp hb
          rw [if_neg hb, decide_eq_true_eq, mul_self_lt_iff hbR hS0.le, hS]
          constructor
          · intro h
            have : (c : ℝ) < 0 := by exact_mod_cast h
            nlinarith
          · intro h
            by_contra hcn
            have : (0 : ℝ) ≤ c := by exact_mod_cast not_lt.mp hcn
            nlinarith
  refine ⟨hpos, ?_⟩
  unfold isNegative
  have hz := (C53_is_zero_one x hx).1
  by_cases h0 : x.isZero = true
  · rw [if_pos h0, hz.mp h0]; simp
  · rw [if_neg h0, Bool.not_eq_true', ← Bool.not_eq_true, hpos, not_lt]
    exact ⟨fun h => lt_of_le_of_ne h fun h1 => h0 (hz.mpr h1), fun h => h.le⟩

/-- **C53**: absolute value and `signum`. -/
theorem C53_abs_signum (x : Quad) (hx : x.Canonical) :
    x.abs.Canonical ∧ x.abs.value = |x.value| ∧
    x.signum.Canonical ∧ x.signum.value = SignType.sign x.value := by
  obtain ⟨hp, hn⟩ := C53_sign x hx
  have hz := (C53_is_zero_one x hx).1
  refine ⟨?_, ?_, ?_, ?_⟩
  · unfold abs
    by_cases h : x.isNegative = true
    · rw [if_pos h]; exact neg_canonical hx
    · rw [if_neg h]; exact hx
  · unfold abs
    by_cases h : x.isNegative = true
    · rw [if_pos h, neg_value, abs_of_neg (hn.mp h)]
    · rw [if_neg h]
      rw [hn, not_lt] at h
      rw [abs_of_nonneg h]
  · unfold signum
    by_cases h : x.isZero = true
    · rw [if_pos h]; exact fromInteger_canonical _
    · rw [if_neg h]
      by_cases h : x.isPositive = true
      · rw [if_pos h]; exact fromInteger_canonical _
      · rw [if_neg h]; exact fromInteger_canonical _
  · unfold signum
    by_cases h : x.isZero = true
    · rw [if_pos h, fromInteger_value, hz.mp h]; simp
    · rw [if_neg h]
      by_cases h1 : x.isPositive = true
      · rw [if_pos h1, fromInteger_value, sign_pos (hp.mp h1)]; simp
      · rw [if_neg h1, fromInteger_value, sign_neg]
        · simp
        · rw [hp, not_lt] at h1
          exact lt_of_le_of_ne h1 fun h2 => h (hz.mpr h2)

theorem addRational_spec (n d : ℤ) (hd : d ≠ 0) (x : Quad) (hx : x.HasValue) :
    ∃ z, addRational n d x = some z ∧ z.Canonical ∧ z.value = (n : ℝ) / d + x.value := by
  have hdR : (d : ℝ) ≠ 0 := by exact_mod_cast hd
  have hdd : 0 < d * d := mul_self_pos.mpr hd
  have hD : (x.linearTerm * (d * d) - 2 * x.quadraticTerm * (d * n)) ^ 2 - 4 * (x.quadraticTerm * (d * d)) *
      (x.constantTerm * (d * d) - x.linearTerm * (d * n) + x.quadraticTerm * (n * n)) =
      (d * d) ^ 2 * (x.linearTerm ^ 2 - 4 * x.quadraticTerm * x.constantTerm) := by ring
  unfold addRational
  obtain ⟨z, h1, h2, h3⟩ := intoReduced_spec
    ⟨x.constantTerm * (d * d) - x.linearTerm * (d * n) + x.quadraticTerm * (n * n),
      x.linearTerm * (d * d) - 2 * x.quadraticTerm * (d * n), x.quadraticTerm * (d * d)⟩ (by
    refine ⟨fun h => ?_, ?_⟩
    · simp only [mul_eq_zero, hd, or_false] at h
      simp only [h, mul_zero, zero_mul, sub_zero]
      exact mul_ne_zero (hx.1 h) hdd.ne'
    · simp only
      rw [hD]
      exact mul_nonneg (sq_nonneg _) hx.2)
  refine ⟨z, h1, h2, ?_⟩
  rw [h3]
  by_cases ha : x.quadraticTerm = 0
  · have hb : (x.linearTerm : ℝ) ≠ 0 := by exact_mod_cast hx.1 ha
    unfold value
    simp only [ha, zero_mul, if_true]
    push_cast
    field_simp
    ring
  · have haR : (x.quadraticTerm : ℝ) ≠ 0 := by exact_mod_cast ha
    rw [value_of_ne ha, value_of_ne (by simp [ha, hd])]
    simp only
    have hDR : ((x.linearTerm * (d * d) - 2 * x.quadraticTerm * (d * n) : ℤ) : ℝ) ^ 2 -
        4 * ((x.quadraticTerm * (d * d) : ℤ) : ℝ) *
        ((x.constantTerm * (d * d) - x.linearTerm * (d * n) + x.quadraticTerm * (n * n) : ℤ) : ℝ) =
        ((d : ℝ) * d) ^ 2 * ((x.linearTerm : ℝ) ^ 2 - 4 * x.quadraticTerm * x.constantTerm) := by
      push_cast; ring
    rw [hDR, Real.sqrt_mul (sq_nonneg _), Real.sqrt_sq (mul_self_nonneg _)]
    push_cast
    field_simp
    ring

theorem toTupleRatio_of_ne {x : Quad} (h : x.quadraticTerm ≠ 0) : x.toTupleRatio = none := by
  simp [toTupleRatio, isRatio, h]

theorem toTupleRatio_of_eq {x : Quad} (h : x.quadraticTerm = 0) :
    x.toTupleRatio = some (-x.constantTerm, x.linearTerm) := by
  simp [toTupleRatio, isRatio, h]

/-- **C53**: the sum of a rational and a quadratic number, in either order, is exact and in lowest
terms; no panic. -/
theorem C53_add_rational (x y : Quad) (hx : x.Canonical) (hy : y.Canonical)
    (h : (∃ q : ℚ, x.value = q) ∨ ∃ q : ℚ, y.value = q) :
    ∃ z, x.checkedAdd y = some (some z) ∧ z.Canonical ∧ z.value = x.value + y.value := by
  rw [← (C53_to x hx).2.2.1, ← (C53_to y hy).2.2.1] at h
  unfold checkedAdd
  by_cases ha : x.quadraticTerm = 0
  · rw [toTupleRatio_of_eq ha]
    have hb : x.linearTerm ≠ 0 := hx.hasValue.1 ha
    obtain ⟨z, h1, h2, h3⟩ := addRational_spec (-x.constantTerm) x.linearTerm hb y hy.hasValue
    refine ⟨z, by simp [h1], h2, ?_⟩
    rw [h3]
    congr 1
    unfold value
    rw [if_pos ha]; push_cast; rfl
  · have hya : y.quadraticTerm = 0 := by
      rcases h with h | h
      · exact absurd (by simpa [isRatio] using h) ha
      · simpa [isRatio] using h
    rw [toTupleRatio_of_ne ha, toTupleRatio_of_eq hya]
    have hb : y.linearTerm ≠ 0 := hy.hasValue.1 hya
    obtain ⟨z, h1, h2, h3⟩ := addRational_spec (-y.constantTerm) y.linearTerm hb x hx.hasValue
    refine ⟨z, by simp [h1], h2, ?_⟩
    rw [h3, add_comm]
    congr 1
    unfold value
    rw [if_pos hya]; push_cast; rfl

/-- **C53**: the same for differences. -/
theorem C53_sub_rational (x y : Quad) (hx : x.Canonical) (hy : y.Canonical)
    (h : (∃ q : ℚ, x.value = q) ∨ ∃ q : ℚ, y.value = q) :
    ∃ z, x.checkedSub y = some (some z) ∧ z.Canonical ∧ z.value = x.value - y.value := by
  unfold checkedSub
  obtain ⟨z, h1, h2, h3⟩ := C53_add_rational x y.neg hx (neg_canonical hy) (by
    rcases h with h | ⟨q, h⟩
    · exact Or.inl h
    · exact Or.inr ⟨-q, by rw [neg_value, h]; push_cast; rfl⟩)
  exact ⟨z, h1, h2, by rw [h3, neg_value, sub_eq_add_neg]⟩

/-- **C53**: comparison with a rational number. -/
theorem C53_cmp_rational (x : Quad) (hx : x.Canonical) (q : ℚ) :
    (x.ltRat q = true ↔ x.value < q) ∧
    (x.cmpRat q = .lt ↔ x.value < q) ∧ (x.cmpRat q = .eq ↔ x.value = q) ∧
    (x.cmpRat q = .gt ↔ (q : ℝ) < x.value) := by
  have hlt := ltRat_spec x hx.hasValue q
  refine ⟨hlt, ?_⟩
  unfold cmpRat
  by_cases ha : x.quadraticTerm = 0
  · obtain ⟨l, h1, h2⟩ := toRatio_of_eq ha
    rw [h1, ← h2]
    simp only [Rat.cast_lt, Rat.cast_inj]
    exact ⟨compare_lt_iff_lt, compare_eq_iff_eq, compare_gt_iff_gt⟩
  · rw [toRatio_of_ne ha]
    simp only
    have hne : x.value ≠ q := fun h => value_irrational hx ha ⟨q, h.symm⟩
    by_cases hl : x.ltRat q = true
    · rw [if_pos hl]
      rw [hlt] at hl
      exact ⟨⟨fun _ => hl, fun _ => rfl⟩, ⟨fun h => (by cases h), fun h => absurd h hne⟩,
        ⟨fun h => (by cases h), fun h => absurd h (not_lt.mpr hl.le)⟩⟩
    · rw [if_neg hl]
      rw [hlt] at hl
      exact ⟨⟨fun h => (by cases h), fun h => absurd h hl⟩, ⟨fun h => (by cases h), fun h => absurd h hne⟩,
        ⟨fun _ => lt_of_le_of_ne (not_lt.mp hl) (Ne.symm hne), fun _ => rfl⟩⟩

/-- **C53**: comparison of two quadratic numbers. -/
theorem C53_cmp (x y : Quad) (hx : x.Canonical) (hy : y.Canonical) :
    (x.cmp y = .lt ↔ x.value < y.value) ∧ (x.cmp y = .eq ↔ x.value = y.value) ∧
    (x.cmp y = .gt ↔ y.value < x.value) := by
  unfold cmp
  by_cases hya : y.quadraticTerm = 0
  · obtain ⟨q, h1, h2⟩ := toRatio_of_eq hya
    rw [h1, ← h2]
    exact (C53_cmp_rational x hx q).2
  · rw [toRatio_of_ne hya]
    by_cases hxa : x.quadraticTerm = 0
    · obtain ⟨q, h1, h2⟩ := toRatio_of_eq hxa
      rw [h1, ← h2]
      simp only
      obtain ⟨-, h3, h4, h5⟩ := C53_cmp_rational y hy q
      refine ⟨?_, ?_, ?_⟩
      · rw [← h5]; cases y.cmpRat q <;> simp
      · rw [eq_comm (a := (q : ℝ)), ← h4]; cases y.cmpRat q <;> simp
      · rw [← h3]; cases y.cmpRat q <;> simp
    · rw [toRatio_of_ne hxa]
      simp only
      have hl := less_spec x y hxa hya hx.hasValue.2 hy.hasValue.2
      have he := C53_eq x y hx hy
      by_cases h : x = y
      · rw [if_pos h, h]; simp
      · rw [if_neg h]
        rw [he] at h
        by_cases h1 : x.less y = true
        · rw [if_pos h1]
          rw [hl] at h1
          exact ⟨⟨fun _ => h1, fun _ => rfl⟩, ⟨fun h => (by cases h), fun h2 => absurd h2 h⟩,
            ⟨fun h => (by cases h), fun h => absurd h (not_lt.mpr h1.le)⟩⟩
        · rw [if_neg h1]
          rw [hl] at h1
          exact ⟨⟨fun h => (by cases h), fun h => absurd h h1⟩, ⟨fun h => (by cases h), fun h2 => absurd h2 h⟩,
            ⟨fun _ => lt_of_le_of_ne (not_lt.mp h1) (Ne.symm h), fun _ => rfl⟩⟩

/-- **C53**: the number is a root of the polynomial that the conversion to `Polynomial` returns. -/
theorem C53_polynomial (x : Quad) (hx : x.Canonical) : Polynomial.aeval x.value x.toPoly.toPoly = 0 := by
  rw [toPoly, Poly.toPoly_ofCoeffs]
  simp only [listPoly, map_add, map_mul, Polynomial.aeval_C, Polynomial.aeval_X, map_zero,
    algebraMap_int_eq, Int.coe_castRingHom]
  by_cases ha : x.quadraticTerm = 0
  · have hb : (x.linearTerm : ℝ) ≠ 0 := by exact_mod_cast hx.hasValue.1 ha
    unfold value
    rw [if_pos ha, ha]
    field_simp
    simp
  · have := value_root ha hx.hasValue.2
    linear_combination this

/-! ### C60: reciprocals and sums of irrational numbers -/

/-- **C60**, the part that holds: the reciprocal of a nonzero rational stands for the right number, and
zero has none. Missing: the result is not in lowest terms (see the next theorem), and for irrational
numbers the function is not implemented. -/
theorem C60_recip_partial (x : Quad) (hx : x.Canonical) (q : ℚ) (hq : x.value = q) :
    (q = 0 → x.checkedRecip = some none) ∧
    (q ≠ 0 → ∃ z, x.checkedRecip = some (some z) ∧ z.value = (x.value)⁻¹) := by
  have ha : x.quadraticTerm = 0 := by
    have := (C53_to x hx).2.2.1.mpr ⟨q, hq⟩
    simpa [isRatio] using this
  have hb : (x.linearTerm : ℝ) ≠ 0 := by exact_mod_cast hx.hasValue.1 ha
  have hv : x.value = -(x.constantTerm : ℝ) / x.linearTerm := by unfold value; rw [if_pos ha]
  have hc : x.constantTerm = 0 ↔ q = 0 := by
    rw [← Rat.cast_eq_zero (α := ℝ), ← hq, hv, div_eq_zero_iff, neg_eq_zero, Int.cast_eq_zero]
    simp [hb]
  unfold checkedRecip
  rw [if_pos (by simpa [isRatio] using ha)]
  unfold fromNegatedReducedRatioChecked
  constructor
  · intro h; rw [if_pos (hc.mpr h)]
  · intro h
    rw [if_neg fun h1 => h (hc.mp h1)]
    refine ⟨_, rfl, ?_⟩
    have hcR : (x.constantTerm : ℝ) ≠ 0 := by exact_mod_cast fun h1 => h (hc.mp h1)
    rw [hv]
    simp only [fromNegatedReducedRatio, value, if_true]
    field_simp

/-- **C60 is false of the code**: the reciprocal of every positive rational number has a negative
denominator, so `is_positive` denies that it is positive and it is never equal to the same number made by
`from_ratio`. -/
theorem C60_recip_false (x : Quad) (hx : x.Canonical) (q : ℚ) (hq : x.value = q) (h0 : 0 < q) :
    ∃ z, x.checkedRecip = some (some z) ∧ 0 < z.value ∧ z.isPositive = false ∧ z.isNegative = true ∧
      ∀ y : Quad, y.Canonical → y.value = z.value → y ≠ z := by
  obtain ⟨z, h1, h2⟩ := (C60_recip_partial x hx q hq).2 h0.ne'
  have hxv : 0 < x.value := by rw [hq]; exact_mod_cast h0
  have hzv : 0 < z.value := by rw [h2]; exact inv_pos.mpr hxv
  have ha : x.quadraticTerm = 0 := by
    have := (C53_to x hx).2.2.1.mpr ⟨q, hq⟩
    simpa [isRatio] using this
  have hb : 0 < x.linearTerm := by
    rcases hx with ⟨-, h2, -⟩ | ⟨h1, -⟩
    · exact h2
    · exact absurd ha h1
  have hc : x.constantTerm < 0 := by
    have := (C53_sign x hx).1.mpr hxv
    unfold isPositive at this
    rw [if_pos ha, decide_eq_true_eq] at this
    exact this
  have hz : z = ⟨x.linearTerm, x.constantTerm, 0⟩ := by
    unfold checkedRecip at h1
    rw [if_pos (by simpa [isRatio] using ha)] at h1
    unfold fromNegatedReducedRatioChecked at h1
    rw [if_neg hc.ne] at h1
    simp only [Option.some.injEq] at h1
    exact h1.symm
  have hp : z.isPositive = false := by
    rw [hz]
    simp [isPositive]
    omega
  refine ⟨z, h1, hzv, hp, ?_, ?_⟩
  · unfold isNegative
    rw [if_neg, hp]; rfl
    rw [hz]
    simp [isZero]
    omega
  · rintro y hy - rfl
    rcases hy with ⟨-, h2, -⟩ | ⟨h1, -⟩
    · rw [hz] at h2
      exact absurd h2 (not_lt.mpr hc.le)
    · rw [hz] at h1
      exact h1 rfl

/-- **C60 is false of the code**: the sum of two irrational quadratic numbers is never computed; the
function panics or reports that the sum is not a quadratic number. -/
theorem C60_add_never (x y : Quad) (hxi : Irrational x.value)
    (hyi : Irrational y.value) : ∀ z, x.checkedAdd y ≠ some (some z) := by
  have ha : x.quadraticTerm ≠ 0 := fun h => by
    obtain ⟨q, -, h2⟩ := toRatio_of_eq h
    exact hxi ⟨q, h2⟩
  have hb : y.quadraticTerm ≠ 0 := fun h => by
    obtain ⟨q, -, h2⟩ := toRatio_of_eq h
    exact hyi ⟨q, h2⟩
  intro z
  unfold checkedAdd
  rw [toTupleRatio_of_ne ha, toTupleRatio_of_ne hb]
  simp only
  cases addSubSqrts (x.discriminant * |y.quadraticTerm| * 2) (y.discriminant * |x.quadraticTerm| * 2) with
  | none => simp
  | some r => cases r <;> simp

theorem bigIntSqrt_eq (a s : ℤ) (h0 : 0 ≤ s) (h1 : s * s ≤ a) (h2 : a < (s + 1) * (s + 1)) :
    DFI.bigIntSqrt a = some s := by
  unfold DFI.bigIntSqrt
  have ha : 0 ≤ a := (mul_self_nonneg s).trans h1
  rw [if_neg (not_lt.mpr ha)]
  congr 1
  obtain ⟨t, rfl⟩ := Int.eq_ofNat_of_zero_le h0
  obtain ⟨b, rfl⟩ := Int.eq_ofNat_of_zero_le ha
  rw [Int.toNat_natCast]
  have : t = Nat.sqrt b := Nat.eq_sqrt.mpr ⟨by exact_mod_cast h1, by exact_mod_cast h2⟩
  rw [this]

theorem bigIntSqrt_sq {a : ℤ} (ha : 0 ≤ a) :
    ∃ s, DFI.bigIntSqrt a = some s ∧ 0 ≤ s ∧ (s * s = a ↔ IsSquare a) := by
  refine ⟨(Nat.sqrt a.toNat : ℕ), by unfold DFI.bigIntSqrt; rw [if_neg (not_lt.mpr ha)], by positivity, ?_⟩
  obtain ⟨b, rfl⟩ := Int.eq_ofNat_of_zero_le ha
  rw [Int.toNat_natCast]
  constructor
  · intro h; exact ⟨_, h.symm⟩
  · rintro ⟨r, hr⟩
    have h1 : b = r.natAbs * r.natAbs := by
      zify; rw [abs_mul_abs_self]; exact hr
    rw [h1, Nat.sqrt_eq]
    push_cast
    rfl

/-- **C60**: `add_sub_sqrts` of two numbers that are not negative. It gives two polynomials, the first with the
root `sqrt b - sqrt a` and the second with the root `sqrt a + sqrt b`, exactly if `a` or `a b` is a square.
(If only `b` is a square it reports that there is no such polynomial, because the second test compares with
`a` instead of `b`; the branch after that test is never taken.) A negative argument panics. -/
theorem C60_add_sub_sqrts (a b : ℤ) :
    (addSubSqrts a b = none ↔ a < 0 ∨ b < 0) ∧
    (0 ≤ a → 0 ≤ b → (addSubSqrts a b = some none ↔ ¬ IsSquare a ∧ ¬ IsSquare (a * b))) ∧
    ∀ p₁ p₂, addSubSqrts a b = some (some (p₁, p₂)) →
      (p₁.quadraticTerm = 1 ∧ p₂.quadraticTerm = 1) ∧
      (let x := Real.sqrt b - Real.sqrt a
       (p₁.quadraticTerm : ℝ) * x ^ 2 + p₁.linearTerm * x + p₁.constantTerm = 0) ∧
      (let x := Real.sqrt a + Real.sqrt b
       (p₂.quadraticTerm : ℝ) * x ^ 2 + p₂.linearTerm * x + p₂.constantTerm = 0) := by
  by_cases ha : a < 0
  · have : addSubSqrts a b = none := by unfold addSubSqrts; rw [if_pos ha]
    rw [this]
    exact ⟨by simp [ha], fun h => absurd h (not_le.mpr ha), by simp⟩
  by_cases hb : b < 0
  · have : addSubSqrts a b = none := by unfold addSubSqrts; rw [if_neg ha, if_pos hb]
    rw [this]
    exact ⟨by simp [hb], fun _ h => absurd h (not_le.mpr hb), by simp⟩
  have ha' := not_lt.mp ha
  have hb' := not_lt.mp hb
  have hra : (0 : ℝ) ≤ a := by exact_mod_cast ha'
  have hrb : (0 : ℝ) ≤ b := by exact_mod_cast hb'
  have sa := Real.sq_sqrt hra
  have sb := Real.sq_sqrt hrb
  have na := Real.sqrt_nonneg (a : ℝ)
  have nb := Real.sqrt_nonneg (b : ℝ)
  obtain ⟨s, s1, s2, s3⟩ := bigIntSqrt_sq ha'
  obtain ⟨t, t1, t2, t3⟩ := bigIntSqrt_sq hb'
  obtain ⟨u, u1, u2, u3⟩ := bigIntSqrt_sq (mul_nonneg ha' hb')
  have huR : (0 : ℝ) ≤ u := by exact_mod_cast u2
  have hsR : (0 : ℝ) ≤ s := by exact_mod_cast s2
  have heq : addSubSqrts a b = if s * s = a then some (some (addSubSqrtsPerfect a b s))
      else if t * t = a then some (some (addSubSqrtsPerfect b a t))
      else if u * u = a * b then
        some (some (⟨2 * u - (a + b), 0, 1⟩, ⟨-(2 * u) - (a + b), 0, 1⟩)) else some none := by
    unfold addSubSqrts
    rw [if_neg ha, if_neg hb, s1, t1, u1]
    simp only [Option.bind_eq_bind, Option.bind_some, Option.pure_def]
  rw [heq]
  by_cases h1 : s * s = a
  · rw [if_pos h1]
    refine ⟨by simp [ha, hb], fun _ _ => ?_, ?_⟩
    · simp [s3.mp h1]
    · intro p₁ p₂ h
      simp only [Option.some.injEq, addSubSqrtsPerfect, Prod.mk.injEq] at h
      obtain ⟨rfl, rfl⟩ := h
      have hs : Real.sqrt a = s := by
        rw [← h1]; push_cast; exact Real.sqrt_mul_self hsR
      refine ⟨⟨rfl, rfl⟩, ?_, ?_⟩
      · simp only
        push_cast
        rw [hs] at sa ⊢
        linear_combination sb - sa
      · simp only
        push_cast
        rw [hs] at sa ⊢
        linear_combination sb - sa
  rw [if_neg h1]
  have h2 : t * t ≠ a := fun h => h1 (s3.mpr ⟨t, h.symm⟩)
  rw [if_neg h2]
  have n1 : ¬ IsSquare a := fun h => h1 (s3.mpr h)
  by_cases h3 : u * u = a * b
  · rw [if_pos h3]
    refine ⟨by simp [ha, hb], fun _ _ => ?_, ?_⟩
    · simp [u3.mp h3]
    · intro p₁ p₂ h
      simp only [Option.some.injEq, Prod.mk.injEq] at h
      obtain ⟨rfl, rfl⟩ := h
      have hu : Real.sqrt a * Real.sqrt b = u := by
        rw [← Real.sqrt_mul hra, show (a : ℝ) * b = u * u by exact_mod_cast h3.symm]
        exact Real.sqrt_mul_self huR
      refine ⟨⟨rfl, rfl⟩, ?_, ?_⟩
      · simp only
        push_cast
        linear_combination sa + sb - 2 * hu
      · simp only
        push_cast
        linear_combination sa + sb + 2 * hu
  · rw [if_neg h3]
    exact ⟨by simp [ha, hb], fun _ _ => ⟨fun _ => ⟨n1, fun h => h3 (u3.mpr h)⟩, fun _ => rfl⟩, by simp⟩

/-- `sqrt 2` and `sqrt 8`: `sqrt 8 ± sqrt 2` are roots of `x^2 - 2` and `x^2 - 18`. -/
example : addSubSqrts 2 8 = some (some (⟨-2, 0, 1⟩, ⟨-18, 0, 1⟩)) := by
  unfold addSubSqrts
  rw [bigIntSqrt_eq 2 1 (by norm_num) (by norm_num) (by norm_num),
    bigIntSqrt_eq 8 2 (by norm_num) (by norm_num) (by norm_num),
    bigIntSqrt_eq (2 * 8) 4 (by norm_num) (by norm_num) (by norm_num)]
  decide

/-- `sqrt(2)`, the positive root of `x^2 - 2`. -/
def sqrtTwo : Quad := ⟨-2, 0, 1⟩

/-- `sqrt(2) / 2`, the positive root of `2 x^2 - 1`. -/
def halfSqrtTwo : Quad := ⟨-1, 0, 2⟩

theorem not_isSquare_eight : ¬ IsSquare (8 : ℤ) := by
  rintro ⟨r, hr⟩
  have h1 : r ≤ 2 := by nlinarith
  have h2 : -2 ≤ r := by nlinarith
  interval_cases r <;> omega

theorem sqrtTwo_canonical : sqrtTwo.Canonical :=
  Or.inr ⟨by decide, by decide, by
    have : sqrtTwo.linearTerm ^ 2 - 4 * sqrtTwo.quadraticTerm * sqrtTwo.constantTerm = 8 := by decide
    rw [this]; exact not_isSquare_eight, by decide⟩

theorem halfSqrtTwo_canonical : halfSqrtTwo.Canonical :=
  Or.inr ⟨by decide, by decide, by
    have : halfSqrtTwo.linearTerm ^ 2 - 4 * halfSqrtTwo.quadraticTerm * halfSqrtTwo.constantTerm = 8 := by
      decide
    rw [this]; exact not_isSquare_eight, by decide⟩

/-- `3 sqrt(2) / 2`, the positive root of `2 x^2 - 9`. -/
theorem sum_value : sqrtTwo.value + halfSqrtTwo.value = value ⟨-9, 0, 2⟩ := by
  simp only [value, sqrtTwo, halfSqrtTwo]
  norm_num
  rw [show (72 : ℝ) = 3 ^ 2 * 8 by norm_num, Real.sqrt_mul (by norm_num), Real.sqrt_sq (by norm_num)]
  ring

/-- **C60 is false of the code**: `sqrt(2) + sqrt(2)/2` is reported not to be a quadratic number, but it is
`3 sqrt(2) / 2`, the positive root of `2 x^2 - 9`. -/
theorem C60_add_false :
    sqrtTwo.Canonical ∧ halfSqrtTwo.Canonical ∧ sqrtTwo.checkedAdd halfSqrtTwo = some none ∧
    ∃ z : Quad, z.Canonical ∧ z.value = sqrtTwo.value + halfSqrtTwo.value := by
  refine ⟨sqrtTwo_canonical, halfSqrtTwo_canonical, ?_, ?_⟩
  · have h : addSubSqrts (sqrtTwo.discriminant * |halfSqrtTwo.quadraticTerm| * 2)
        (halfSqrtTwo.discriminant * |sqrtTwo.quadraticTerm| * 2) = some none := by
      have e1 : sqrtTwo.discriminant * |halfSqrtTwo.quadraticTerm| * 2 = 32 := by decide
      have e2 : halfSqrtTwo.discriminant * |sqrtTwo.quadraticTerm| * 2 = 16 := by decide
      rw [e1, e2]
      unfold addSubSqrts
      rw [bigIntSqrt_eq 32 5 (by norm_num) (by norm_num) (by norm_num),
        bigIntSqrt_eq 16 4 (by norm_num) (by norm_num) (by norm_num),
        bigIntSqrt_eq (32 * 16) 22 (by norm_num) (by norm_num) (by norm_num)]
      decide
    unfold checkedAdd
    rw [toTupleRatio_of_ne (by decide), toTupleRatio_of_ne (by decide)]
    simp only
    rw [h]
  · obtain ⟨y, -, h2, h3⟩ := intoReduced_spec ⟨-9, 0, 2⟩ ⟨by decide, by decide⟩
    exact ⟨y, h2, by rw [h3, sum_value]⟩

/-! ### examples -/

/-- `sqrt(2)` is above `7/5` and below `3/2`, as the comparison finds. -/
example : sqrtTwo.cmpRat (7 / 5) = .gt ∧ sqrtTwo.cmpRat (3 / 2) = .lt := by decide +kernel

/-- comparison of two irrational numbers, in all combinations of the signs. -/
example : sqrtTwo.cmp halfSqrtTwo = .gt ∧ sqrtTwo.neg.cmp halfSqrtTwo = .lt ∧
    sqrtTwo.cmp halfSqrtTwo.neg = .gt ∧ sqrtTwo.neg.cmp halfSqrtTwo.neg = .lt ∧
    sqrtTwo.cmp sqrtTwo = .eq := by decide +kernel

example : HasValue ⟨-2, 0, 1⟩ ∧ ¬ HasValue ⟨2, 0, 1⟩ := by
  constructor
  · exact ⟨by decide, by decide⟩
  · exact fun h => absurd h.2 (by decide)

/-- one half, a canonical rational number. -/
example : Canonical ⟨-1, 2, 0⟩ ∧ value ⟨-1, 2, 0⟩ = ((1 / 2 : ℚ) : ℝ) := by
  refine ⟨Or.inl ⟨rfl, by decide, by decide⟩, ?_⟩
  simp [value]

/-- the polynomial `x^2 + x`: its larger root 0 is rational. -/
example : intoReduced ⟨0, 1, 1⟩ = some ⟨0, 1, 0⟩ := by
  simp only [intoReduced]
  rw [if_neg (by decide)]
  have e : discriminant ⟨Int.tdiv 0 (Poly.intGcd (Poly.intGcd 0 1) 1),
    Int.tdiv 1 (Poly.intGcd (Poly.intGcd 0 1) 1), Int.tdiv 1 (Poly.intGcd (Poly.intGcd 0 1) 1)⟩ = 1 := by
    decide +kernel
  rw [e, bigIntSqrt_eq 1 1 (by norm_num) (by norm_num) (by norm_num)]
  decide +kernel

end Quad

end Algebraics
