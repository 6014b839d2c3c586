import Verif.Lemmas.Interval
import Verif.Lemmas.Traits

/-!
# Properties C01–C05, C09, C10 of dyadic intervals

`a.Contains x` (file `Verif/Spec/Interval.lean`) says `lo / 2^n ≤ x ≤ hi / 2^n` in the reals.
-/

namespace Algebraics
open DFI

/-! ## C01 constructors and precision changes -/

/-- C01: `from_ratio q n` encloses `q`, at precision `n`, with ends less than one unit in the last
place away from `q`. -/
theorem C01_from_ratio (q : Rat) (n : Nat) :
    (fromRatio q n).log2Denom = n ∧ (fromRatio q n).Contains q ∧
    (q : ℝ) - 1 / 2 ^ n < (fromRatio q n).lo / 2 ^ n ∧
    ((fromRatio q n).hi : ℝ) / 2 ^ n < q + 1 / 2 ^ n := by
  refine ⟨rfl, contains_fromRatio q n, ?_⟩
  unfold fromRatio
  simp only
  have e : (((shl q.num n : Int) : Rat) / q.den) = q * 2 ^ n := by
    rw [shl]; push_cast; conv_rhs => rw [← Rat.num_div_den q]
    ring
  rw [e]
  have h1 : ((q : ℝ) * 2 ^ n) < (⌊q * 2 ^ n⌋ : Int) + 1 := by exact_mod_cast Int.lt_floor_add_one (q * 2 ^ n)
  have h2 : ((⌈q * 2 ^ n⌉ : Int) : ℝ) < (q : ℝ) * 2 ^ n + 1 := by exact_mod_cast Int.ceil_lt_add_one (q * 2 ^ n)
  have hp : (0:ℝ) < 2 ^ n := by positivity
  constructor
  · rw [lt_div_iff₀ hp]; field_simp; linarith
  · rw [div_lt_iff₀ hp]; field_simp; linarith

/-- C01: `from_ratio_range` panics exactly on a reversed range, and otherwise encloses every real of
the range, at the requested precision, with ends less than one unit in the last place away. -/
theorem C01_from_ratio_range (lb ub : Rat) (n : Nat) :
    (fromRatioRange lb ub n = none ↔ ub < lb) ∧
    ∀ r, fromRatioRange lb ub n = some r → r.log2Denom = n ∧
      (∀ x : ℝ, lb ≤ x → x ≤ ub → r.Contains x) ∧
      (lb : ℝ) - 1 / 2 ^ n < r.lo / 2 ^ n ∧ (r.hi : ℝ) / 2 ^ n < ub + 1 / 2 ^ n := by
  unfold fromRatioRange
  split
  · next h =>
    refine ⟨by simp [h], ?_⟩
    intro r hr
    simp only [Option.some.injEq] at hr
    subst hr
    have h1 : ((⌊lb * 2 ^ n⌋ : Int) : ℝ) ≤ (lb : ℝ) * 2 ^ n := by exact_mod_cast Int.floor_le (lb * 2 ^ n)
    have h2 : ((ub : ℝ) * 2 ^ n) ≤ (⌈ub * 2 ^ n⌉ : Int) := by exact_mod_cast Int.le_ceil (ub * 2 ^ n)
    have h3 : ((lb : ℝ) * 2 ^ n) < (⌊lb * 2 ^ n⌋ : Int) + 1 := by
      exact_mod_cast Int.lt_floor_add_one (lb * 2 ^ n)
    have h4 : ((⌈ub * 2 ^ n⌉ : Int) : ℝ) < (ub : ℝ) * 2 ^ n + 1 := by
      exact_mod_cast Int.ceil_lt_add_one (ub * 2 ^ n)
    have hp : (0:ℝ) < 2 ^ n := by positivity
    refine ⟨rfl, ?_, ?_, ?_⟩
    · intro x hx1 hx2
      rw [contains_iff]
      have := mul_le_mul_of_nonneg_right hx1 hp.le
      have := mul_le_mul_of_nonneg_right hx2 hp.le
      exact ⟨by linarith, by linarith⟩
    · rw [lt_div_iff₀ hp]; field_simp; linarith
    · rw [div_lt_iff₀ hp]; field_simp; linarith
  · next h => exact ⟨by simpa using h, by simp⟩

example : fromRatioRange (-1 / 3) (2 / 3) 4 = some ⟨-6, 11, 4⟩ := by decide +kernel

/-- C01: `from_int_range` panics exactly on a reversed range, and otherwise is the exact range at the
requested precision. -/
theorem C01_from_int_range (lb ub : Int) (n : Nat) :
    (fromIntRange lb ub n = none ↔ ub < lb) ∧
    ∀ r, fromIntRange lb ub n = some r → r.log2Denom = n ∧
      (∀ x : ℝ, r.Contains x ↔ (lb : ℝ) ≤ x ∧ x ≤ ub) := by
  unfold fromIntRange new
  split
  · next h =>
    refine ⟨by simp [h], ?_⟩
    intro r hr
    simp only [Option.map_some, Option.some.injEq] at hr
    subst hr
    refine ⟨rfl, fun x => ?_⟩
    unfold Contains convertLog2Denom convertLog2DenomFloor convertLog2DenomCeil
    simp only [ge_iff_le, Nat.zero_le, if_true, Nat.sub_zero, shl_cast]
    rw [mul_div_assoc, mul_div_assoc, div_self (by positivity), mul_one, mul_one]
  · next h => exact ⟨by simpa using h, by simp⟩

example : fromIntRange (-3) 5 2 = some ⟨-12, 20, 2⟩ := by decide +kernel

/-- C01: integers, zero, one and minus one are represented exactly at every precision. -/
theorem C01_exact_constants (v : Int) (n : Nat) (x : ℝ) :
    ((fromInt v n).Contains x ↔ x = v) ∧ ((zero n).Contains x ↔ x = 0) ∧
    ((one n).Contains x ↔ x = 1) ∧ ((negativeOne n).Contains x ↔ x = -1) ∧
    (∀ a : DFI, (a.setZero.Contains x ↔ x = 0) ∧ (a.setOne.Contains x ↔ x = 1) ∧
      (a.setNegativeOne.Contains x ↔ x = -1)) := by
  have key : ∀ (v : Int) (n : Nat), (⟨shl v n, shl v n, n⟩ : DFI).Contains x ↔ x = v := by
    intro v n
    unfold Contains
    simp only [shl_cast]
    rw [mul_div_assoc, div_self (by positivity), mul_one]
    constructor
    · rintro ⟨h1, h2⟩; exact le_antisymm h2 h1
    · rintro rfl; exact ⟨le_refl _, le_refl _⟩
  have k0 : ∀ n : Nat, (⟨0, 0, n⟩ : DFI).Contains x ↔ x = 0 := by
    intro n; have := key 0 n; simpa [shl] using this
  refine ⟨key v n, k0 n, ?_, ?_, fun a => ⟨k0 _, ?_, ?_⟩⟩
  · have := key 1 n; simpa [one, fromInt, fromDyadicFraction] using this
  · have := key (-1) n; simpa [negativeOne, fromInt, fromDyadicFraction] using this
  · have := key 1 a.log2Denom; simpa [setOne] using this
  · have := key (-1) a.log2Denom; simpa [setNegativeOne, shl] using this

/-- C01: `convert_log2_denom` never loses a member, moves each end by less than one unit in the last
place of the new precision, and changes nothing when the precision does not decrease. -/
theorem C01_convert (a : DFI) (n : Nat) :
    (a.convertLog2Denom n).log2Denom = n ∧
    (∀ x : ℝ, a.Contains x → (a.convertLog2Denom n).Contains x) ∧
    (a.lo : ℝ) / 2 ^ a.log2Denom - 1 / 2 ^ n < (a.convertLog2Denom n).lo / 2 ^ n ∧
    ((a.convertLog2Denom n).hi : ℝ) / 2 ^ n < a.hi / 2 ^ a.log2Denom + 1 / 2 ^ n ∧
    (a.log2Denom ≤ n → ∀ x : ℝ, a.Contains x ↔ (a.convertLog2Denom n).Contains x) := by
  refine ⟨rfl, fun x hx => contains_convert hx n, ?_, ?_, ?_⟩
  · have := lt_convertFloor a.lo a.log2Denom n
    rw [add_div] at this
    unfold convertLog2Denom; simp only; linarith
  · have := convertCeil_lt a.hi a.log2Denom n
    rw [sub_div] at this
    unfold convertLog2Denom; simp only; linarith
  · intro h x
    obtain ⟨k, rfl⟩ := Nat.exists_eq_add_of_le h
    unfold Contains convertLog2Denom convertLog2DenomFloor convertLog2DenomCeil
    simp only [ge_iff_le, h, if_true, Nat.add_sub_cancel_left, shl_cast, pow_add]
    have e : ∀ u : ℝ, u * 2 ^ k / (2 ^ a.log2Denom * 2 ^ k) = u / 2 ^ a.log2Denom := by
      intro u; field_simp
    rw [e, e]

example : (⟨-3, 3, 2⟩ : DFI).convertLog2Denom 1 = ⟨-2, 2, 1⟩ := by decide +kernel

/-! ## C02 addition, subtraction, negation -/

/-- C02: the sum of intervals encloses every sum, and is the exact sum set (nothing is rounded). -/
theorem C02_add (a b : DFI) :
    (a.add b).log2Denom = max a.log2Denom b.log2Denom ∧
    (∀ x y : ℝ, a.Contains x → b.Contains y → (a.add b).Contains (x + y)) :=
  ⟨doOp_log2Denom _ _ _, fun _ _ => contains_add⟩

/-- C02: the difference of intervals encloses every difference. -/
theorem C02_sub (a b : DFI) :
    (a.sub b).log2Denom = max a.log2Denom b.log2Denom ∧
    (∀ x y : ℝ, a.Contains x → b.Contains y → (a.sub b).Contains (x - y)) :=
  ⟨doOp_log2Denom _ _ _, fun _ _ => contains_sub⟩

/-- C02: negation is exact. -/
theorem C02_neg (a : DFI) (x : ℝ) : a.Contains x ↔ a.neg.Contains (-x) := by
  refine ⟨contains_neg, fun h => ?_⟩
  have := contains_neg h
  rwa [neg_neg, show a.neg.neg = a by simp [neg]] at this

/-- C02: adding or subtracting a `BigInt` or a `Ratio` encloses the exact result and keeps the
precision. -/
theorem C02_scalar (a : DFI) (x : ℝ) (hx : a.Contains x) (k : Int) (q : Rat) :
    (a.addInt k).Contains (x + k) ∧ (a.subInt k).Contains (x - k) ∧
    (a.addRatio q).Contains (x + q) ∧ (a.subRatio q).Contains (x - q) ∧
    (a.addInt k).log2Denom = a.log2Denom ∧ (a.subInt k).log2Denom = a.log2Denom ∧
    (a.addRatio q).log2Denom = a.log2Denom ∧ (a.subRatio q).log2Denom = a.log2Denom := by
  refine ⟨contains_addInt hx k, contains_subInt hx k, contains_add hx (contains_fromRatio q _),
    contains_sub hx (contains_fromRatio q _), rfl, rfl, ?_, ?_⟩
  · unfold addRatio add; rw [doOp_log2Denom]; exact max_self _
  · unfold subRatio sub; rw [doOp_log2Denom]; exact max_self _

example : (⟨-3, 5, 2⟩ : DFI).add ⟨1, 2, 0⟩ = ⟨1, 13, 2⟩ := by decide +kernel
example : (⟨-3, 5, 2⟩ : DFI).Contains 1 := by
  unfold Contains; norm_num

/-- C02: addition rounds nothing: the ends of the sum are the sums of the ends. -/
theorem C02_add_tight (a b : DFI) :
    ((a.add b).lo : ℝ) / 2 ^ (a.add b).log2Denom =
      a.lo / 2 ^ a.log2Denom + b.lo / 2 ^ b.log2Denom ∧
    ((a.add b).hi : ℝ) / 2 ^ (a.add b).log2Denom =
      a.hi / 2 ^ a.log2Denom + b.hi / 2 ^ b.log2Denom := by
  have sh : ∀ (u : Int) (m k : Nat), m ≤ k → ((shl u (k - m) : Int) : ℝ) / 2 ^ k = (u:ℝ) / 2 ^ m := by
    intro u m k h
    obtain ⟨j, rfl⟩ := Nat.exists_eq_add_of_le h
    rw [shl_cast, Nat.add_sub_cancel_left, pow_add]; field_simp
  unfold add doOp
  split
  · next h => simp only; push_cast; rw [add_div, add_div, sh _ _ _ h, sh _ _ _ h]; exact ⟨rfl, rfl⟩
  · next h =>
    have h := le_of_not_ge h
    simp only; push_cast; rw [add_div, add_div, sh _ _ _ h, sh _ _ _ h]; exact ⟨rfl, rfl⟩

/-- C02: subtraction rounds nothing either. -/
theorem C02_sub_tight (a b : DFI) :
    ((a.sub b).lo : ℝ) / 2 ^ (a.sub b).log2Denom =
      a.lo / 2 ^ a.log2Denom - b.hi / 2 ^ b.log2Denom ∧
    ((a.sub b).hi : ℝ) / 2 ^ (a.sub b).log2Denom =
      a.hi / 2 ^ a.log2Denom - b.lo / 2 ^ b.log2Denom := by
  have sh : ∀ (u : Int) (m k : Nat), m ≤ k → ((shl u (k - m) : Int) : ℝ) / 2 ^ k = (u:ℝ) / 2 ^ m := by
    intro u m k h
    obtain ⟨j, rfl⟩ := Nat.exists_eq_add_of_le h
    rw [shl_cast, Nat.add_sub_cancel_left, pow_add]; field_simp
  unfold sub doOp
  split
  · next h => simp only; push_cast; rw [sub_div, sub_div, sh _ _ _ h, sh _ _ _ h]; exact ⟨rfl, rfl⟩
  · next h =>
    have h := le_of_not_ge h
    simp only; push_cast; rw [sub_div, sub_div, sh _ _ _ h, sh _ _ _ h]; exact ⟨rfl, rfl⟩

/-! ## C03 multiplication and squaring -/

/-- C03: the product of intervals encloses every product. -/
theorem C03_mul (a b : DFI) :
    (a.mul b).log2Denom = max a.log2Denom b.log2Denom ∧
    (∀ x y : ℝ, a.Contains x → b.Contains y → (a.mul b).Contains (x * y)) :=
  ⟨doOp_log2Denom _ _ _, fun _ _ => contains_mul⟩

/-- C03: multiplying by a `BigInt` is exact, by a `Ratio` encloses. -/
theorem C03_mul_scalar (a : DFI) (x : ℝ) (hx : a.Contains x) (k : Int) (q : Rat) :
    (a.mulInt k).Contains (x * k) ∧ (a.mulRatio q).Contains (x * q) ∧
    (a.mulInt k).log2Denom = a.log2Denom ∧ (a.mulRatio q).log2Denom = a.log2Denom :=
  ⟨contains_mulInt hx k, contains_mulRatio hx q, rfl, rfl⟩

/-- C03: the square encloses every square and never reaches below zero. -/
theorem C03_square (a : DFI) :
    a.square.log2Denom = a.log2Denom ∧ 0 ≤ a.square.lo ∧
    ∀ x : ℝ, a.Contains x → a.square.Contains (x * x) :=
  ⟨rfl, square_lo_nonneg a, fun _ => contains_square⟩

example : (⟨-3, 5, 1⟩ : DFI).mul ⟨-7, 2, 1⟩ = ⟨-18, 11, 1⟩ := by decide +kernel
example : (⟨-3, 5, 1⟩ : DFI).square = ⟨0, 13, 1⟩ := by decide +kernel

/-- C03, tightness: at equal precisions each end of the product is less than one unit in the last
place outside the exact product of two ends. -/
theorem C03_mul_tight (a b : DFI) (h : a.log2Denom = b.log2Denom) :
    ∃ x ∈ [(a.lo : ℝ), a.hi], ∃ y ∈ [(b.lo : ℝ), b.hi],
    ∃ x' ∈ [(a.lo : ℝ), a.hi], ∃ y' ∈ [(b.lo : ℝ), b.hi],
      x * y < ((a.mul b).lo + 1) * 2 ^ a.log2Denom ∧
      ((a.mul b).hi - 1) * 2 ^ a.log2Denom < x' * y' := by
  have hm : a.mul b = ⟨(mulOp a.lo a.hi b.lo b.hi b.log2Denom).1,
      (mulOp a.lo a.hi b.lo b.hi b.log2Denom).2, b.log2Denom⟩ := by
    unfold mul doOp; rw [if_pos (by omega)]; simp [h, shl]
  obtain ⟨mn, mx, e1, e2, -, -, m1, m2⟩ := mulOp_bounds a.lo a.hi b.lo b.hi b.log2Denom
  rw [hm, e1, e2, h]
  have s1 := lt_shr mn b.log2Denom
  have s2 := neg_shr_neg_lt mx b.log2Denom
  have pick : ∀ m ∈ [a.lo * b.lo, a.lo * b.hi, a.hi * b.lo, a.hi * b.hi],
      ∃ x ∈ [(a.lo : ℝ), a.hi], ∃ y ∈ [(b.lo : ℝ), b.hi], x * y = m := by
    intro m hm
    simp only [List.mem_cons, List.not_mem_nil, or_false] at hm
    rcases hm with rfl | rfl | rfl | rfl
    · exact ⟨a.lo, by simp, b.lo, by simp, by push_cast; rfl⟩
    · exact ⟨a.lo, by simp, b.hi, by simp, by push_cast; rfl⟩
    · exact ⟨a.hi, by simp, b.lo, by simp, by push_cast; rfl⟩
    · exact ⟨a.hi, by simp, b.hi, by simp, by push_cast; rfl⟩
  obtain ⟨x, hx, y, hy, exy⟩ := pick mn m1
  obtain ⟨x', hx', y', hy', exy'⟩ := pick mx m2
  refine ⟨x, hx, y, hy, x', hx', y', hy', ?_, ?_⟩
  · rw [exy]; exact s1
  · rw [exy']; exact s2

/-! ## C04 reciprocal and division -/

/-- C04: `checked_recip` fails exactly when zero is in the interval, and otherwise encloses every
reciprocal. -/
theorem C04_recip (a : DFI) :
    (a.checkedRecip = none ↔ a.Contains 0) ∧
    ∀ r, a.checkedRecip = some r → r.log2Denom = a.log2Denom ∧
      ∀ x : ℝ, a.Contains x → r.Contains x⁻¹ := by
  refine ⟨checkedRecip_eq_none_iff a, fun r hr => ⟨?_, fun x hx => contains_recip hx hr⟩⟩
  unfold checkedRecip at hr
  split at hr
  · simp at hr
  · simp only [Option.some.injEq] at hr; rw [← hr]

/-- C04: interval division fails exactly when zero is in the divisor, and otherwise encloses every
quotient. -/
theorem C04_div (a b : DFI) :
    (a.checkedDiv b = none ↔ b.Contains 0) ∧
    ∀ r, a.checkedDiv b = some r →
      ∀ x y : ℝ, a.Contains x → b.Contains y → r.Contains (x / y) := by
  refine ⟨?_, fun r hr x y hx hy => contains_div hx hy hr⟩
  unfold checkedDiv
  rw [Option.map_eq_none_iff, checkedRecip_eq_none_iff]

/-- C04: division by a `BigInt` or a `Ratio` fails exactly on zero and otherwise encloses. -/
theorem C04_div_scalar (a : DFI) (k : Int) (q : Rat) :
    (a.divInt k = none ↔ k = 0) ∧ (a.divRatio q = none ↔ q = 0) ∧
    (∀ r, a.divInt k = some r → ∀ x : ℝ, a.Contains x → r.Contains (x / k)) ∧
    (∀ r, a.divRatio q = some r → ∀ x : ℝ, a.Contains x → r.Contains (x / q)) := by
  unfold divInt divRatio
  refine ⟨by simp, by simp, ?_, ?_⟩
  · intro r hr x hx
    split at hr
    · simp at hr
    · simp only [Option.some.injEq] at hr; subst hr
      have := contains_mulRatio hx (1 / (k : Rat))
      push_cast at this
      rw [mul_one_div] at this
      simpa using this
  · intro r hr x hx
    split at hr
    · simp at hr
    · simp only [Option.some.injEq] at hr; subst hr
      have := contains_mulRatio hx q⁻¹
      push_cast at this
      rwa [← div_eq_mul_inv] at this

example : (⟨-7, -3, 2⟩ : DFI).checkedRecip = some ⟨-6, -2, 2⟩ := by decide +kernel
example : (⟨2, 3, 1⟩ : DFI).checkedDiv ⟨-7, -3, 2⟩ = some ⟨-9, -2, 2⟩ := by decide +kernel

/-! ## C05 square root -/

/-- C05: `sqrt` panics exactly when the lower end is negative, and otherwise encloses every square
root, keeps the precision, and each end is less than one unit in the last place from the exact
root of the corresponding end of the argument. -/
theorem C05_sqrt (a : DFI) (ho : a.Ordered) :
    (a.sqrt = none ↔ a.lo < 0) ∧
    ∀ r, a.sqrt = some r → r.log2Denom = a.log2Denom ∧
      (∀ x : ℝ, a.Contains x → r.Contains (Real.sqrt x)) ∧
      Real.sqrt (a.lo / 2 ^ a.log2Denom) - 1 / 2 ^ a.log2Denom < r.lo / 2 ^ a.log2Denom ∧
      (r.hi : ℝ) / 2 ^ a.log2Denom < Real.sqrt (a.hi / 2 ^ a.log2Denom) + 1 / 2 ^ a.log2Denom := by
  refine ⟨sqrt_eq_none_iff a ho, fun r hr => ?_⟩
  obtain ⟨e, l0, r0, al, ah, h1, h2, h3, h4⟩ := sqrt_ends hr
  have hp : (0:ℝ) < 2 ^ a.log2Denom := by positivity
  have key : ∀ c : Int, 0 ≤ c → Real.sqrt ((c : ℝ) / 2 ^ a.log2Denom) * 2 ^ a.log2Denom =
      Real.sqrt (c * 2 ^ a.log2Denom) := by
    intro c hc
    have hc' : (0:ℝ) ≤ c := by exact_mod_cast hc
    have : (c:ℝ) * 2 ^ a.log2Denom = (c / 2 ^ a.log2Denom) * (2 ^ a.log2Denom * 2 ^ a.log2Denom) := by
      field_simp
    rw [this, Real.sqrt_mul (by positivity), Real.sqrt_mul_self hp.le]
  refine ⟨e, fun x hx => contains_sqrt hx hr, ?_, ?_⟩
  · rw [lt_div_iff₀ hp, sub_mul, key _ al, one_div, inv_mul_cancel₀ hp.ne']
    have h2' : ((a.lo:ℝ) * 2 ^ a.log2Denom) < (r.lo + 1) * (r.lo + 1) := by exact_mod_cast h2
    have l0' : (0:ℝ) ≤ r.lo := by exact_mod_cast l0
    have : Real.sqrt (a.lo * 2 ^ a.log2Denom) < r.lo + 1 := by
      rw [Real.sqrt_lt' (by linarith)]; nlinarith
    linarith
  · rw [div_lt_iff₀ hp, add_mul, key _ ah, one_div, inv_mul_cancel₀ hp.ne']
    rcases eq_or_lt_of_le r0 with h0 | h0
    · rw [← h0]; push_cast
      have := Real.sqrt_nonneg ((a.hi:ℝ) * 2 ^ a.log2Denom); linarith
    · have h4' : ((r.hi:ℝ) - 1) * (r.hi - 1) < a.hi * 2 ^ a.log2Denom := by exact_mod_cast h4 h0
      have : (r.hi : ℝ) - 1 < Real.sqrt (a.hi * 2 ^ a.log2Denom) := by
        apply Real.lt_sqrt_of_sq_lt; nlinarith
      linarith

example : (⟨2, 8, 2⟩ : DFI).sqrt = some ⟨2, 6, 2⟩ := by decide +kernel
example : (⟨2, 8, 2⟩ : DFI).Ordered := by unfold Ordered; decide

/-! ## C09 powers -/

/-- C09 is false for odd exponents on an interval with members of both signs:
`[-3/2, 1/2]` contains `1/2` but its third power does not contain `1/8`. -/
theorem C09_mixed_sign_false :
    (⟨-3, 1, 1⟩ : DFI).Contains (1 / 2) ∧
    ∃ r, (⟨-3, 1, 1⟩ : DFI).pow 3 = some r ∧ ¬ r.Contains ((1 / 2) ^ 3) := by
  refine ⟨by unfold Contains; norm_num, ⟨-8, 0, 1⟩, by decide +kernel, ?_⟩
  unfold Contains; norm_num

/-- C09 is also false for odd exponents on a one-point negative interval: the cube of `-3/2` at
precision 1 comes out with its ends the wrong way round, so it has no members at all. -/
theorem C09_negative_point_false :
    (⟨-3, -3, 1⟩ : DFI).Contains (-3 / 2) ∧
    ∃ r, (⟨-3, -3, 1⟩ : DFI).pow 3 = some r ∧ r.hi < r.lo ∧ ∀ x : ℝ, ¬ r.Contains x := by
  refine ⟨by unfold Contains; norm_num, ⟨-6, -8, 1⟩, by decide +kernel, by decide, ?_⟩
  rintro x ⟨h1, h2⟩
  have := h1.trans h2
  norm_num at this

/-- C09 (partial): every integer power encloses, for even exponents and for exponents 0, 1, -1
whatever the interval, for non-negative intervals whatever the exponent, and for odd exponents on a
non-positive interval of nonzero width (for negative exponents: of its reciprocal). It panics
exactly when the exponent is negative and zero is in the interval.
Missing: the two false cases above. -/
theorem C09_pow_partial (a : DFI) (k : Int) :
    (a.pow k = none ↔ k < 0 ∧ a.Contains 0) ∧
    ∀ r, a.pow k = some r → ∀ x : ℝ, a.Contains x →
      (Even k ∨ k = 1 ∨ k = -1 ∨ 0 ≤ a.lo ∨ (0 < k ∧ a.hi ≤ 0 ∧ a.lo < a.hi) ∨
        (k < 0 ∧ ∀ s, a.checkedRecip = some s → s.lo < s.hi)) →
      r.log2Denom = a.log2Denom ∧ r.Contains (x ^ k) := by
  have hden : ∀ s, a.checkedRecip = some s → s.log2Denom = a.log2Denom := by
    intro s hs
    unfold checkedRecip at hs
    split at hs
    · simp at hs
    · simp only [Option.some.injEq] at hs; rw [← hs]
  have recipsign : ∀ s, a.checkedRecip = some s → a.Ordered → (0 < a.lo → 0 ≤ s.lo) ∧ (a.hi < 0 → s.hi ≤ 0) := by
    intro s hs ho
    unfold checkedRecip at hs
    split at hs
    · simp at hs
    · simp only [Option.some.injEq] at hs
      subst hs
      unfold Ordered at ho
      have hd : (0:Int) ≤ shl 1 (2 * a.log2Denom) := by unfold shl; positivity
      refine ⟨fun h => ?_, fun h => ?_⟩
      · simp only; exact Int.fdiv_nonneg hd (by omega)
      · have h1 := divCeil_lt_real (shl 1 (2 * a.log2Denom)) a.lo (by omega)
        have h2 : ((shl 1 (2 * a.log2Denom) : Int) : ℝ) / a.lo ≤ 0 :=
          div_nonpos_of_nonneg_of_nonpos (by exact_mod_cast hd) (by exact_mod_cast (by omega : a.lo ≤ 0))
        have h3 : ((divCeil (shl 1 (2 * a.log2Denom)) a.lo : Int) : ℝ) < 1 := by linarith
        have h4 : divCeil (shl 1 (2 * a.log2Denom)) a.lo < 1 := by exact_mod_cast h3
        simp only; omega
  constructor
  · unfold pow
    by_cases h0 : k = 0
    · simp [h0]
    by_cases h1 : k = 1
    · simp [h1]
    by_cases h2 : k < 0
    · simp only [h0, h1, h2, if_true, if_false, true_and]
      rw [← checkedRecip_eq_none_iff]
      cases h : a.checkedRecip with
      | none => simp
      | some s => simp; split <;> simp
    · simp [h0, h1, h2]
  · intro r hr x hx hs
    unfold pow at hr
    by_cases h0 : k = 0
    · simp only [h0, if_true, Option.some.injEq] at hr; subst hr; subst h0
      refine ⟨rfl, ?_⟩
      rw [zpow_zero]
      exact ((C01_exact_constants 0 0 1).2.2.2.2 a).2.1.mpr rfl
    by_cases h1 : k = 1
    · simp only [h1, if_true, if_false, one_ne_zero, Option.some.injEq] at hr; subst hr; subst h1
      exact ⟨rfl, by rwa [zpow_one]⟩
    by_cases h2 : k < 0
    · simp only [h0, h1, h2, if_true, if_false] at hr
      cases h : a.checkedRecip with
      | none => simp [h] at hr
      | some s =>
        have hsx := contains_recip hx h
        simp only [h, Option.bind_eq_bind, Option.bind_some, Option.pure_def] at hr
        split at hr
        · next h3 =>
          simp only [Option.some.injEq] at hr; subst hr; subst h3
          exact ⟨hden _ h, by rwa [zpow_neg_one]⟩
        · next h3 =>
          simp only [Option.some.injEq] at hr; subst hr
          obtain ⟨m, rfl⟩ : ∃ m : Nat, k = -(m : Int) := ⟨k.natAbs, by omega⟩
          have e : x ^ (-(m : Int)) = x⁻¹ ^ m := by rw [zpow_neg, zpow_natCast, inv_pow]
          rw [e, Int.natAbs_neg, Int.natAbs_natCast]
          refine ⟨hden s h, contains_powPos hsx (by omega) ?_⟩
          have hnz : ¬ a.Contains 0 := by
            rw [← checkedRecip_eq_none_iff, h]; simp
          have hz : a.containsZero = false := by
            rw [← Bool.not_eq_true, containsZero_iff]; exact hnz
          have sgn := containsZero_false hz hx.ordered
          have rs := recipsign s h hx.ordered
          rcases hs with hs | hs | hs | hs | hs | hs
          · left
            rw [even_neg] at hs; exact_mod_cast hs
          · omega
          · omega
          · right; left; exact rs.1 (by omega)
          · omega
          · have hlt := hs.2 s h
            right
            rcases sgn with sg | sg
            · left; exact rs.1 sg.1
            · right; exact ⟨rs.2 sg.2, hlt⟩
    · simp only [h0, h1, h2, if_false, Option.some.injEq] at hr; subst hr
      obtain ⟨m, rfl⟩ : ∃ m : Nat, k = (m : Int) := ⟨k.natAbs, by omega⟩
      rw [zpow_natCast, Int.natAbs_natCast]
      refine ⟨rfl, contains_powPos hx (by omega) ?_⟩
      rcases hs with hs | hs | hs | hs | hs | hs
      · left; exact_mod_cast hs
      · omega
      · omega
      · right; left; exact hs
      · right; right; exact hs.2
      · omega

example : (⟨-5, -3, 1⟩ : DFI).pow 3 = some ⟨-33, -6, 1⟩ := by decide +kernel
example : (⟨-5, -3, 1⟩ : DFI).pow (-3) = some ⟨-2, 0, 1⟩ := by decide +kernel
example : (⟨-5, 3, 1⟩ : DFI).pow 4 = some ⟨0, 85, 1⟩ := by decide +kernel

/-! ## C10 order-like queries -/

/-- C10: floor and ceiling map members to members, for every precision of the result. -/
theorem C10_floor_ceil (a : DFI) (n : Nat) (x : ℝ) (hx : a.Contains x) :
    (a.floor n).Contains ⌊x⌋ ∧ (a.ceil n).Contains ⌈x⌉ :=
  ⟨contains_floor hx n, contains_ceil hx n⟩

/-- C10: the ends of floor are exactly the floors of the ends, likewise for ceiling. -/
theorem C10_floor_ceil_tight (a : DFI) (n : Nat) :
    ((a.floor n).lo : ℝ) / 2 ^ n = ⌊(a.lo : ℝ) / 2 ^ a.log2Denom⌋ ∧
    ((a.floor n).hi : ℝ) / 2 ^ n = ⌊(a.hi : ℝ) / 2 ^ a.log2Denom⌋ ∧
    ((a.ceil n).lo : ℝ) / 2 ^ n = ⌈(a.lo : ℝ) / 2 ^ a.log2Denom⌉ ∧
    ((a.ceil n).hi : ℝ) / 2 ^ n = ⌈(a.hi : ℝ) / 2 ^ a.log2Denom⌉ := by
  unfold floor ceil convertLog2Denom convertLog2DenomFloor convertLog2DenomCeil
  have e : ∀ u : ℝ, u * 2 ^ n / 2 ^ n = u := fun u => by field_simp
  simp only [ge_iff_le, Nat.zero_le, if_true, Nat.sub_zero, shl_cast, neg_shr_neg_eq_ceil, e]
  simp only [shr_eq_floor, and_self]

/-- C10: absolute value maps members to members, its lower end is not negative. -/
theorem C10_abs (a : DFI) (ho : a.Ordered) :
    0 ≤ a.abs.lo ∧ ∀ x : ℝ, a.Contains x → a.abs.Contains |x| :=
  ⟨(abs_spec a ho).2.1, fun _ => contains_abs⟩

/-- C10: the ends of the absolute value are exactly the least and the greatest absolute value of a member,
at the same precision. -/
theorem C10_abs_tight (a : DFI) (ho : a.Ordered) :
    a.abs.log2Denom = a.log2Denom ∧
    (∃ x : ℝ, a.Contains x ∧ |x| = (a.abs.lo : ℝ) / 2 ^ a.log2Denom) ∧
    ∃ x : ℝ, a.Contains x ∧ |x| = (a.abs.hi : ℝ) / 2 ^ a.log2Denom := by
  have hlo : ∀ c d : Int, c ≤ d → (c : ℝ) / 2 ^ a.log2Denom ≤ (d : ℝ) / 2 ^ a.log2Denom :=
    fun c d h => div_le_div_of_nonneg_right (by exact_mod_cast h) (by positivity)
  have hab : ∀ c : Int, |(c : ℝ) / 2 ^ a.log2Denom| = ((|c| : Int) : ℝ) / 2 ^ a.log2Denom := fun c => by
    rw [abs_div, abs_of_pos (by positivity : (0:ℝ) < 2 ^ a.log2Denom), Int.cast_abs]
  have pick : ∀ m : Int, (∃ c, a.lo ≤ c ∧ c ≤ a.hi ∧ |c| = m) →
      ∃ x : ℝ, a.Contains x ∧ |x| = (m : ℝ) / 2 ^ a.log2Denom := by
    rintro m ⟨c, h1, h2, rfl⟩
    exact ⟨(c : ℝ) / 2 ^ a.log2Denom, ⟨hlo _ _ h1, hlo _ _ h2⟩, hab c⟩
  unfold Ordered at ho
  have hz : a.containsZero = true ↔ a.lo ≤ 0 ∧ 0 ≤ a.hi := by
    unfold containsZero; simp
  have habs : a.abs = ⟨if a.containsZero then 0 else min |a.lo| |a.hi|, max |a.lo| |a.hi|, a.log2Denom⟩ := by
    have e : ∀ c : Int, (if c < 0 then -c else c) = |c| := fun c => by
      split
      · rw [abs_of_neg (by assumption)]
      · rw [abs_of_nonneg (by omega)]
    unfold DFI.abs
    simp only [e]
    by_cases h : |a.lo| > |a.hi|
    · rw [if_pos h, min_eq_right h.le, max_eq_left h.le]
    · rw [if_neg h, min_eq_left (not_lt.mp h), max_eq_right (not_lt.mp h)]
  refine ⟨by rw [habs], pick _ ?_, pick _ ?_⟩
  · rw [habs]
    simp only
    by_cases h : a.containsZero = true
    · rw [if_pos h]; exact ⟨0, (hz.mp h).1, (hz.mp h).2, rfl⟩
    · rw [if_neg h]
      rcases min_choice |a.lo| |a.hi| with h | h <;> rw [h]
      · exact ⟨a.lo, le_refl _, ho, rfl⟩
      · exact ⟨a.hi, ho, le_refl _, rfl⟩
  · rw [habs]
    simp only
    rcases max_choice |a.lo| |a.hi| with h | h <;> rw [h]
    · exact ⟨a.lo, le_refl _, ho, rfl⟩
    · exact ⟨a.hi, ho, le_refl _, rfl⟩

/-- C10: `set_to_lower_bound` and `set_to_upper_bound` keep that one point, at the same precision. -/
theorem C10_set_to_bound (a : DFI) (x : ℝ) :
    a.setToLowerBound.log2Denom = a.log2Denom ∧ a.setToUpperBound.log2Denom = a.log2Denom ∧
    (a.setToLowerBound.Contains x ↔ x = (a.lo : ℝ) / 2 ^ a.log2Denom) ∧
    (a.setToUpperBound.Contains x ↔ x = (a.hi : ℝ) / 2 ^ a.log2Denom) := by
  refine ⟨rfl, rfl, ?_, ?_⟩ <;>
  · unfold Contains
    exact ⟨fun h => le_antisymm h.2 h.1, fun h => ⟨h.ge, h.le⟩⟩

/-- C10: `set_lower_bound_to_zero` cuts the interval at zero and panics when no member is at least zero;
`set_upper_bound_to_zero` likewise. (An interval that starts above zero is extended down to zero.) -/
theorem C10_set_bound_to_zero (a : DFI) :
    (a.setLowerBoundToZero = none ↔ (a.hi : ℝ) / 2 ^ a.log2Denom < 0) ∧
    (a.setUpperBoundToZero = none ↔ 0 < (a.lo : ℝ) / 2 ^ a.log2Denom) ∧
    (∀ r, a.setLowerBoundToZero = some r → r.log2Denom = a.log2Denom ∧
      ∀ x : ℝ, r.Contains x ↔ 0 ≤ x ∧ x ≤ (a.hi : ℝ) / 2 ^ a.log2Denom) ∧
    (∀ r, a.setUpperBoundToZero = some r → r.log2Denom = a.log2Denom ∧
      ∀ x : ℝ, r.Contains x ↔ (a.lo : ℝ) / 2 ^ a.log2Denom ≤ x ∧ x ≤ 0) := by
  have hp : (0:ℝ) < 2 ^ a.log2Denom := by positivity
  unfold setLowerBoundToZero setUpperBoundToZero
  refine ⟨?_, ?_, ?_, ?_⟩
  · rw [div_lt_iff₀ hp, zero_mul]
    split
    · next h => simp; exact_mod_cast h
    · next h => simp; exact_mod_cast not_le.mp h
  · rw [lt_div_iff₀ hp, zero_mul]
    split
    · next h => simp; exact_mod_cast h
    · next h => simp; exact_mod_cast not_le.mp h
  · intro r hr
    split at hr
    · cases hr
      refine ⟨rfl, fun x => ?_⟩
      unfold Contains
      simp
    · cases hr
  · intro r hr
    split at hr
    · cases hr
      refine ⟨rfl, fun x => ?_⟩
      unfold Contains
      simp
    · cases hr

/-- C10: `is_same` holds exactly for equal precisions and equal ends, so for intervals of the same precision
with members it means that they have the same members. -/
theorem C10_is_same (a b : DFI) :
    (a.isSame b = true ↔ a = b) ∧
    (a.Ordered → b.Ordered → a.log2Denom = b.log2Denom →
      (a.isSame b = true ↔ ∀ x : ℝ, a.Contains x ↔ b.Contains x)) := by
  have h1 : a.isSame b = true ↔ a = b := by
    obtain ⟨al, ah, an⟩ := a
    obtain ⟨bl, bh, bn⟩ := b
    simp [isSame, and_assoc]
  refine ⟨h1, fun ha hb hn => ?_⟩
  rw [h1]
  constructor
  · rintro rfl; exact fun _ => Iff.rfl
  · intro h
    obtain ⟨al, ah, an⟩ := a
    obtain ⟨bl, bh, bn⟩ := b
    simp only at hn
    subst hn
    have hp : (0:ℝ) < 2 ^ an := by positivity
    unfold Ordered at ha hb
    unfold Contains at h
    simp only at h ha hb
    have ha' : (al : ℝ) / 2 ^ an ≤ ah / 2 ^ an := div_le_div_of_nonneg_right (by exact_mod_cast ha) hp.le
    have hb' : (bl : ℝ) / 2 ^ an ≤ bh / 2 ^ an := div_le_div_of_nonneg_right (by exact_mod_cast hb) hp.le
    have e : ∀ c d : Int, (c : ℝ) / 2 ^ an ≤ (d : ℝ) / 2 ^ an → c ≤ d := fun c d h => by
      rw [div_le_div_iff_of_pos_right hp] at h; exact_mod_cast h
    have p1 := (h _).mp ⟨le_refl _, ha'⟩
    have p2 := (h _).mpr ⟨le_refl _, hb'⟩
    have p3 := (h _).mp ⟨ha', le_refl _⟩
    have p4 := (h _).mpr ⟨hb', le_refl _⟩
    rw [le_antisymm (e _ _ p2.1) (e _ _ p1.1), le_antisymm (e _ _ p3.2) (e _ _ p4.2)]

example : (⟨-3, 1, 1⟩ : DFI).setToUpperBound = ⟨1, 1, 1⟩ ∧
    (⟨-3, 1, 1⟩ : DFI).setLowerBoundToZero = some ⟨0, 1, 1⟩ ∧
    (⟨-3, -1, 1⟩ : DFI).setLowerBoundToZero = none ∧ (⟨-3, 1, 1⟩ : DFI).Ordered := by
  refine ⟨rfl, rfl, rfl, by unfold Ordered; norm_num⟩

/-- C10: the union is the smallest interval containing both operands. -/
theorem C10_union (a b : DFI) (ha : a.Ordered) (hb : b.Ordered) :
    (∀ x : ℝ, a.Contains x ∨ b.Contains x → (a.union b).Contains x) ∧
    (a.union b).log2Denom = max a.log2Denom b.log2Denom ∧
    ((a.union b).lo : ℝ) / 2 ^ (a.union b).log2Denom =
      min ((a.lo : ℝ) / 2 ^ a.log2Denom) ((b.lo : ℝ) / 2 ^ b.log2Denom) ∧
    ((a.union b).hi : ℝ) / 2 ^ (a.union b).log2Denom =
      max ((a.hi : ℝ) / 2 ^ a.log2Denom) ((b.hi : ℝ) / 2 ^ b.log2Denom) := by
  refine ⟨?_, doOp_log2Denom _ _ _, union_ends a b⟩
  rintro x (h | h)
  · exact contains_union_left h hb
  · exact contains_union_right ha h

/-- C10: `contains_zero` is exact membership of zero. -/
theorem C10_contains_zero (a : DFI) : a.containsZero = true ↔ a.Contains 0 := containsZero_iff a

/-- a positive integer numerator over a power of two sits between consecutive powers of two. -/
theorem two_zpow_sub (l n : Nat) : (2:ℝ) ^ ((l : Int) - n) = 2 ^ l / 2 ^ n := by
  rw [zpow_sub₀ (by norm_num), zpow_natCast, zpow_natCast]

/-- C10: `floor_log2` gives the floors of the base 2 logarithms of the two ends, so it brackets the
logarithm of every member; it is `None` exactly when the lower end is not positive. -/
theorem C10_floor_log2 (a : DFI) (ho : a.Ordered) :
    (a.floorLog2 = none ↔ a.lo ≤ 0) ∧
    ∀ l h, a.floorLog2 = some (l, h) →
      ((2:ℝ) ^ l ≤ a.lo / 2 ^ a.log2Denom ∧ (a.lo : ℝ) / 2 ^ a.log2Denom < 2 ^ (l + 1)) ∧
      ((2:ℝ) ^ h ≤ a.hi / 2 ^ a.log2Denom ∧ (a.hi : ℝ) / 2 ^ a.log2Denom < 2 ^ (h + 1)) ∧
      ∀ x : ℝ, a.Contains x → (2:ℝ) ^ l ≤ x ∧ x < 2 ^ (h + 1) := by
  unfold Ordered at ho
  have hnone : ∀ c : Int, Algebraics.floorLog2 c = none ↔ c ≤ 0 := by
    intro c; unfold Algebraics.floorLog2; split <;> simp_all
  have hp : (0:ℝ) < 2 ^ a.log2Denom := by positivity
  constructor
  · unfold DFI.floorLog2
    cases h1 : Algebraics.floorLog2 a.lo with
    | none => simp [(hnone _).mp h1]
    | some l =>
      have : ¬ a.lo ≤ 0 := by rw [← hnone, h1]; simp
      cases h2 : Algebraics.floorLog2 a.hi with
      | none => have := (hnone _).mp h2; omega
      | some h => simp; omega
  · intro l h hh
    unfold DFI.floorLog2 at hh
    cases h1 : Algebraics.floorLog2 a.lo with
    | none => simp [h1] at hh
    | some l' =>
      cases h2 : Algebraics.floorLog2 a.hi with
      | none => simp [h1, h2] at hh
      | some h' =>
        simp only [h1, h2, Option.bind_eq_bind, Option.bind_some, Option.pure_def, Option.some.injEq,
          Prod.mk.injEq] at hh
        obtain ⟨rfl, rfl⟩ := hh
        obtain ⟨p1, p2⟩ := (floorLog2_spec _ _).mp h1
        obtain ⟨q1, q2⟩ := (floorLog2_spec _ _).mp h2
        have p1' : (2:ℝ) ^ l' ≤ a.lo := by exact_mod_cast p1
        have p2' : (a.lo:ℝ) < 2 ^ (l' + 1) := by exact_mod_cast p2
        have q1' : (2:ℝ) ^ h' ≤ a.hi := by exact_mod_cast q1
        have q2' : (a.hi:ℝ) < 2 ^ (h' + 1) := by exact_mod_cast q2
        have e1 : (l' : Int) - a.log2Denom + 1 = ((l' + 1 : Nat) : Int) - a.log2Denom := by
          push_cast; ring
        have e2 : (h' : Int) - a.log2Denom + 1 = ((h' + 1 : Nat) : Int) - a.log2Denom := by
          push_cast; ring
        rw [e1, e2]
        simp only [two_zpow_sub]
        have A : (2:ℝ) ^ l' / 2 ^ a.log2Denom ≤ a.lo / 2 ^ a.log2Denom := by gcongr
        have B : (a.hi:ℝ) / 2 ^ a.log2Denom < 2 ^ (h' + 1) / 2 ^ a.log2Denom := by gcongr
        refine ⟨⟨A, by gcongr⟩, ⟨by gcongr, B⟩, fun x hx => ⟨A.trans hx.1, lt_of_le_of_lt hx.2 B⟩⟩

/-- C10: `ceil_log2` gives the ceilings of the base 2 logarithms of the two ends. -/
theorem C10_ceil_log2 (a : DFI) (ho : a.Ordered) :
    (a.ceilLog2 = none ↔ a.lo ≤ 0) ∧
    ∀ l h, a.ceilLog2 = some (l, h) →
      ((2:ℝ) ^ (l - 1) < a.lo / 2 ^ a.log2Denom ∧ (a.lo : ℝ) / 2 ^ a.log2Denom ≤ 2 ^ l) ∧
      ((2:ℝ) ^ (h - 1) < a.hi / 2 ^ a.log2Denom ∧ (a.hi : ℝ) / 2 ^ a.log2Denom ≤ 2 ^ h) ∧
      ∀ x : ℝ, a.Contains x → (2:ℝ) ^ (l - 1) < x ∧ x ≤ 2 ^ h := by
  unfold Ordered at ho
  have hnone : ∀ c : Int, Algebraics.ceilLog2 c = none ↔ c ≤ 0 := by
    intro c; unfold Algebraics.ceilLog2; split <;> simp_all
  have hp : (0:ℝ) < 2 ^ a.log2Denom := by positivity
  constructor
  · unfold DFI.ceilLog2
    cases h1 : Algebraics.ceilLog2 a.lo with
    | none => simp [(hnone _).mp h1]
    | some l =>
      have : ¬ a.lo ≤ 0 := by rw [← hnone, h1]; simp
      cases h2 : Algebraics.ceilLog2 a.hi with
      | none => have := (hnone _).mp h2; omega
      | some h => simp; omega
  · intro l h hh
    unfold DFI.ceilLog2 at hh
    cases h1 : Algebraics.ceilLog2 a.lo with
    | none => simp [h1] at hh
    | some l' =>
      cases h2 : Algebraics.ceilLog2 a.hi with
      | none => simp [h1, h2] at hh
      | some h' =>
        simp only [h1, h2, Option.bind_eq_bind, Option.bind_some, Option.pure_def, Option.some.injEq,
          Prod.mk.injEq] at hh
        obtain ⟨rfl, rfl⟩ := hh
        have key : ∀ (c : Int) (k : Nat), Algebraics.ceilLog2 c = some k →
            (2:ℝ) ^ ((k : Int) - a.log2Denom - 1) < c / 2 ^ a.log2Denom ∧
            (c : ℝ) / 2 ^ a.log2Denom ≤ 2 ^ ((k : Int) - a.log2Denom) := by
          intro c k hk
          obtain ⟨p0, p1, p2⟩ := (ceilLog2_spec _ _).mp hk
          have p1' : (c:ℝ) ≤ 2 ^ k := by exact_mod_cast p1
          refine ⟨?_, by rw [two_zpow_sub]; gcongr⟩
          rw [zpow_sub_one₀ (by norm_num), two_zpow_sub, div_mul_eq_mul_div, div_lt_div_iff_of_pos_right hp]
          rcases Nat.eq_zero_or_pos k with h0 | h0
          · subst h0
            have : (1:ℝ) ≤ c := by exact_mod_cast p0
            norm_num; linarith
          · have h3 : (2:Int) ^ (k - 1) < c := by
              by_contra hc
              push Not at hc
              have := p2 _ hc; omega
            have h3' : (2:ℝ) ^ (k - 1) < c := by exact_mod_cast h3
            have e : (2:ℝ) ^ k * 2⁻¹ = 2 ^ (k - 1) := by
              obtain ⟨j, rfl⟩ : ∃ j, k = j + 1 := ⟨k - 1, by omega⟩
              rw [pow_succ, Nat.add_sub_cancel]; ring
            rw [e]; exact h3'
        have k1 := key _ _ h1
        have k2 := key _ _ h2
        exact ⟨k1, k2, fun x hx => ⟨lt_of_lt_of_le k1.1 hx.1, hx.2.trans k2.2⟩⟩

example : (⟨3, 17, 2⟩ : DFI).floorLog2 = some (-1, 2) := by decide +kernel
example : (⟨3, 17, 2⟩ : DFI).ceilLog2 = some (0, 3) := by decide +kernel
example : (⟨-3, 17, 2⟩ : DFI).abs = ⟨0, 17, 2⟩ ∧ (⟨-3, 17, 2⟩ : DFI).floor 1 = ⟨-2, 8, 1⟩ ∧
    (⟨-3, 17, 2⟩ : DFI).ceil 1 = ⟨0, 10, 1⟩ := by decide +kernel
example : (⟨-3, 17, 2⟩ : DFI).union ⟨-1, 1, 0⟩ = ⟨-4, 17, 2⟩ := by decide +kernel

end Algebraics
