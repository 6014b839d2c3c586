import Verif.Lemmas.AlgNumLoops
import Mathlib.Algebra.Polynomial.SpecificDegree

/-!
# C39-C43, C48: algebraic numbers

`a.Represents x` (in `Spec/AlgNum.lean`) says that the polynomial and the interval of `a` stand for the
real number `x`; all theorems hold for every polynomial and every isolating interval. Loops without a
bound in the code take a bound `fuel` on the number of turns in the model: `∃ N, ∀ fuel ≥ N, ... = .ok r`
says that the loop ends by itself, does not panic, and gives `r`.
-/

namespace Algebraics

open Polynomial

namespace RealAlg

/-! ## Concrete numbers, used by the examples -/

theorem quadratic_irreducible (b c : ℤ) (h : ∀ n : ℤ, n ^ 2 + b * n + c ≠ 0) :
    Irreducible (X ^ 2 + C b * X + C c : ℤ[X]) := by
  have hm : (X ^ 2 + C b * X + C c : ℤ[X]).Monic := by monicity!
  have hd : (X ^ 2 + C b * X + C c : ℤ[X]).natDegree = 2 := by compute_degree!
  rw [hm.irreducible_iff_roots_eq_zero_of_degree_le_three (by rw [hd]) (by rw [hd]; norm_num)]
  rw [Multiset.eq_zero_iff_forall_notMem]
  intro n hn
  rw [mem_roots'] at hn
  have := hn.2
  simp only [IsRoot, eval_add, eval_pow, eval_X, eval_mul, eval_C] at this
  exact h n this

theorem toPoly_quadratic (b c : ℤ) :
    (Poly.ofCoeffs [c, b, 1] : Poly ℤ).toPoly = X ^ 2 + C b * X + C c := by
  rw [Poly.toPoly_ofCoeffs]
  simp only [listPoly, map_one]
  ring

theorem quadratic_natDegree (b c : ℤ) : (X ^ 2 + C b * X + C c : ℤ[X]).natDegree = 2 := by
  compute_degree!

theorem quadratic_aeval (b c : ℤ) (y : ℝ) :
    aeval y (X ^ 2 + C b * X + C c : ℤ[X]) = y ^ 2 + b * y + c := by
  simp

/-- the square root of two, with isolating interval `[1, 2]`. -/
def sqrtTwo : RealAlg := ⟨Poly.ofCoeffs [-2, 0, 1], ⟨1, 2, 0⟩⟩

theorem sqrtTwo_represents : sqrtTwo.Represents (√2) := by
  have hs : √2 ^ 2 = (2 : ℝ) := Real.sq_sqrt (by norm_num)
  have h0 : 0 ≤ √2 := Real.sqrt_nonneg 2
  have hp : sqrtTwo.poly.toPoly = X ^ 2 + C 0 * X + C (-2) := toPoly_quadratic 0 (-2)
  refine ⟨?_, ?_, ?_, ?_, ?_⟩
  · rw [hp]
    apply quadratic_irreducible
    intro n hn
    have h1 : n ^ 2 = 2 := by linarith
    have h2 : n < 2 := by nlinarith
    have h3 : -2 < n := by nlinarith
    interval_cases n <;> omega
  · rw [hp, quadratic_natDegree]; omega
  · rw [hp, quadratic_aeval, hs]; norm_num
  · simp only [DFI.Contains, sqrtTwo]
    constructor <;> norm_num
  · intro y hy h1
    rw [hp, quadratic_aeval] at h1
    simp only [DFI.Contains, sqrtTwo] at hy
    norm_num at hy h1
    nlinarith

/-- `3 + √2`, with isolating interval `[4, 5]`. -/
def threePlusSqrtTwo : RealAlg := ⟨Poly.ofCoeffs [7, -6, 1], ⟨4, 5, 0⟩⟩

theorem threePlusSqrtTwo_represents : threePlusSqrtTwo.Represents (3 + √2) := by
  have hs : √2 ^ 2 = (2 : ℝ) := Real.sq_sqrt (by norm_num)
  have h0 : 0 ≤ √2 := Real.sqrt_nonneg 2
  have hp : threePlusSqrtTwo.poly.toPoly = X ^ 2 + C (-6) * X + C 7 := toPoly_quadratic (-6) 7
  refine ⟨?_, ?_, ?_, ?_, ?_⟩
  · rw [hp]
    apply quadratic_irreducible
    intro n hn
    have h2 : n < 5 := by nlinarith
    have h3 : 1 < n := by nlinarith
    interval_cases n <;> omega
  · rw [hp, quadratic_natDegree]; omega
  · rw [hp, quadratic_aeval]; push_cast; nlinarith
  · simp only [DFI.Contains, threePlusSqrtTwo]
    constructor <;> norm_num <;> nlinarith
  · intro y hy h1
    rw [hp, quadratic_aeval] at h1
    simp only [DFI.Contains, threePlusSqrtTwo] at hy
    norm_num at hy h1
    nlinarith

end RealAlg

open RealAlg

/-! ## C39 rational conversions -/

/-- C39: conversions from integers and rationals are exact. -/
theorem C39_from_rational (q : ℚ) (n : ℤ) :
    (ofRat q).Represents q ∧ (ofInt n).Represents n :=
  ⟨ofRat_represents q, ofInt_represents n⟩

/-- C39: `to_rational` gives the rational number represented, and `None` for irrational numbers. -/
theorem C39_to_rational (a : RealAlg) (x : ℝ) (h : a.Represents x) :
    (∀ q : ℚ, x = q → a.toRational = .ok (some q)) ∧ (Irrational x → a.toRational = .ok none) := by
  refine ⟨?_, h.toRational_irr⟩
  rintro q rfl
  exact h.toRational_rat

/-- C39: the parts of the ratio that `to_rational` returns (built without reduction) are the reduced
numerator and the positive denominator. -/
theorem C39_to_rational_reduced (a : RealAlg) (q : ℚ) (h : a.Represents q) :
    a.toRationalRaw = .ok (some (q.num, (q.den : ℤ))) := h.toRationalRaw_rat

/-- C39: `to_integer` gives the integer represented, and `None` for all other numbers. -/
theorem C39_to_integer (a : RealAlg) (x : ℝ) (h : a.Represents x) :
    (∀ n : ℤ, x = n → a.toInteger = .ok (some n)) ∧
    ((∀ n : ℤ, x ≠ n) → a.toInteger = .ok none) := by
  constructor
  · rintro n rfl
    exact h.toInteger_int
  · intro hx
    exact h.toInteger_none fun ⟨n, hn⟩ => hx n hn.symm

/-- C39: `is_rational` and `is_integer` do not panic and are exact. -/
theorem C39_is_rational (a : RealAlg) (x : ℝ) (h : a.Represents x) :
    ∃ r i, a.isRational = .ok r ∧ (r = true ↔ ∃ q : ℚ, x = q) ∧
      a.isInteger = .ok i ∧ (i = true ↔ ∃ n : ℤ, x = n) := by
  classical
  refine ⟨_, _, h.isRational_eq, ?_, h.isInteger_eq, ?_⟩
  · rw [decide_eq_true_iff]
    rcases h.rat_or_irr with ⟨q, h1, h2, -⟩ | ⟨h1, h2⟩
    · exact ⟨fun _ => ⟨q, h1.symm⟩, fun _ => h2.le⟩
    · exact ⟨fun e => by omega, fun ⟨q, hq⟩ => absurd ⟨q, hq.symm⟩ h2⟩
  · rw [decide_eq_true_iff]
    exact ⟨fun ⟨n, hn⟩ => ⟨n, hn.symm⟩, fun ⟨n, hn⟩ => ⟨n, hn.symm⟩⟩

/-- C39: converting to an algebraic number and back gives the same rational number. -/
theorem C39_round_trip (q : ℚ) : (ofRat q).toRational = .ok (some q) :=
  (C39_to_rational _ _ (ofRat_represents q)).1 q rfl

example : (ofRat (-3 / 7)).Represents ((-3 / 7 : ℚ) : ℝ) := (C39_from_rational _ 0).1
example : sqrtTwo.toRational = .ok none :=
  (C39_to_rational _ _ sqrtTwo_represents).2 irrational_sqrt_two

/-! ## C40 negation and reciprocal -/

/-- C40: negation never panics and represents the negated number. -/
theorem C40_neg (a : RealAlg) (x : ℝ) (h : a.Represents x) :
    ∃ b, a.neg = .ok b ∧ b.Represents (-x) := by
  obtain ⟨b, h1, h2, -⟩ := h.neg
  exact ⟨b, h1, h2⟩

/-- C40: the reciprocal of a rational number is exact, `None` for zero. -/
theorem C40_recip_rational (a : RealAlg) (q : ℚ) (h : a.Represents q) (fuel : ℕ) :
    (q = 0 → a.checkedRecip fuel = .ok none) ∧
    (q ≠ 0 → ∃ b, a.checkedRecip fuel = .ok (some b) ∧ b.Represents (q : ℝ)⁻¹) := by
  rw [h.checkedRecip_rat]
  refine ⟨fun h0 => by rw [if_pos h0], fun h0 => ⟨ofRat q⁻¹, by rw [if_neg h0], ?_⟩⟩
  have := ofRat_represents q⁻¹
  simpa using this

/-- C40: `recip` returns what `checked_recip` finds, and panics for zero. -/
theorem C40_recip_method (a : RealAlg) (fuel : ℕ) :
    (∀ b, a.recip fuel = .ok b ↔ a.checkedRecip fuel = .ok (some b)) ∧
    (a.Represents 0 → a.recip fuel = .error .panic) := by
  unfold RealAlg.recip
  refine ⟨fun b => ?_, fun h => ?_⟩
  · cases h : a.checkedRecip fuel with
    | error e => simp [bind, Except.bind]
    | ok r => cases r <;> simp [bind, Except.bind, orPanic]
  · have h0 : a.Represents ((0 : ℚ) : ℝ) := by simpa using h
    rw [h0.checkedRecip_rat, if_pos rfl]
    rfl

example : (RealAlg.ofInt 0).recip 3 = .error .panic :=
  (C40_recip_method _ 3).2 (by have := ofInt_represents 0; simpa using this)

example : (RealAlg.ofInt 4).recip 0 = .ok (RealAlg.ofRat (1 / 4)) :=
  ((C40_recip_method _ 0).1 _).mpr (by decide +kernel)

/-- C40: the reciprocal of an irrational number ends without panic, its polynomial is irreducible, has
the reciprocal as a root, and its interval holds the reciprocal; it represents the reciprocal if that
interval holds no other root. Missing: that the interval holds no other root, which is false
(`C40_recip_false`): the new interval is rounded outwards and is not checked again. -/
theorem C40_recip_partial (a : RealAlg) (x : ℝ) (h : a.Represents x) (hx : Irrational x) :
    ∃ N, ∀ fuel ≥ N, ∃ b, a.checkedRecip fuel = .ok (some b) ∧ Irreducible b.poly.toPoly ∧
      aeval x⁻¹ b.poly.toPoly = 0 ∧ b.interval.Contains x⁻¹ ∧
      ((∀ y : ℝ, b.interval.Contains y → aeval y b.poly.toPoly = 0 → y = x⁻¹) →
        b.Represents x⁻¹) := by
  obtain ⟨N, hN⟩ := h.checkedRecip_irr hx
  refine ⟨N, fun fuel hf => ?_⟩
  obtain ⟨b, h1, h2, h3, h4, h5, h6, -⟩ := hN fuel hf
  refine ⟨b, h1, h2, h5, h6, fun h7 => ⟨h2, fun hd => ?_, h5, h6, h7⟩⟩
  rcases h.rat_or_irr with ⟨q, hq, -⟩ | ⟨hd', -⟩
  · exact absurd ⟨q, hq⟩ hx
  · omega

/-- C40: the reciprocal is right for every irrational number that is the only root of its sign of its
polynomial (square roots of rational numbers, for example). -/
theorem C40_recip_one_sign_partial (a : RealAlg) (x : ℝ) (h : a.Represents x) (hx : Irrational x)
    (hs : ∀ y : ℝ, aeval y a.poly.toPoly = 0 → 0 < x * y → y = x) :
    ∃ N, ∀ fuel ≥ N, ∃ b, a.checkedRecip fuel = .ok (some b) ∧ b.Represents x⁻¹ := by
  obtain ⟨N, hN⟩ := h.checkedRecip_irr hx
  have hx0 : x ≠ 0 := fun e => hx ⟨0, by simp [e]⟩
  refine ⟨N, fun fuel hf => ?_⟩
  obtain ⟨b, h1, h2, h3, h4, h5, h6, h7, h8⟩ := hN fuel hf
  refine ⟨b, h1, h2, fun hd => ?_, h5, h6, ?_⟩
  · rcases h.rat_or_irr with ⟨q, hq, -⟩ | ⟨hd', -⟩
    · exact absurd ⟨q, hq⟩ hx
    · omega
  · intro y hy hr
    have hy0 : y ≠ 0 := by
      rintro rfl
      rw [h3, aeval_def, eval₂_at_zero, coeff_zero_reverse] at hr
      have : a.poly.toPoly.leadingCoeff = 0 := by simpa using hr
      exact h.ne_zero (leadingCoeff_eq_zero.mp this)
    have hroot : aeval y⁻¹ a.poly.toPoly = 0 := by
      rw [h3] at hr
      have := (aeval_reverse (p := a.poly.toPoly) (y := y⁻¹) (inv_ne_zero hy0)).mp
      rw [inv_inv] at this
      exact this hr
    have hpos : 0 < x * y⁻¹ := by
      rcases lt_or_gt_of_ne hx0 with hn | hp
      · have e1 : (b.interval.hi : ℝ) ≤ 0 := by exact_mod_cast h8 hn
        have e2 : y ≤ 0 := hy.2.trans (div_nonpos_of_nonpos_of_nonneg e1 (by positivity))
        exact mul_pos_of_neg_of_neg hn (inv_lt_zero.mpr (lt_of_le_of_ne e2 hy0))
      · have e1 : (0 : ℝ) ≤ b.interval.lo := by exact_mod_cast h7 hp
        have e2 : 0 ≤ y := le_trans (by positivity) hy.1
        exact mul_pos hp (inv_pos.mpr (lt_of_le_of_ne e2 hy0.symm))
    rw [← hs _ hroot hpos, inv_inv]

/-- C40 is false in full: the reciprocal of `3 + √2`, held with the isolating interval `[4, 5]`, comes
back with the interval `[0, 1]`, which holds both roots of its polynomial; it stands for no number, and
taking its floor panics. -/
theorem C40_recip_false : threePlusSqrtTwo.Represents (3 + √2) ∧ ∀ fuel, ∃ b,
    threePlusSqrtTwo.checkedRecip (fuel + 1) = .ok (some b) ∧ (∀ y : ℝ, ¬ b.Represents y) ∧
    b.integerFloor (fuel + 1) = .error .panic := by
  refine ⟨threePlusSqrtTwo_represents, fun fuel => ?_⟩
  refine ⟨⟨Poly.ofCoeffs [1, -6, 7], ⟨0, 1, 0⟩⟩, ?_, ?_, ?_⟩
  · have h1 : threePlusSqrtTwo.toRational = .ok none := by decide +kernel
    have h2 : threePlusSqrtTwo.cmpWithZero = .ok .gt := by decide +kernel
    obtain ⟨s, h3, h4⟩ : ∃ s, intervalShrinker ⟨threePlusSqrtTwo.poly, ⟨4, 5, 0⟩⟩ = .ok s ∧
        s.interval = ⟨4, 5, 0⟩ := by
      obtain ⟨s, e1, -, e2⟩ := threePlusSqrtTwo_represents.intervalShrinker
      exact ⟨s, e1, e2⟩
    have h5 : clipToSign false threePlusSqrtTwo.interval = some ⟨4, 5, 0⟩ := by decide +kernel
    have h6 : removeZeroLoop (fuel + 1) s = .ok s := by
      unfold removeZeroLoop
      rw [h4]; rfl
    unfold checkedRecip removeZeroFromInterval
    rw [h1, h2]
    have h7 : (⟨4, 5, 0⟩ : DFI).checkedRecip = some ⟨0, 1, 0⟩ := by decide +kernel
    have h8 : (Poly.ofCoeffs threePlusSqrtTwo.poly.coeffs.reverse : Poly ℤ) =
        Poly.ofCoeffs [1, -6, 7] := by decide +kernel
    simp [bind, Except.bind, pure, Except.pure, h5, orPanic, h3, h6, h4, h7, h8]
  · intro y hy
    have hs : √2 ^ 2 = (2 : ℝ) := Real.sq_sqrt (by norm_num)
    have h0 : 0 < √2 := Real.sqrt_pos.mpr (by norm_num)
    have hp : (Poly.ofCoeffs [1, -6, 7] : Poly ℤ).toPoly = C 7 * X ^ 2 + C (-6) * X + C 1 := by
      rw [Poly.toPoly_ofCoeffs]
      simp only [listPoly]
      ring
    have key : ∀ z : ℝ, 7 * z ^ 2 - 6 * z + 1 = 0 → 0 ≤ z → z ≤ 1 → z = y := by
      intro z h1 h2 h3
      refine hy.isolated z ⟨by simpa using h2, by simpa using h3⟩ ?_
      simp only [hp, map_add, map_mul, map_pow, aeval_X, aeval_C]
      simp only [algebraMap_int_eq, eq_intCast]
      push_cast
      linarith
    have e1 := key ((3 + √2) / 7) (by nlinarith) (by positivity) (by nlinarith)
    have e2 := key ((3 - √2) / 7) (by nlinarith) (by nlinarith) (by nlinarith)
    linarith
  · have h1 : (⟨Poly.ofCoeffs [1, -6, 7], ⟨0, 1, 0⟩⟩ : RealAlg).toRational = .ok none := by
      decide +kernel
    have h2 : ((⟨Poly.ofCoeffs [1, -6, 7], ⟨0, 1, 0⟩⟩ : RealAlg).intervalShrinker).toOption.bind
        (fun s => s.shrink) = none := by decide +kernel
    have h3 : ((⟨Poly.ofCoeffs [1, -6, 7], ⟨0, 1, 0⟩⟩ : RealAlg).intervalShrinker).toOption.map
        (fun s => decide ((s.interval.floor 0).lo = (s.interval.floor 0).hi)) = some false := by
      decide +kernel
    unfold integerFloor
    rw [h1]
    cases hs : (⟨Poly.ofCoeffs [1, -6, 7], ⟨0, 1, 0⟩⟩ : RealAlg).intervalShrinker with
    | error e => rw [hs] at h3; simp [Except.toOption] at h3
    | ok s =>
      rw [hs] at h2 h3
      simp only [Except.toOption, Option.bind_some, Option.map_some, Option.some.injEq,
        decide_eq_false_iff_not] at h2 h3
      simp [bind, Except.bind, floorLoop, h2, h3]

example : ∃ N, ∀ fuel ≥ N, ∃ b, sqrtTwo.checkedRecip fuel = .ok (some b) ∧ b.Represents (√2)⁻¹ := by
  refine C40_recip_one_sign_partial _ _ sqrtTwo_represents irrational_sqrt_two ?_
  intro y hy hpos
  have hp : sqrtTwo.poly.toPoly = X ^ 2 + C 0 * X + C (-2) := toPoly_quadratic 0 (-2)
  rw [hp, quadratic_aeval] at hy
  have hs : √2 ^ 2 = (2 : ℝ) := Real.sq_sqrt (by norm_num)
  have h0 : 0 < √2 := Real.sqrt_pos.mpr (by norm_num)
  have hy0 : 0 < y := (pos_iff_pos_of_mul_pos hpos).mp h0
  push_cast at hy
  nlinarith

/-! ## C41 sign -/

/-- C41: `cmp_with_zero` never panics and is the sign of the number represented. -/
theorem C41_cmp_with_zero (a : RealAlg) (x : ℝ) (h : a.Represents x) :
    ∃ o, a.cmpWithZero = .ok o ∧ (o = .lt ↔ x < 0) ∧ (o = .eq ↔ x = 0) ∧ (o = .gt ↔ 0 < x) := by
  rcases h.cmpWithZero with ⟨h1, h2⟩ | ⟨h1, h2⟩ | ⟨h1, h2⟩
  · exact ⟨.lt, h1, by simp [h2], by simp [h2.ne], by simp [h2.le]⟩
  · exact ⟨.eq, h1, by simp [h2], by simp [h2], by simp [h2]⟩
  · exact ⟨.gt, h1, by simp [h2.le], by simp [h2.ne'], by simp [h2]⟩

/-- C41: the tests for zero, one, minus one, positive and negative numbers. -/
theorem C41_tests (a : RealAlg) (x : ℝ) (h : a.Represents x) :
    (a.isZero = true ↔ x = 0) ∧ (a.isOne = true ↔ x = 1) ∧ (a.isNegativeOne = true ↔ x = -1) ∧
    (∃ p, a.isPositive = .ok p ∧ (p = true ↔ 0 < x)) ∧
    (∃ n, a.isNegative = .ok n ∧ (n = true ↔ x < 0)) := by
  classical
  exact ⟨h.isZero_iff, h.isOne_iff, h.isNegativeOne_iff, ⟨_, h.isPositive_eq, decide_eq_true_iff⟩,
    ⟨_, h.isNegative_eq, decide_eq_true_iff⟩⟩

/-- C41: `abs` and `signum`. -/
theorem C41_abs_signum (a : RealAlg) (x : ℝ) (h : a.Represents x) :
    (∃ b, a.abs = .ok b ∧ b.Represents |x|) ∧
    (∃ b, a.signum = .ok b ∧ b.Represents (if x < 0 then -1 else if x = 0 then 0 else 1)) := by
  refine ⟨h.abs, ?_⟩
  obtain ⟨b, h1, h2⟩ := h.signum
  refine ⟨b, h1, ?_⟩
  rcases lt_trichotomy x 0 with h0 | h0 | h0
  · simpa [h0] using h2
  · simpa [h0] using h2
  · simpa [h0, h0.ne', not_lt.mpr h0.le] using h2

example : ∃ b, sqrtTwo.neg = .ok b ∧ b.Represents (-√2) ∧ b.cmpWithZero = .ok .lt := by
  obtain ⟨b, h1, h2⟩ := C40_neg _ _ sqrtTwo_represents
  obtain ⟨o, h3, h4, -⟩ := C41_cmp_with_zero b _ h2
  refine ⟨b, h1, h2, ?_⟩
  rw [h3, h4.mpr (by simp)]

/-! ## C42 shrinking -/

/-- C42: however often the interval of a number is shrunk, no call panics, the interval still isolates
the number, lies in the one before, and has shrunk at least by the factor 17/32 each time, so the widths
tend to zero. -/
theorem C42_shrink (a : RealAlg) (x : ℝ) (h : a.Represents x) :
    ∃ s, a.intervalShrinker = .ok s ∧ s.interval = a.interval ∧ ∃ t : ℕ → Shrinker,
      (∀ n, Shrinker.shrinkTimes n s = some (t n) ∧
        (⟨a.poly, (t n).interval⟩ : RealAlg).Represents x ∧
        (t (n + 1)).interval.Within (t n).interval ∧
        (t (n + 1)).interval.width ≤ 17 / 32 * (t n).interval.width) ∧
      Filter.Tendsto (fun n => ((t n).interval.width : ℝ)) Filter.atTop (nhds 0) := by
  obtain ⟨s, h1, h2, h3⟩ := h.intervalShrinker
  refine ⟨s, h1, h3, ?_⟩
  have key : ∀ n, ∃ t, Shrinker.shrinkTimes n s = some t ∧ t.Valid a.poly x := by
    intro n
    induction n with
    | zero => exact ⟨s, rfl, h2⟩
    | succ n ih =>
      obtain ⟨t, h4, h5⟩ := ih
      obtain ⟨u, r, h6, h7⟩ := h5.shrink
      exact ⟨u, by simp [Shrinker.shrinkTimes, h4, h6], h7.valid⟩
  choose t ht1 ht2 using key
  have hstep : ∀ n, Shrinker.Step a.poly x (t n) (t (n + 1)) := by
    intro n
    obtain ⟨u, r, h6, h7⟩ := (ht2 n).shrink
    have := ht1 (n + 1)
    simp only [Shrinker.shrinkTimes, ht1 n, Option.bind_some, h6, Option.map_some,
      Option.some.injEq] at this
    rw [← this]
    exact h7
  refine ⟨t, fun n => ⟨ht1 n, (ht2 n).rep, Shrinker.within_of_bounds (hstep n).lower (hstep n).upper,
    (hstep n).width⟩, ?_⟩
  have hw : ∀ n, ((t n).interval.width : ℝ) ≤ (17 / 32) ^ n * (t 0).interval.width := by
    intro n
    induction n with
    | zero => simp
    | succ n ih =>
      have h8 : ((t (n + 1)).interval.width : ℝ) ≤ 17 / 32 * (t n).interval.width := by
        have := Rat.cast_le (K := ℝ).mpr (hstep n).width
        push_cast at this
        exact this
      rw [pow_succ]
      linarith
  have hw0 : ∀ n, (0 : ℝ) ≤ (t n).interval.width := by
    intro n
    rw [DFI.width_real]
    have := (ht2 n).rep.lower_le
    have := (ht2 n).rep.le_upper
    linarith
  refine squeeze_zero hw0 hw ?_
  have := (tendsto_pow_atTop_nhds_zero_of_lt_one (r := (17 / 32 : ℝ)) (by norm_num)
    (by norm_num)).mul_const ((t 0).interval.width : ℝ)
  simpa using this

example : ∃ s, sqrtTwo.intervalShrinker = .ok s ∧ ∃ t, Shrinker.shrinkTimes 1000 s = some t ∧
    (⟨sqrtTwo.poly, t.interval⟩ : RealAlg).Represents (√2) := by
  obtain ⟨s, h1, -, t, h2, -⟩ := C42_shrink _ _ sqrtTwo_represents
  exact ⟨s, h1, t 1000, (h2 1000).1, (h2 1000).2.1⟩

/-! ## C43 floor, ceiling, truncation, fractional part -/

/-- C43: the three conversions to an integer end without panic and give floor, ceiling and
truncation. -/
theorem C43_to_integer (a : RealAlg) (x : ℝ) (h : a.Represents x) :
    ∃ N, ∀ fuel ≥ N, a.integerFloor fuel = .ok ⌊x⌋ ∧ a.integerCeil fuel = .ok ⌈x⌉ ∧
      a.integerTrunc fuel = .ok (if 0 ≤ x then ⌊x⌋ else ⌈x⌉) := by
  obtain ⟨N1, h1⟩ := h.integerFloor
  obtain ⟨N2, h2⟩ := h.integerCeil
  obtain ⟨N3, h3⟩ := h.integerTrunc
  exact ⟨max N1 (max N2 N3), fun fuel hf => ⟨h1 _ (by omega), h2 _ (by omega), h3 _ (by omega)⟩⟩

/-- C43: the same for the versions that return an algebraic number. -/
theorem C43_floor_ceil_trunc (a : RealAlg) (x : ℝ) (h : a.Represents x) :
    ∃ N, ∀ fuel ≥ N, (∃ b, a.floor fuel = .ok b ∧ b.Represents ⌊x⌋) ∧
      (∃ b, a.ceil fuel = .ok b ∧ b.Represents ⌈x⌉) ∧
      (∃ b, a.trunc fuel = .ok b ∧ b.Represents ((if 0 ≤ x then ⌊x⌋ else ⌈x⌉ : ℤ) : ℝ)) := by
  obtain ⟨N1, h1⟩ := h.floor
  obtain ⟨N2, h2⟩ := h.ceil
  obtain ⟨N3, h3⟩ := h.trunc
  exact ⟨max N1 (max N2 N3), fun fuel hf => ⟨h1 _ (by omega), h2 _ (by omega), h3 _ (by omega)⟩⟩

theorem ratFract_eq (q : ℚ) : ratFract q = q - (if 0 ≤ q then ⌊q⌋ else ⌈q⌉ : ℤ) := by
  have hd : (q.den : ℚ) ≠ 0 := by exact_mod_cast q.den_nz
  have hq : q = q.num / q.den := (Rat.num_div_den q).symm
  have ht : (if 0 ≤ q then ⌊q⌋ else ⌈q⌉ : ℤ) = q.num.tdiv q.den := by
    by_cases h0 : 0 ≤ q
    · rw [if_pos h0, Rat.floor_def', Int.tdiv_eq_ediv_of_nonneg (Rat.num_nonneg.mpr h0)]
    · rw [if_neg h0]
      have hn : q.num ≤ 0 := (Rat.num_neg.mpr (not_le.mp h0)).le
      rw [← neg_inj, ← Int.floor_neg, Rat.floor_def', Rat.neg_num, Rat.neg_den, ← Int.neg_tdiv,
        Int.tdiv_eq_ediv_of_nonneg (by omega)]
  rw [ht]
  unfold ratFract
  rw [div_eq_iff hd]
  have := Int.mul_tdiv_add_tmod q.num q.den
  have h2 : ((q.den : ℤ) * q.num.tdiv q.den + q.num.tmod q.den : ℚ) = q.num := by exact_mod_cast this
  have h3 : q * q.den = q.num := by rw [eq_comm, ← div_eq_iff hd, ← hq]
  push_cast at h2
  rw [sub_mul, h3]
  linarith

/-- C43: `fract` of a rational number ends without panic and gives `x - trunc(x)`, which is
`x - floor(x)` for integers and for numbers that are not negative. Missing: negative rational numbers,
where the claim is false (`C43_fract_false`); irrational numbers are `C43_fract_irrational_partial`. -/
theorem C43_fract_rational_partial (a : RealAlg) (q : ℚ) (h : a.Represents q) (F : FactorCall)
    (fuel : ℕ) :
    ∃ b, a.fract F fuel = .ok b ∧
      b.Represents ((q : ℝ) - (if 0 ≤ q then ⌊(q : ℝ)⌋ else ⌈(q : ℝ)⌉ : ℤ)) ∧
      (0 ≤ q ∨ q.den = 1 → b.Represents ((q : ℝ) - ⌊(q : ℝ)⌋)) := by
  have h1 : a.fract F fuel = .ok (ofRat (ratFract q)) := by
    unfold RealAlg.fract
    rw [h.toRational_rat]
    rfl
  have h2 := ofRat_represents (ratFract q)
  rw [ratFract_eq] at h2
  have h3 : (((q - (if 0 ≤ q then ⌊q⌋ else ⌈q⌉ : ℤ) : ℚ) : ℚ) : ℝ) =
      (q : ℝ) - (if 0 ≤ q then ⌊(q : ℝ)⌋ else ⌈(q : ℝ)⌉ : ℤ) := by
    rw [Rat.floor_cast, Rat.ceil_cast, Rat.cast_sub, Rat.cast_intCast]
  rw [h3] at h2
  refine ⟨_, h1, by rw [ratFract_eq]; exact h2, ?_⟩
  rintro (h4 | h4)
  · have e : (if 0 ≤ q then ⌊(q : ℝ)⌋ else ⌈(q : ℝ)⌉ : ℤ) = ⌊(q : ℝ)⌋ := if_pos h4
    rw [e] at h2
    rw [ratFract_eq]
    exact h2
  · have hq : q = (q.num : ℚ) := (Rat.coe_int_num_of_den_eq_one h4).symm
    have e : (if 0 ≤ q then ⌊(q : ℝ)⌋ else ⌈(q : ℝ)⌉ : ℤ) = ⌊(q : ℝ)⌋ := by
      rw [Rat.floor_cast, Rat.ceil_cast, hq]
      simp
    rw [e] at h2
    rw [ratFract_eq]
    exact h2

/-- C43 is false in full: the fractional part of `-1/2` comes out as `-1/2`, where the documentation
promises `x - floor(x)`, that is `1/2`. -/
theorem C43_fract_false (F : FactorCall) (fuel : ℕ) :
    (ofRat (-1 / 2)).Represents ((-1 / 2 : ℚ) : ℝ) ∧ ∃ b, (ofRat (-1 / 2)).fract F fuel = .ok b ∧
      b.Represents (-1 / 2) ∧ (-1 / 2 : ℝ) - ⌊(-1 / 2 : ℝ)⌋ = 1 / 2 := by
  refine ⟨ofRat_represents _, ofRat (-1 / 2), ?_, ?_, ?_⟩
  · unfold RealAlg.fract
    rw [(ofRat_represents (-1 / 2)).toRational_rat]
    have : ratFract (-1 / 2) = -1 / 2 := by decide +kernel
    simp [bind, Except.bind, pure, Except.pure, this]
  · have := ofRat_represents (-1 / 2)
    push_cast at this
    exact this
  · have : ⌊(-1 / 2 : ℝ)⌋ = -1 := by rw [Int.floor_eq_iff]; norm_num
    rw [this]; norm_num

example : ∃ N, ∀ fuel ≥ N, sqrtTwo.integerFloor fuel = .ok 1 ∧ sqrtTwo.integerCeil fuel = .ok 2 := by
  obtain ⟨N, h⟩ := C43_to_integer _ _ sqrtTwo_represents
  have hs : √2 ^ 2 = (2 : ℝ) := Real.sq_sqrt (by norm_num)
  have h0 : 0 < √2 := Real.sqrt_pos.mpr (by norm_num)
  have h1 : ⌊√2⌋ = 1 := by rw [Int.floor_eq_iff]; constructor <;> norm_num <;> nlinarith
  have h2 : ⌈√2⌉ = 2 := by rw [Int.ceil_eq_iff]; constructor <;> norm_num <;> nlinarith
  refine ⟨N, fun fuel hf => ?_⟩
  obtain ⟨h3, h4, -⟩ := h fuel hf
  rw [h3, h4, h1, h2]
  exact ⟨rfl, rfl⟩

/-! ## C48 binary logarithm -/

/-- C48: for positive numbers both logarithms end without panic and are the floor and the ceiling of
the base 2 logarithm; for all other numbers they are `None`. -/
theorem C48_log2 (a : RealAlg) (x : ℝ) (h : a.Represents x) :
    (0 < x → ∃ N, ∀ fuel ≥ N, a.checkedFloorLog2 fuel = .ok (some ⌊Real.logb 2 x⌋) ∧
      a.checkedCeilLog2 fuel = .ok (some ⌈Real.logb 2 x⌉)) ∧
    (x ≤ 0 → ∀ fuel, a.checkedFloorLog2 fuel = .ok none ∧ a.checkedCeilLog2 fuel = .ok none) := by
  constructor
  · intro hx
    obtain ⟨N, hN⟩ := h.checkedFloorLog2.2 hx
    obtain ⟨M, hM⟩ := h.checkedCeilLog2.2 hx
    exact ⟨max N M, fun fuel hf => ⟨hN _ (by omega), hM _ (by omega)⟩⟩
  · intro hx fuel
    exact ⟨h.checkedFloorLog2.1 hx fuel, h.checkedCeilLog2.1 hx fuel⟩

/-- C48: `to_integer_log2` of a positive number finds exactly the powers of two. -/
theorem C48_integer_log2 (a : RealAlg) (x : ℝ) (h : a.Represents x) (hx : 0 < x) :
    ∃ r, a.toIntegerLog2 = .ok r ∧ ∀ k : ℤ, r = some k ↔ x = 2 ^ k := by
  rcases h.toIntegerLog2 hx with ⟨k, h1, h2⟩ | ⟨h1, h2⟩
  · refine ⟨_, h1, fun l => ?_⟩
    rw [h2, Option.some.injEq]
    refine ⟨fun e => by rw [e], fun e => ?_⟩
    exact zpow_right_injective₀ (by norm_num : (0 : ℝ) < 2) (by norm_num) e
  · exact ⟨_, h1, fun k => ⟨fun e => by simp at e, fun e => absurd e (h2 k)⟩⟩

example : ∃ N, ∀ fuel ≥ N, sqrtTwo.checkedFloorLog2 fuel = .ok (some 0) ∧
    sqrtTwo.checkedCeilLog2 fuel = .ok (some 1) := by
  have h0 : 0 < √2 := Real.sqrt_pos.mpr (by norm_num)
  have hs : √2 ^ 2 = (2 : ℝ) := Real.sq_sqrt (by norm_num)
  obtain ⟨N, h⟩ := (C48_log2 _ _ sqrtTwo_represents).1 h0
  have h1 : ⌊Real.logb 2 √2⌋ = 0 := by
    rw [floor_logb_iff h0]; constructor <;> norm_num <;> nlinarith
  have h2 : ⌈Real.logb 2 √2⌉ = 1 := by
    rw [ceil_logb_iff h0]; constructor <;> norm_num <;> nlinarith
  refine ⟨N, fun fuel hf => ?_⟩
  have := h fuel hf
  rwa [h1, h2] at this

end Algebraics
