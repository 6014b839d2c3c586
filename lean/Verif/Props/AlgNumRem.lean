import Verif.Props.AlgNumTotal
import Verif.Props.AlgNumFalse

/-!
Property C58, continued: the remainder (`src/algebraic_numbers.rs:1451-1489`) and `abs_sub` of two
algebraic numbers neither of which needs to be rational. The remainder is a quotient, a truncation, a product
and a difference; each of the three arithmetic steps can go wrong for unlucky operands
(`C44_add_false`, `C45_mul_false`), so the theorems are about numbers whose degrees have no common factor.
-/

namespace Algebraics

open Polynomial

namespace RealAlg

/-- the remainder is smaller than the divisor and does not have the sign opposite to the dividend -/
theorem truncate_rem (x y : ℝ) (hy : y ≠ 0) :
    |x - truncate (x / y) * y| < |y| ∧ 0 ≤ (x - truncate (x / y) * y) * x := by
  have hsplit : x - truncate (x / y) * y = (x / y - truncate (x / y)) * y := by
    field_simp
  have hfrac : |x / y - truncate (x / y)| < 1 ∧ 0 ≤ (x / y - truncate (x / y)) * (x / y) := by
    unfold truncate
    by_cases h0 : 0 ≤ x / y
    · rw [if_pos h0]
      have e1 := Int.floor_le (x / y)
      have e2 := Int.lt_floor_add_one (x / y)
      refine ⟨by rw [abs_lt]; constructor <;> linarith, mul_nonneg (by linarith) h0⟩
    · rw [if_neg h0]
      have e1 := Int.le_ceil (x / y)
      have e2 := Int.ceil_lt_add_one (x / y)
      refine ⟨by rw [abs_lt]; constructor <;> linarith, ?_⟩
      exact mul_nonneg_of_nonpos_of_nonpos (by linarith) (by linarith)
  constructor
  · rw [hsplit, abs_mul]
    calc _ < 1 * |y| := mul_lt_mul_of_pos_right hfrac.1 (abs_pos.mpr hy)
      _ = _ := one_mul _
  · have e : (x - truncate (x / y) * y) * x = (x / y - truncate (x / y)) * (x / y) * y ^ 2 := by
      rw [hsplit]; field_simp
    rw [e]
    exact mul_nonneg hfrac.2 (sq_nonneg _)

/-- with fair random numbers the result of `factor` is the same for every amount of fuel that is enough -/
theorem factorCall_settles (choose : ℕ → List ℕ → ℕ) (hc : Poly.HeapOrder choose) (rng : ℕ → ℕ)
    (hfair : Fair rng) (R : Poly ℤ) (hR : R.Moderate) :
    ∃ N r, ∀ fuel ≥ N, factorCall choose rng fuel R = .ok r := by
  obtain ⟨h, h1, h2⟩ := hR
  obtain ⟨r, pos', N, -, hN⟩ := C61_fair_finishes_sized choose hc rng hfair R h h1 h2 0
  refine ⟨N, r, fun fuel hf => ?_⟩
  unfold factorCall
  rw [hN fuel hf]
  rfl

/-- the remainder from its steps -/
theorem rem_of_steps (F : FactorCall) (a b d e : RealAlg) (x y : ℝ) (N1 N2 : ℕ)
    (h1 : a.div F N1 b = .ok d) (h2 : d.Represents (x / y))
    (h3 : (ofInt (truncate (x / y))).mul F N2 b = .ok e)
    (h4 : ∃ N, ∀ fuel ≥ N, ∃ c, a.sub F fuel e = .ok c ∧ c.Represents (x - truncate (x / y) * y)) :
    ∃ N, ∀ fuel ≥ N, ∃ c, a.rem F fuel b = .ok c ∧ c.Represents (x - truncate (x / y) * y) := by
  obtain ⟨N3, hN3⟩ := h2.integerTrunc
  obtain ⟨N4, hN4⟩ := h4
  refine ⟨max (max N1 N2) (max N3 N4), fun fuel hf => ?_⟩
  obtain ⟨c, h5, h6⟩ := hN4 fuel (by omega)
  refine ⟨c, ?_, h6⟩
  unfold RealAlg.rem RealAlg.trunc
  rw [div_mono F a b d N1 h1 fuel (by omega)]
  simp only [bind, Except.bind, pure, Except.pure]
  rw [hN3 fuel (by omega)]
  simp only
  rw [show (if 0 ≤ x / y then ⌊x / y⌋ else ⌈x / y⌉) = truncate (x / y) from rfl,
    mul_mono F _ b e N2 h3 fuel (by omega)]
  exact h5

/-- the product depends on the factoring of the resultant only -/
theorem mul_congr (F F' : FactorCall) (a b : RealAlg) (fuel : ℕ) (x y : ℝ) (ha : a.Represents x)
    (hb : b.Represents y)
    (h : ∀ R, x ≠ 0 → y ≠ 0 → mulResultant a.poly b.poly = some R → F R = F' R) :
    a.mul F fuel b = a.mul F' fuel b := by
  unfold RealAlg.mul
  cases h1 : a.toRational with
  | error e => rfl
  | ok ar =>
    cases h2 : b.toRational with
    | error e => rfl
    | ok br =>
      simp only [bind, Except.bind]
      by_cases hz : (a.isZero || b.isZero) = true
      · rw [hz]; rfl
      · have hx : x ≠ 0 := fun e => hz (by rw [ha.isZero_iff.mpr e]; rfl)
        have hy : y ≠ 0 := fun e => hz (by rw [hb.isZero_iff.mpr e, Bool.or_true])
        cases h3 : mulResultant a.poly b.poly with
        | none => rfl
        | some R =>
          have := h R hx hy h3
          unfold selectRoot
          simp only [orPanic, bind, Except.bind]
          rw [this]

/-- the degree of a rational multiple -/
theorem coprime_multiple {a b e : RealAlg} {x y : ℝ} {t : ℤ} (ha : a.Represents x) (hb : b.Represents y)
    (he : e.Represents (t * y)) (hy : y ≠ 0)
    (hd : a.poly.toPoly.natDegree.Coprime b.poly.toPoly.natDegree) :
    a.poly.toPoly.natDegree.Coprime e.poly.toPoly.natDegree := by
  by_cases ht : t = 0
  · refine coprime_of_rat ha he (Or.inr (not_not.mpr ⟨0, ?_⟩))
    rw [ht]; simp
  · have hdeg : b.poly.toPoly.natDegree = e.poly.toPoly.natDegree := by
      have hr := (aeval_realCast _ _).mpr he.root
      have hb' := (aeval_realCast _ _).mpr hb.root
      rw [← minpoly_natDegree hb.irreducible hb.natDegree_pos hb',
        ← minpoly_natDegree he.irreducible he.natDegree_pos hr]
      have ht' : ((t : ℚ) : ℂ) ≠ 0 := by exact_mod_cast ht
      refine natDegree_eq_of_mem (integral_root hb.irreducible.ne_zero hb')
        (integral_root he.irreducible.ne_zero hr) ?_ ?_
      · have := div_mem (IntermediateField.mem_adjoin_simple_self ℚ (((t * y : ℝ)) : ℂ))
          (rat_mem (IntermediateField.adjoin ℚ {((t * y : ℝ) : ℂ)}) (t : ℚ))
        have e : ((t * y : ℝ) : ℂ) / ((t : ℚ) : ℂ) = (y : ℂ) := by
          push_cast at ht' ⊢
          field_simp
        rwa [e] at this
      · have := mul_mem (rat_mem (IntermediateField.adjoin ℚ {(y : ℂ)}) (t : ℚ))
          (IntermediateField.mem_adjoin_simple_self ℚ (y : ℂ))
        have e : ((t : ℚ) : ℂ) * (y : ℂ) = ((t * y : ℝ) : ℂ) := by push_cast; rfl
        rwa [e] at this
    rwa [← hdeg]

/-- C58, in part: the remainder of two numbers whose degrees have no common factor ends and is exact, with
the code's own factoring and fair random numbers, when the divisor is not zero and is the only root of its
sign of its polynomial and the numbers that occur are of moderate size. It is smaller than the divisor and
does not have the sign opposite to the dividend. Missing: the other pairs, for which the quotient, the product
or the difference can be wrong (`C40_recip_false`, `C44_add_false`, `C45_mul_false`). -/
theorem _root_.Algebraics.C58_rem_coprime_total_partial (choose : ℕ → List ℕ → ℕ)
    (hc : Poly.HeapOrder choose) (rng : ℕ → ℕ) (hfair : Fair rng) (a b : RealAlg) (x y : ℝ)
    (ha : a.Represents x) (hb : b.Represents y) (hy : y ≠ 0)
    (hs : ∀ z : ℝ, aeval z b.poly.toPoly = 0 → 0 < y * z → z = y)
    (hd : a.poly.toPoly.natDegree.Coprime b.poly.toPoly.natDegree) (hm : a.poly.ModeratePair b.poly)
    (hm1 : (ofInt (truncate (x / y))).poly.ModeratePair b.poly)
    (hm2 : ∀ e : RealAlg, e.Represents (truncate (x / y) * y) → a.poly.ModeratePair e.poly) :
    |x - truncate (x / y) * y| < |y| ∧ 0 ≤ (x - truncate (x / y) * y) * x ∧
    ∃ M, ∀ ffuel ≥ M, ∃ N, ∀ fuel ≥ N, ∃ c, a.rem (factorCall choose rng ffuel) fuel b = .ok c ∧
      c.Represents (x - truncate (x / y) * y) := by
  refine ⟨(truncate_rem x y hy).1, (truncate_rem x y hy).2, ?_⟩
  have hi := ofInt_represents (truncate (x / y))
  obtain ⟨M1, hM1⟩ := C45_div_total_partial choose hc rng hfair a b x y ha hb hy hs hd hm
  obtain ⟨M2, hM2⟩ := C45_mul_total_partial choose hc rng hfair _ b _ y hi hb
    (coprime_of_rat hi hb (Or.inl (not_not.mpr ⟨truncate (x / y), by push_cast; rfl⟩))) hm1
  -- beyond some amount of fuel the factoring of the resultant of the product does not change
  obtain ⟨M3, hM3⟩ : ∃ M3, ∀ ffuel ≥ M3, ∀ R, ((truncate (x / y) : ℤ) : ℝ) ≠ 0 → y ≠ 0 →
      mulResultant (ofInt (truncate (x / y))).poly b.poly = some R →
      factorCall choose rng ffuel R = factorCall choose rng M3 R := by
    by_cases ht : ((truncate (x / y) : ℤ) : ℝ) = 0
    · exact ⟨0, fun _ _ _ h => absurd ht h⟩
    cases hR : mulResultant (ofInt (truncate (x / y))).poly b.poly with
    | none => exact ⟨0, fun _ _ _ _ _ h => by cases h⟩
    | some R =>
      obtain ⟨M3, r, hM3⟩ := factorCall_settles choose hc rng hfair R
        (mulResultant_moderate _ _ R (hi.coeff_zero_ne ht) (hb.coeff_zero_ne hy) hm1 hR)
      refine ⟨M3, fun ffuel hf R' _ _ h => ?_⟩
      cases h
      rw [hM3 ffuel hf, hM3 M3 le_rfl]
  obtain ⟨N2, hN2⟩ := hM2 (max M2 M3) (le_max_left _ _)
  obtain ⟨e, h1, h2⟩ := hN2 N2 le_rfl
  obtain ⟨M4, hM4⟩ := C44_sub_total_partial choose hc rng hfair a e x _ ha h2
    (coprime_multiple ha hb h2 hy hd) (hm2 e h2)
  refine ⟨max (max M1 M2) (max M3 M4), fun ffuel hf => ?_⟩
  obtain ⟨N1, hN1⟩ := hM1 ffuel (by omega)
  obtain ⟨d, -, h3, h4⟩ := hN1 N1 le_rfl
  refine rem_of_steps _ a b d e x y N1 N2 h3 h4 ?_ (hM4 ffuel (by omega))
  rw [← h1]
  refine mul_congr _ _ _ b N2 _ y hi hb fun R h h' hR => ?_
  rw [hM3 ffuel (by omega) R h h' hR, hM3 (max M2 M3) (le_max_right _ _) R h h' hR]

/-- the polynomial of a number is determined up to its sign -/
theorem Represents.poly_unique {a b : RealAlg} {x : ℝ} (ha : a.Represents x) (hb : b.Represents x) :
    b.poly.toPoly = a.poly.toPoly ∨ b.poly.toPoly = -a.poly.toPoly := by
  have main : ∀ {a b : RealAlg}, a.Represents x → b.Represents x → a.poly.toPoly ∣ b.poly.toPoly := by
    intro a b ha hb
    have hx := (aeval_realCast _ _).mpr ha.root
    have hx' := (aeval_realCast _ _).mpr hb.root
    have h := minpoly.dvd ℚ (x : ℂ) ((aeval_map_int _ _).trans hx')
    rw [minpoly_root ha.irreducible ha.natDegree_pos hx] at h
    have hprim := ha.irreducible.isPrimitive (by have := ha.natDegree_pos; omega)
    exact (IsPrimitive.Int.dvd_iff_map_cast_dvd_map_cast _ _ hprim).mpr (dvd_of_mul_right_dvd h)
  obtain ⟨u, hu⟩ := associated_of_dvd_dvd (main ha hb) (main hb ha)
  obtain ⟨e, he, he'⟩ := Polynomial.isUnit_iff.mp u.isUnit
  rw [← he'] at hu
  rcases Int.isUnit_iff.mp he with rfl | rfl
  · left; rw [← hu]; simp
  · right; rw [← hu]; simp

/-- the remainder of `√2` divided by `∛2` is `√2 - ∛2` -/
theorem sqrtTwo_rem_cbrtTwo (rng : ℕ → ℕ) (hfair : Fair rng) : ∃ M, ∀ ffuel ≥ M, ∃ N, ∀ fuel ≥ N, ∃ c,
    sqrtTwo.rem (factorCall firstSmallest rng ffuel) fuel cbrtTwo = .ok c ∧
      c.Represents (√2 - 2 ^ (1 / 3 : ℝ)) := by
  have h3 : ((2 : ℝ) ^ (1 / 3 : ℝ)) ^ 3 = 2 := by
    rw [← Real.rpow_natCast, ← Real.rpow_mul (by norm_num)]; norm_num
  have hc0 : (0 : ℝ) < 2 ^ (1 / 3 : ℝ) := by positivity
  have hc1 : (2 : ℝ) ^ (1 / 3 : ℝ) < 1.3 := by
    by_contra h
    push Not at h
    have : (1.3 : ℝ) ^ 3 ≤ ((2 : ℝ) ^ (1 / 3 : ℝ)) ^ 3 := by gcongr
    norm_num at this h3
    linarith
  have hc2 : 1 < (2 : ℝ) ^ (1 / 3 : ℝ) := by
    by_contra h
    push Not at h
    have : ((2 : ℝ) ^ (1 / 3 : ℝ)) ^ 3 ≤ 1 := pow_le_one₀ hc0.le h
    linarith
  have h1 : 1.4 ≤ √2 := by rw [Real.le_sqrt' (by norm_num)]; norm_num
  have h2 : √2 < 1.5 := by rw [Real.sqrt_lt' (by norm_num)]; norm_num
  have ht : truncate (√2 / 2 ^ (1 / 3 : ℝ)) = 1 := by
    have h0 : 0 ≤ √2 / (2 : ℝ) ^ (1 / 3 : ℝ) := by positivity
    rw [truncate, if_pos h0, Int.floor_eq_iff, le_div_iff₀ hc0, div_lt_iff₀ hc0]
    push_cast
    constructor <;> linarith
  have := (C58_rem_coprime_total_partial firstSmallest firstSmallest_order rng hfair sqrtTwo cbrtTwo _ _
    sqrtTwo_represents cbrtTwo_represents hc0.ne' (fun z hz _ => by
      have h1 := cbrtTwo_represents.root
      rw [cbrtTwo_poly] at hz h1
      simp only [map_sub, map_pow, aeval_X, aeval_C] at hz h1
      exact cube_inj (by linarith)) sqrtTwo_cbrtTwo sqrtTwo_cbrtTwo_moderate
    (by
      rw [ht]
      exact moderatePair_of_lists [-1, 1] [-2, 0, 0, 1] 2 2 (by decide) (by decide) (by norm_num))
    (fun e he => by
      rw [ht, Int.cast_one, one_mul] at he
      obtain ⟨g, h, hg, hh, hsize⟩ := sqrtTwo_cbrtTwo_moderate
      have hp := cbrtTwo_represents.poly_unique he
      have hdeg : e.poly.toPoly.natDegree = cbrtTwo.poly.toPoly.natDegree := by
        rcases hp with hp | hp <;> rw [hp]
        rw [natDegree_neg]
      refine ⟨g, h, hg, fun i => ?_, by rwa [hdeg]⟩
      rcases hp with hp | hp <;> rw [hp]
      · exact hh i
      · rw [coeff_neg, abs_neg]; exact hh i)).2.2
  rw [ht] at this
  simpa using this

/-- C58, in part: `abs_sub` of two numbers whose degrees have no common factor is the difference, or zero
where that is negative, with the code's own factoring and fair random numbers, for numbers of moderate
size. -/
theorem _root_.Algebraics.C58_abs_sub_total_partial (choose : ℕ → List ℕ → ℕ) (hc : Poly.HeapOrder choose)
    (rng : ℕ → ℕ) (hfair : Fair rng) (a b : RealAlg) (x y : ℝ) (ha : a.Represents x) (hb : b.Represents y)
    (hd : a.poly.toPoly.natDegree.Coprime b.poly.toPoly.natDegree) (hm : a.poly.ModeratePair b.poly) :
    ∃ M, ∀ ffuel ≥ M, ∃ N, ∀ fuel ≥ N, ∃ c,
      a.absSub (factorCall choose rng ffuel) fuel b = .ok c ∧ c.Represents (max (x - y) 0) := by
  classical
  obtain ⟨M, hM⟩ := C44_sub_total_partial choose hc rng hfair a b x y ha hb hd hm
  refine ⟨M, fun ffuel hf => ?_⟩
  obtain ⟨N, hN⟩ := hM ffuel hf
  refine ⟨N, fun fuel hf => ?_⟩
  obtain ⟨c, h1, h2⟩ := hN fuel hf
  have h3 := h2.isNegative_eq
  by_cases h0 : x - y < 0
  · refine ⟨zero, ?_, ?_⟩
    · unfold RealAlg.absSub
      rw [h1]
      simp [bind, Except.bind, pure, Except.pure, h3, h0]
    · rw [max_eq_right h0.le]
      have := ofInt_represents 0
      rwa [Int.cast_zero] at this
  · refine ⟨c, ?_, ?_⟩
    · unfold RealAlg.absSub
      rw [h1]
      simp [bind, Except.bind, pure, Except.pure, h3, h0]
    · rwa [max_eq_left (not_lt.mp h0)]

/-- `abs_sub` of `√2` and `∛2` -/
example (rng : ℕ → ℕ) (hfair : Fair rng) : ∃ M, ∀ ffuel ≥ M, ∃ N, ∀ fuel ≥ N, ∃ c,
    sqrtTwo.absSub (factorCall firstSmallest rng ffuel) fuel cbrtTwo = .ok c ∧
      c.Represents (max (√2 - 2 ^ (1 / 3 : ℝ)) 0) :=
  C58_abs_sub_total_partial firstSmallest firstSmallest_order rng hfair sqrtTwo cbrtTwo _ _
    sqrtTwo_represents cbrtTwo_represents sqrtTwo_cbrtTwo sqrtTwo_cbrtTwo_moderate

/-- C58 is false in full for the remainder: `1 % (3 + √2)`, with the divisor held with the isolating interval
`[4, 5]`, panics, whatever `factor` does; the remainder is 1. -/
theorem _root_.Algebraics.C58_rem_false (F : FactorCall) (fuel : ℕ) :
    threePlusSqrtTwo.Represents (3 + √2) ∧ (ofInt 1).Represents ((1 : ℤ) : ℝ) ∧
    (ofInt 1).rem F (fuel + 1) threePlusSqrtTwo = .error .panic ∧
    ((1 : ℤ) : ℝ) - truncate (((1 : ℤ) : ℝ) / (3 + √2)) * (3 + √2) = 1 := by
  obtain ⟨h1, h2⟩ := C40_recip_false
  refine ⟨h1, ofInt_represents 1, ?_, ?_⟩
  · obtain ⟨b, h3, -, h4⟩ := h2 fuel
    have h5 : threePlusSqrtTwo.checkedRecip 1 = .ok (some ⟨Poly.ofCoeffs [1, -6, 7], ⟨0, 1, 0⟩⟩) := by
      decide +kernel
    rw [checkedRecip_mono _ _ _ h5 (fuel + 1) (by omega)] at h3
    cases h3
    have h6 : ∀ fuel, (ofInt 1).mul F fuel ⟨Poly.ofCoeffs [1, -6, 7], ⟨0, 1, 0⟩⟩ =
        .ok ⟨Poly.ofCoeffs [1, -6, 7], ⟨0, 1, 0⟩⟩ := by
      intro fuel
      have e1 : (ofInt 1).toRational = .ok (some 1) := by decide +kernel
      have e2 : (⟨Poly.ofCoeffs [1, -6, 7], ⟨0, 1, 0⟩⟩ : RealAlg).toRational = .ok none := by decide +kernel
      have e3 : (ofInt 1).isZero = false := by decide +kernel
      have e4 : (⟨Poly.ofCoeffs [1, -6, 7], ⟨0, 1, 0⟩⟩ : RealAlg).isZero = false := by decide +kernel
      have e5 : (⟨Poly.ofCoeffs [1, -6, 7], ⟨0, 1, 0⟩⟩ : RealAlg).isOne = false := by decide +kernel
      have e6 : (ofInt 1).isOne = true := by decide +kernel
      unfold RealAlg.mul
      simp [bind, Except.bind, pure, Except.pure, e1, e2, e3, e4, e5, e6]
    have h7 : (⟨Poly.ofCoeffs [1, -6, 7], ⟨0, 1, 0⟩⟩ : RealAlg).cmpWithZero = .ok .gt := by decide +kernel
    unfold RealAlg.rem RealAlg.div checkedExactDiv RealAlg.trunc integerTrunc
    rw [checkedRecip_mono _ _ _ h5 (fuel + 1) (by omega)]
    simp [bind, Except.bind, pure, Except.pure, h6, orPanic, h7, h4]
  · have h0 : 0 ≤ √2 := Real.sqrt_nonneg 2
    have ht : truncate (((1 : ℤ) : ℝ) / (3 + √2)) = 0 := by
      have h0' : 0 ≤ ((1 : ℤ) : ℝ) / (3 + √2) := by positivity
      rw [truncate, if_pos h0', Int.floor_eq_iff, div_lt_iff₀ (by positivity)]
      push_cast at h0' ⊢
      exact ⟨h0', by linarith⟩
    rw [ht]
    simp

/-- C58 is false in full for `abs_sub`: the difference of `√2`, held with the isolating interval `[0, 2]`, and
its negation comes out as zero. -/
theorem _root_.Algebraics.C58_abs_sub_false (choose : ℕ → List ℕ → ℕ) (hc : Poly.HeapOrder choose)
    (rng : ℕ → ℕ) (ffuel fuel : ℕ) :
    wideSqrtTwo.Represents (√2) ∧ ∃ n, wideSqrtTwo.neg = .ok n ∧ n.Represents (-√2) ∧
    wideSqrtTwo.absSub (factorCall choose rng ffuel) (fuel + 1) n = .ok zero ∧ zero.Represents 0 ∧
    max (√2 - -√2) 0 ≠ 0 := by
  have h0 : 0 < √2 := Real.sqrt_pos.mpr (by norm_num)
  obtain ⟨n, h1, h2⟩ := C40_neg _ _ wideSqrtTwo_represents
  have hnn : n.neg = .ok wideSqrtTwo := by
    have h3 : wideSqrtTwo.neg = .ok ⟨Poly.ofCoeffs [-2, 0, 1], ⟨-2, 0, 0⟩⟩ := by decide +kernel
    rw [h3] at h1
    cases h1
    decide +kernel
  obtain ⟨-, hadd, hz, -⟩ := C44_add_false choose hc rng ffuel fuel
  refine ⟨wideSqrtTwo_represents, n, h1, h2, ?_, hz, ?_⟩
  · have h5 : zero.isNegative = .ok false := by decide +kernel
    unfold RealAlg.absSub RealAlg.sub
    rw [hnn]
    simp [bind, Except.bind, pure, Except.pure, hadd, h5]
  · rw [max_eq_left (by linarith)]
    linarith

end RealAlg

end Algebraics
