import Verif.Props.AlgNumRoot

/-!
# C47: powers of irrational numbers, without assumptions on `log` and `exp`

If no conjugate of a positive number has another power that is real and not negative, then a single
nonnegative interval is enough to find the power: what `checked_pow` returns is exact whatever `log` and `exp`
compute. That is the case for the roots `q^(1/k)` of rational numbers, and with odd numerators of the exponent
for numbers whose other conjugates are negative, such as the golden ratio.
-/

namespace Algebraics

open Polynomial

namespace RealAlg

/-- the power with the numerator `n` stands alone: no conjugate of `x` has another real power that is not
negative -/
def PowerAlone (x : ℝ) (n : ℕ) : Prop :=
  ∀ w : ℂ, aeval w (minpoly ℚ x) = 0 → ∀ t : ℝ, 0 ≤ t → w ^ n = t → t = x ^ n

theorem minpoly_realCast (x : ℝ) : minpoly ℚ (x : ℂ) = minpoly ℚ x :=
  minpoly.algebraMap_eq (A := ℚ) (B := ℝ) (B' := ℂ) Complex.ofReal_injective x

/-- the roots of the polynomial of a number are its conjugates -/
theorem Represents.conj_iff {a : RealAlg} {x : ℝ} (h : a.Represents x) (w : ℂ) :
    aeval w a.poly.toPoly = 0 ↔ aeval w (minpoly ℚ x) = 0 := by
  have h1 := minpoly_root h.irreducible h.natDegree_pos ((aeval_realCast _ _).mpr h.root)
  rw [minpoly_realCast] at h1
  have hl : ((a.poly.toPoly.leadingCoeff : ℚ)⁻¹ : ℚ) ≠ 0 := by
    apply inv_ne_zero
    exact_mod_cast leadingCoeff_ne_zero.mpr h.ne_zero
  rw [h1, map_mul, aeval_C, mul_eq_zero, or_iff_left (by simpa using hl),
    show (Int.castRingHom ℚ) = algebraMap ℤ ℚ from rfl, aeval_map_algebraMap]

/-- the conjugates of the reciprocal are the reciprocals of the conjugates -/
theorem conj_inv {x : ℝ} (hx : x ≠ 0) (hint : IsIntegral ℚ x) {w : ℂ} (hw : aeval w (minpoly ℚ x⁻¹) = 0) :
    w ≠ 0 ∧ aeval w⁻¹ (minpoly ℚ x) = 0 := by
  have hxi : IsIntegral ℚ x⁻¹ := hint.inv
  have hw0 : w ≠ 0 := by
    rintro rfl
    have h1 : (minpoly ℚ x⁻¹).coeff 0 = 0 := by
      rw [aeval_def, eval₂_at_zero] at hw
      simpa using hw
    exact (inv_ne_zero hx) ((minpoly.coeff_zero_eq_zero hxi).mp h1)
  refine ⟨hw0, ?_⟩
  have h1 : aeval x⁻¹ (minpoly ℚ x).reverse = 0 := by
    have := invertibleOfNonzero hx
    rw [aeval_def, ← invOf_eq_inv, eval₂_reverse_eq_zero_iff]
    exact minpoly.aeval ℚ x
  obtain ⟨g, hg⟩ := minpoly.dvd ℚ _ h1
  have h2 : aeval w (minpoly ℚ x).reverse = 0 := by rw [hg, map_mul, hw, zero_mul]
  have := invertibleOfNonzero (inv_ne_zero hw0)
  rw [aeval_def] at h2 ⊢
  rw [← eval₂_reverse_eq_zero_iff, invOf_eq_inv, inv_inv]
  exact h2

theorem Represents.isIntegral {a : RealAlg} {x : ℝ} (h : a.Represents x) : IsIntegral ℚ x := by
  rw [← isAlgebraic_iff_isIntegral]
  refine ⟨a.poly.toPoly.map (algebraMap ℤ ℚ), ?_, ?_⟩
  · rw [Polynomial.map_ne_zero_iff (RingHom.injective_int _)]
    exact h.ne_zero
  · rw [aeval_map_algebraMap]
    exact h.root

theorem PowerAlone.inv {x : ℝ} {n : ℕ} (hx : 0 < x) (hint : IsIntegral ℚ x)
    (h : PowerAlone x n) : PowerAlone x⁻¹ n := by
  intro w hw t ht hwt
  obtain ⟨h1, h2⟩ := conj_inv hx.ne' hint hw
  have h3 := h w⁻¹ h2 t⁻¹ (inv_nonneg.mpr ht) (by rw [inv_pow, hwt]; push_cast; rfl)
  rw [inv_pow, ← h3, inv_inv]

/-- for such a number the reciprocal taken for a negative exponent is right -/
theorem powBase_alone (a : RealAlg) (x : ℝ) (h : a.Represents x) (hx : 0 < x) (e : ℚ)
    (he : e ≠ 0) (hal : PowerAlone x e.num.natAbs) :
    (∀ fuel b, powBase fuel a e = .ok b → b.Represents (if e < 0 then x⁻¹ else x)) ∧
    ∃ N, ∀ fuel ≥ N, ∃ b, powBase fuel a e = .ok b := by
  have hn : e.num.natAbs ≠ 0 := by
    have : e.num ≠ 0 := by simpa using he
    omega
  unfold powBase
  by_cases h0 : e < 0
  · simp only [if_pos h0]
    have key : ∃ N, ∀ fuel ≥ N, ∃ b, a.checkedRecip fuel = .ok (some b) ∧ b.Represents x⁻¹ := by
      rcases h.rat_or_irr with ⟨q, hq, -⟩ | ⟨-, hirr⟩
      · subst hq
        refine ⟨0, fun fuel _ => ?_⟩
        exact (C40_recip_rational a q h fuel).2 (by intro h; rw [h] at hx; simp at hx)
      · refine C40_recip_one_sign_partial a x h hirr fun y hy hxy => ?_
        have hy0 : 0 < y := (mul_pos_iff_of_pos_left hx).mp hxy
        have h1 := hal y ((h.conj_iff _).mp ((aeval_realCast _ _).mpr hy)) (y ^ e.num.natAbs) (by positivity)
          (by push_cast; rfl)
        exact (pow_left_inj₀ hy0.le hx.le hn).mp h1
    obtain ⟨N, hN⟩ := key
    constructor
    · intro fuel b hb
      unfold RealAlg.recip at hb
      cases hc : a.checkedRecip fuel with
      | error s => rw [hc] at hb; cases hb
      | ok o =>
        rw [hc] at hb
        obtain ⟨b', h1, h2⟩ := hN (max N fuel) (le_max_left _ _)
        rw [checkedRecip_mono a fuel _ hc _ (le_max_right _ _)] at h1
        cases h1
        cases hb
        exact h2
    · refine ⟨N, fun fuel hf => ?_⟩
      obtain ⟨b, h1, -⟩ := hN fuel hf
      refine ⟨b, ?_⟩
      unfold RealAlg.recip
      rw [h1]
      rfl
  · simp only [if_neg h0]
    exact ⟨fun fuel b hb => by cases hb; exact h, 0, fun _ _ => ⟨a, rfl⟩⟩

/-- the resultant has one root that is not negative -/
theorem powRoot_alone {b : RealAlg} {y : ℝ} (h : b.Represents y) (hy : 0 < y) (e : ℚ) (he : e ≠ 0)
    (hal : PowerAlone y e.num.natAbs) {R : Poly ℤ}
    (hR : ∀ z : ℂ, aeval z R.toPoly = 0 ↔ ∃ w : ℂ, aeval w b.poly.toPoly = 0 ∧
      z ^ e.den = w ^ e.num.natAbs) :
    (∀ t : ℝ, 0 ≤ t → aeval t R.toPoly = 0 → t = powValue y |e|) ∧
    aeval (powValue y |e|) R.toPoly = 0 := by
  have hv := powValue_pow y |e| (abs_pos.mpr he) (Or.inl hy)
  rw [(abs_num_den e).1, (abs_num_den e).2] at hv
  constructor
  · intro t ht h0
    obtain ⟨w, h1, h2⟩ := (hR t).mp ((aeval_realCast _ _).mpr h0)
    have h3 := hal w ((h.conj_iff w).mp h1) (t ^ e.den) (by positivity) (by rw [← h2]; push_cast; rfl)
    rw [← hv] at h3
    exact (pow_left_inj₀ ht (powValue_pos _ _ hy).le e.den_nz).mp h3
  · rw [← aeval_realCast, hR]
    exact ⟨y, (aeval_realCast _ _).mpr h.root, by exact_mod_cast hv⟩

/-- C47, in part: whatever `checked_pow` returns for a positive number whose power stands alone represents the
power, for any rational exponent, any state of the cache of `log 2` and any fuel; no assumption on what `log` and
`exp` compute. Missing: numbers with other positive conjugates; and the factoring of the resultant is assumed
to be right. -/
theorem _root_.Algebraics.C47_alone_sound_partial (ln2 : ℕ → ℕ → DFI) (hln2 : ∀ t, IsLn2 (ln2 t)) (F : FactorCall) (fuel : ℕ)
    (a : RealAlg) (x : ℝ) (h : a.Represents x) (hx : 0 < x) (e : ℚ) (hal : PowerAlone x e.num.natAbs)
    (hF : ∀ b R, powBase fuel a e = .ok b → powResultant b.poly e.num.natAbs e.den = some R →
      FactorsRight F R)
    (c : RealAlg) (hc : a.checkedPow ln2 F fuel e = .ok (some c)) : c.Represents (powValue x e) := by
  classical
  rcases checkedPow_cases ln2 F fuel a x h hx.ne' e (Or.inl hx) with
    ⟨c', h1, h2⟩ | ⟨h1, -, h2⟩ | ⟨h0, -, h2⟩
  · rw [hc] at h1; cases h1; exact h2
  · have h3 := (powBase_alone a x h hx e (by rw [h1]; norm_num) hal).1 fuel c (by
      unfold powBase RealAlg.recip
      rw [if_pos (by rw [h1]; norm_num), ← h2, hc]
      rfl)
    rw [if_pos (by rw [h1]; norm_num)] at h3
    rw [h1, show (-1 : ℚ) = ((-1 : ℤ) : ℚ) by simp, powValue_int, zpow_neg_one]
    exact h3
  · have hn : e.num.natAbs ≠ 0 := by
      have : e.num ≠ 0 := by simpa using h0
      omega
    cases hb : powBase fuel a e with
    | error s =>
      exfalso
      rw [h2] at hc
      unfold powGeneral at hc
      unfold powBase at hb
      by_cases h3 : e < 0
      · rw [if_pos h3] at hb
        simp only [h3, decide_true, if_true, hb] at hc
        cases hc
      · rw [if_neg h3] at hb; cases hb
    | ok b =>
      have hbr := (powBase_alone a x h hx e h0 hal).1 fuel b hb
      have hpos : 0 < (if e < 0 then x⁻¹ else x) := by split <;> positivity
      have hal' : PowerAlone (if e < 0 then x⁻¹ else x) e.num.natAbs := by
        split
        · exact hal.inv hx h.isIntegral
        · exact hal
      rw [powValue_abs _ _ (Or.inl hx)]
      generalize (if e < 0 then x⁻¹ else x) = y at hbr hpos hal' ⊢
      obtain ⟨R, s, r1, r2, r3, r4, r5, r6⟩ := powGeneral_eq ln2 F fuel a b y e h0 hb hbr
        (decide (x < 0) && decide (e.num % 2 ≠ 0))
      rw [show decide (x < 0) = false by simp [hx.le], Bool.false_and] at h2 r6
      rw [h2, r6] at hc
      obtain ⟨r, hr1, hr2⟩ := hF b R hb r1
      obtain ⟨hun, -⟩ := powRoot_alone hbr hpos e h0 hal' r5
      cases hsel : selectRoot (powGetInterval ln2 |e| false) powShrink F fuel (s, 0) R with
      | error x => rw [hsel] at hc; cases hc
      | ok c' =>
        rw [hsel] at hc
        cases hc
        have hin : ∀ i, powInterval (ln2 0) |e| false s = some i → 0 ≤ i.lo ∧ i.lo ≤ i.hi := fun i hi =>
          powInterval_nonneg (ln2 0) (hln2 0) |e| s y r4.rep.mem i hi
        refine selectRoot_sound F R r hr1 hr2 (s, 0) (fun i hi => (hin i hi).2) (fun i hi t ht ht0 => ?_) fuel c
          hsel
        refine hun t ?_ ht0
        have h3 : (0 : ℝ) ≤ i.lo := by exact_mod_cast (hin i hi).1
        exact le_trans (by positivity) ht.1

/-- C47, in part: the same, and `checked_pow` returns in the first turn if the first interval that `log` and
`exp` compute holds the power. -/
theorem _root_.Algebraics.C47_alone_partial (ln2 : ℕ → ℕ → DFI) (hln2 : ∀ t, IsLn2 (ln2 t)) (F : FactorCall) (fuel : ℕ)
    (a b : RealAlg) (x : ℝ) (h : a.Represents x) (hx : 0 < x) (e : ℚ) (hal : PowerAlone x e.num.natAbs)
    (hb : powBase (fuel + 1) a e = .ok b)
    (hF : ∀ R, powResultant b.poly e.num.natAbs e.den = some R → FactorsRight F R)
    (hi : ∀ s, b.intervalShrinker = .ok s →
      ∃ i, powInterval (ln2 0) |e| false s = some i ∧ i.Contains (powValue x e)) :
    ∃ c, a.checkedPow ln2 F (fuel + 1) e = .ok (some c) ∧ c.Represents (powValue x e) := by
  classical
  rcases checkedPow_cases ln2 F (fuel + 1) a x h hx.ne' e (Or.inl hx) with
    h1 | ⟨h1, -, h2⟩ | ⟨h0, -, h2⟩
  · exact h1
  · have h3 := (powBase_alone a x h hx e (by rw [h1]; norm_num) hal).1 _ b hb
    rw [if_pos (by rw [h1]; norm_num)] at h3
    have h4 : powValue x e = x⁻¹ := by
      rw [h1, show (-1 : ℚ) = ((-1 : ℤ) : ℚ) by simp, powValue_int, zpow_neg_one]
    rw [h4, h2]
    refine ⟨b, ?_, h3⟩
    unfold powBase at hb
    rw [if_pos (by rw [h1]; norm_num), (C40_recip_method a _).1] at hb
    exact hb
  · have hn : e.num.natAbs ≠ 0 := by
      have : e.num ≠ 0 := by simpa using h0
      omega
    have hbr := (powBase_alone a x h hx e h0 hal).1 _ b hb
    have hpos : 0 < (if e < 0 then x⁻¹ else x) := by split <;> positivity
    have hal' : PowerAlone (if e < 0 then x⁻¹ else x) e.num.natAbs := by
      split
      · exact hal.inv hx h.isIntegral
      · exact hal
    rw [powValue_abs _ _ (Or.inl hx)] at hi ⊢
    generalize (if e < 0 then x⁻¹ else x) = y at hbr hpos hal' hi ⊢
    obtain ⟨R, s, r1, r2, r3, r4, r5, r6⟩ := powGeneral_eq ln2 F (fuel + 1) a b y e h0 hb hbr
      (decide (x < 0) && decide (e.num % 2 ≠ 0))
    rw [show decide (x < 0) = false by simp [hx.le], Bool.false_and] at h2 r6
    rw [h2, r6]
    obtain ⟨r, hr1, hr2⟩ := hF R r1
    obtain ⟨hun, hv⟩ := powRoot_alone hbr hpos e h0 hal' r5
    obtain ⟨i, hi1, hi2⟩ := hi s r3
    obtain ⟨c, h3, h4⟩ := selectRoot_single (getInterval := powGetInterval ln2 |e| false)
      (shrinkInterval := powShrink) F R r2 r hr1
      hr2 hv (s, 0) hi1 hi2 (fun t ht ht0 => by
        refine hun t ?_ ht0
        have h3 : (0 : ℝ) ≤ i.lo := by
          exact_mod_cast (powInterval_nonneg (ln2 0) (hln2 0) |e| s y r4.rep.mem i hi1).1
        exact le_trans (by positivity) ht.1) fuel
    rw [h3]
    exact ⟨c, rfl, h4⟩

/-- the power as a real power -/
theorem powValue_rpow (x : ℝ) (e : ℚ) : powValue x e = x ^ (e : ℝ) := by
  unfold powValue
  split
  · next h =>
    have h7 : e = e.num := by
      conv_lhs => rw [← Rat.num_div_den e, h]
      simp
    conv_rhs => rw [h7]
    rw [Rat.cast_intCast, Real.rpow_intCast]
  · rfl

/-- C47, in part: positive powers of a positive number that is held with an interval with integer ends, for
`e * (log2 upper end + 2) ≤ 16`, when the power stands alone; no assumption on `log` and `exp`. -/
theorem _root_.Algebraics.C47_integer_interval_partial (ln2 : ℕ → ℕ → DFI) (hln2 : ∀ t, IsLn2 (ln2 t)) (F : FactorCall)
    (fuel : ℕ) (a : RealAlg) (x : ℝ) (h : a.Represents x) (hx : 0 < x) (e : ℚ) (he : 0 < e)
    (hal : PowerAlone x e.num.natAbs) (hd : a.interval.log2Denom = 0) (hlo : 0 ≤ a.interval.lo)
    (hM : e * (Nat.log 2 a.interval.hi.toNat + 2) ≤ 16)
    (hF : ∀ R, powResultant a.poly e.num.natAbs e.den = some R → FactorsRight F R) :
    ∃ c, a.checkedPow ln2 F (fuel + 1) e = .ok (some c) ∧ c.Represents (powValue x e) := by
  refine C47_alone_partial ln2 hln2 F fuel a a x h hx e hal ?_ hF fun s hs => ?_
  · unfold powBase
    rw [if_neg (by linarith)]
  · obtain ⟨s', h3, -, h4⟩ := h.intervalShrinker
    rw [h3] at hs
    cases hs
    rw [abs_of_pos he, powValue_rpow]
    exact powInterval_int (ln2 0) (hln2 0) e he s x hx (by rw [h4]; exact h.mem) (by rw [h4]; exact hd)
      (by rw [h4]; exact hlo) (by rw [h4]; exact hM)

/-- C47, in part: the same with the code's own factoring and fair random numbers, for numbers that are
algebraic integers, or nearly so: the leading coefficient is at most 4 in the power of the numerator. `m` is the
degree, the coefficients have `g` bits. -/
theorem _root_.Algebraics.C47_integer_interval_total_partial (ln2 : ℕ → ℕ → DFI) (hln2 : ∀ t, IsLn2 (ln2 t))
    (choose : ℕ → List ℕ → ℕ) (hc : Poly.HeapOrder choose) (rng : ℕ → ℕ) (hfair : Fair rng)
    (a : RealAlg) (x : ℝ) (h : a.Represents x) (hx : 0 < x) (e : ℚ) (he : 0 < e)
    (hal : PowerAlone x e.num.natAbs) (hd : a.interval.log2Denom = 0) (hlo : 0 ≤ a.interval.lo)
    (hM : e * (Nat.log 2 a.interval.hi.toNat + 2) ≤ 16)
    (hlead : |a.poly.toPoly.leadingCoeff| ^ e.num.natAbs ≤ 4)
    (m g : ℕ) (hm : a.poly.toPoly.natDegree = m) (hg : ∀ i, |a.poly.toPoly.coeff i| < 2 ^ g)
    (hsize : m * e.den * (6 * (m * e.den) + m + e.num.natAbs * (m + g) + 1) < 2 ^ 29) :
    ∃ M, ∀ ffuel ≥ M, ∀ fuel ≥ 1, ∃ c,
      a.checkedPow ln2 (factorCall choose rng ffuel) fuel e = .ok (some c) ∧
      c.Represents (powValue x e) := by
  subst hm
  have hn : 0 < e.num.natAbs := by
    have := Rat.num_pos.mpr he
    omega
  obtain ⟨M, hMM⟩ := factorCall_returns_option choose hc rng hfair
    (powResultant a.poly e.num.natAbs e.den) (fun R hR _ =>
      powResultant_moderate a.poly R _ e.den g hn h.ne_zero hg hsize hR)
  refine ⟨M, fun ffuel hf fuel hfu => ?_⟩
  obtain ⟨k, rfl⟩ : ∃ k, fuel = k + 1 := ⟨fuel - 1, by omega⟩
  refine C47_integer_interval_partial ln2 hln2 _ k a x h hx e he hal hd hlo hM fun R hR => ?_
  refine factorCall_right choose hc rng ffuel R ?_
    (hMM ffuel hf R hR (powResultant_ne_zero _ R _ _ hn e.den_pos h.ne_zero hR))
  rw [powResultant_leading _ R _ _ hn e.den_pos h.ne_zero hR, abs_pow]
  exact hlead

/-! ## Numbers whose powers stand alone -/

/-- the positive roots of rational numbers -/
theorem PowerAlone.of_root {x : ℝ} (hx : 0 < x) (k : ℕ) (hk : 0 < k) (q : ℚ) (hq : x ^ k = q) (n : ℕ) :
    PowerAlone x n := by
  intro w hw t ht hwt
  have h1 : aeval x (X ^ k - C q) = 0 := by simp [hq]
  obtain ⟨g, hg⟩ := minpoly.dvd ℚ x h1
  have h2 : aeval w (X ^ k - C q) = 0 := by rw [hg, map_mul, hw, zero_mul]
  have h3 : w ^ k = q := by
    simp only [map_sub, map_pow, aeval_X, aeval_C, eq_ratCast] at h2
    exact sub_eq_zero.mp h2
  have h4 : (t : ℂ) ^ k = (x ^ n) ^ k := by
    rw [← hwt, ← pow_mul, mul_comm, pow_mul, h3, ← pow_mul, mul_comm n, pow_mul]
    rw [show ((x : ℂ) ^ k) = ((x ^ k : ℝ) : ℂ) by push_cast; rfl, hq]
    simp
  have h5 : t ^ k = (x ^ n) ^ k := by exact_mod_cast h4
  exact (pow_left_inj₀ ht (by positivity) hk.ne').mp h5

/-- numbers with real conjugates that are all negative, for odd exponents -/
theorem PowerAlone.of_negative {x : ℝ} (n : ℕ) (hn : Odd n)
    (hneg : ∀ w : ℂ, aeval w (minpoly ℚ x) = 0 → w = x ∨ ∃ s : ℝ, w = s ∧ s < 0) : PowerAlone x n := by
  intro w hw t ht hwt
  rcases hneg w hw with rfl | ⟨s, rfl, hs⟩
  · exact_mod_cast hwt.symm
  · exfalso
    have h1 : s ^ n = t := by exact_mod_cast hwt
    have h2 := hn.pow_neg hs
    linarith

/-! ## The theorems apply: `√2^(3/2)` and the cube of the golden ratio -/

example (ln2 : ℕ → ℕ → DFI) (hln2 : ∀ t, IsLn2 (ln2 t)) (rng : ℕ → ℕ) (hfair : Fair rng) :
    ∃ M, ∀ ffuel ≥ M, ∀ fuel ≥ 1, ∃ c,
      sqrtTwo.checkedPow ln2 (factorCall firstSmallest rng ffuel) fuel (3 / 2) = .ok (some c) ∧
      c.Represents (√2 ^ (3 / 2 : ℝ)) := by
  have hn : (3 / 2 : ℚ).num.natAbs = 3 := by norm_num
  have hd : (3 / 2 : ℚ).den = 2 := by norm_num
  have hp : sqrtTwo.poly.toPoly = X ^ 2 + C 0 * X + C (-2) := toPoly_quadratic 0 (-2)
  have h0 : 0 < √2 := Real.sqrt_pos.mpr (by norm_num)
  have h := C47_integer_interval_total_partial ln2 hln2 firstSmallest firstSmallest_order rng hfair sqrtTwo
    (√2) sqrtTwo_represents h0 (3 / 2) (by norm_num)
    (PowerAlone.of_root h0 2 (by norm_num) 2 (by rw [Real.sq_sqrt (by norm_num)]; norm_num) _) rfl
    (by norm_num [sqrtTwo])
    (by rw [show Nat.log 2 sqrtTwo.interval.hi.toNat = 1 by decide +kernel]; norm_num)
    (by
      rw [show sqrtTwo.poly.toPoly.leadingCoeff = 1 by
        rw [hp]; unfold leadingCoeff; rw [quadratic_natDegree]; simp [coeff_X, coeff_C]]
      simp) 2 2
    (by rw [hp, quadratic_natDegree])
    (fun i => by
      rw [hp]
      simp only [coeff_add, coeff_C_mul, coeff_X_pow, coeff_X, coeff_C]
      split_ifs <;> norm_num <;> omega)
    (by rw [hn, hd]; norm_num)
  rw [powValue_rpow] at h
  push_cast at h
  exact h

/-- the golden ratio, with the isolating interval `[1, 2]` -/
def golden : RealAlg := ⟨Poly.ofCoeffs [-1, -1, 1], ⟨1, 2, 0⟩⟩

theorem golden_poly : golden.poly.toPoly = X ^ 2 + C (-1) * X + C (-1) := toPoly_quadratic (-1) (-1)

theorem golden_represents : golden.Represents ((1 + √5) / 2) := by
  have hs : √5 ^ 2 = (5 : ℝ) := Real.sq_sqrt (by norm_num)
  have h0 : 0 ≤ √5 := Real.sqrt_nonneg 5
  have hp := golden_poly
  refine ⟨?_, ?_, ?_, ?_, ?_⟩
  · rw [hp]
    apply quadratic_irreducible
    intro n hn
    have h2 : n < 3 := by nlinarith
    have h3 : -2 < n := by nlinarith
    interval_cases n <;> omega
  · rw [hp, quadratic_natDegree]; omega
  · rw [hp, quadratic_aeval]; push_cast; nlinarith
  · simp only [DFI.Contains, golden]
    constructor <;> norm_num <;> nlinarith
  · intro y hy h1
    rw [hp, quadratic_aeval] at h1
    simp only [DFI.Contains, golden] at hy
    norm_num at hy h1
    nlinarith

theorem golden_conj (w : ℂ) (hw : aeval w (minpoly ℚ ((1 + √5) / 2 : ℝ)) = 0) :
    w = ((1 + √5) / 2 : ℝ) ∨ ∃ s : ℝ, w = s ∧ s < 0 := by
  have hs : √5 ^ 2 = (5 : ℝ) := Real.sq_sqrt (by norm_num)
  have h0 : 0 ≤ √5 := Real.sqrt_nonneg 5
  rw [← golden_represents.conj_iff, golden_poly] at hw
  simp only [map_add, map_mul, map_pow, aeval_X, map_neg, map_one] at hw
  have h1 : (w - ((1 + √5) / 2 : ℝ)) * (w - ((1 - √5) / 2 : ℝ)) = 0 := by
    have hc : ((√5 : ℝ) : ℂ) ^ 2 = 5 := by exact_mod_cast hs
    push_cast
    linear_combination hw - hc / 4
  rcases mul_eq_zero.mp h1 with h2 | h2
  · exact Or.inl (sub_eq_zero.mp h2)
  · exact Or.inr ⟨(1 - √5) / 2, sub_eq_zero.mp h2, by nlinarith⟩

example (ln2 : ℕ → ℕ → DFI) (hln2 : ∀ t, IsLn2 (ln2 t)) (rng : ℕ → ℕ) (hfair : Fair rng) :
    ∃ M, ∀ ffuel ≥ M, ∀ fuel ≥ 1, ∃ c,
      golden.checkedPow ln2 (factorCall firstSmallest rng ffuel) fuel 3 = .ok (some c) ∧
      c.Represents (2 + √5) := by
  have hs : √5 ^ 2 = (5 : ℝ) := Real.sq_sqrt (by norm_num)
  have hn : (3 : ℚ).num.natAbs = 3 := by norm_num
  have hd : (3 : ℚ).den = 1 := by norm_num
  have h := C47_integer_interval_total_partial ln2 hln2 firstSmallest firstSmallest_order rng hfair golden
    _ golden_represents (by positivity) 3 (by norm_num)
    (PowerAlone.of_negative _ (by rw [hn]; decide) golden_conj) rfl (by norm_num [golden])
    (by rw [show Nat.log 2 golden.interval.hi.toNat = 1 by decide +kernel]; norm_num)
    (by
      rw [show golden.poly.toPoly.leadingCoeff = 1 by
        rw [golden_poly]; unfold leadingCoeff; rw [quadratic_natDegree]; simp [coeff_X, coeff_one]]
      simp) 2 1
    (by rw [golden_poly, quadratic_natDegree])
    (fun i => by
      rw [golden_poly]
      simp only [coeff_add, coeff_C_mul, coeff_X_pow, coeff_X, coeff_C]
      split_ifs <;> norm_num <;> omega)
    (by rw [hn, hd]; norm_num)
  rw [show powValue ((1 + √5) / 2) 3 = 2 + √5 by
    rw [show (3 : ℚ) = ((3 : ℤ) : ℚ) by simp, powValue_int, show (3 : ℤ) = ((3 : ℕ) : ℤ) by rfl, zpow_natCast]
    have h3 : √5 ^ 3 = 5 * √5 := by rw [pow_succ, hs]
    nlinarith] at h
  exact h

end RealAlg

end Algebraics
