import Verif.Props.AlgNumTotal
import Verif.Props.AlgNumPow
import Verif.Lemmas.ExpInt
import Verif.Lemmas.PowResultant
import Mathlib.FieldTheory.KummerPolynomial

/-!
# C47: roots of positive rational numbers are exact, without assumptions on `log` and `exp`

The interval of a rational number has integer ends. `log` and `exp` are exact enclosures there while the
power is below `e^16`, so `checked_pow` returns and is right. With the code's own factoring the theorems need
no assumption but that the random numbers are fair.
-/

namespace Algebraics

open Polynomial

namespace RealAlg

theorem ofRat_interval (p : ℚ) : (ofRat p).interval = ⟨⌊p⌋, ⌈p⌉, 0⟩ := by
  unfold ofRat
  split
  · next h =>
    have hp : p = p.num := by
      conv_lhs => rw [← Rat.num_div_den p, h]
      simp
    unfold ofInt DFI.fromInt DFI.fromDyadicFraction shl
    rw [hp]
    simp
  · unfold DFI.fromRatio shl
    simp only [pow_zero, mul_one]
    rw [Rat.num_div_den]

/-- C47, in part: the power of a positive rational number, for exponents and bases with
`|e| * (log2 ⌈base⌉ + 2) ≤ 16`, for example square roots of numbers below `2^31` and cube roots of numbers
below `2^47`. The first turn finds it, whatever the state of the cache of `log 2`: no assumption on `log` or
`exp`. Missing: larger bases; irrational bases; and the factoring of the resultant is assumed to be right. -/
theorem _root_.Algebraics.C47_small_power_partial (ln2 : ℕ → ℕ → DFI) (hln2 : ∀ t, IsLn2 (ln2 t)) (F : FactorCall)
    (fuel : ℕ) (q : ℚ) (hq : 0 < q) (e : ℚ)
    (hM : |e| * (Nat.log 2 ⌈if e < 0 then q⁻¹ else q⌉₊ + 2) ≤ 16)
    (hF : ∀ R, powResultant (ofRat (if e < 0 then q⁻¹ else q)).poly e.num.natAbs e.den = some R →
      FactorsRight F R) :
    ∃ c, (ofRat q).checkedPow ln2 F (fuel + 1) e = .ok (some c) ∧ c.Represents (powValue q e) := by
  classical
  by_cases he : e = 0
  · subst he
    have h := ofRat_represents q
    have hqr : (0 : ℝ) < q := by exact_mod_cast hq
    rcases checkedPow_cases ln2 F (fuel + 1) (ofRat q) q h hqr.ne' 0 (Or.inl hqr) with
      h1 | ⟨h1, -⟩ | ⟨h0, -⟩
    · exact h1
    · norm_num at h1
    · exact absurd rfl h0
  have hb : powBase (fuel + 1) (ofRat q) e = .ok (ofRat (if e < 0 then q⁻¹ else q)) := by
    unfold powBase
    split
    · unfold RealAlg.recip
      rw [(ofRat_represents q).checkedRecip_rat, if_neg hq.ne']
      rfl
    · rfl
  refine C47_positive_rational_partial ln2 hln2 F fuel _ q (ofRat_represents q) hq e ?_ ?_
  · intro b R h1 h2
    rw [hb] at h1
    cases h1
    exact hF R h2
  · intro b s h1 h2
    rw [hb] at h1
    cases h1
    have hqr : (0 : ℝ) < q := by exact_mod_cast hq
    rw [powValue_abs _ _ (Or.inl hqr)]
    have hcast : (if e < 0 then (q : ℝ)⁻¹ else q) = ((if e < 0 then q⁻¹ else q : ℚ) : ℝ) := by
      split <;> push_cast <;> rfl
    rw [hcast]
    have hpos : 0 < (if e < 0 then q⁻¹ else q : ℚ) := by split <;> positivity
    generalize (if e < 0 then q⁻¹ else q : ℚ) = p at *
    obtain ⟨s', h3, -, h4⟩ := (ofRat_represents p).intervalShrinker
    rw [h3] at h2
    cases h2
    rw [ofRat_interval] at h4
    have hpr : (0 : ℝ) < p := by exact_mod_cast hpos
    have hce : ⌈p⌉.toNat = ⌈p⌉₊ := rfl
    obtain ⟨i, i1, i2⟩ := powInterval_int (ln2 0) (hln2 0) |e| (abs_pos.mpr he) s p hpr
      (by
        rw [h4, DFI.contains_iff]
        have h5 : (⌊p⌋ : ℝ) ≤ p := by exact_mod_cast Int.floor_le p
        have h6 : (p : ℝ) ≤ ⌈p⌉ := by exact_mod_cast Int.le_ceil p
        simp only [pow_zero, mul_one]
        exact ⟨h5, h6⟩)
      (by rw [h4]) (by rw [h4]; exact Int.floor_nonneg.mpr hpos.le)
      (by rw [h4]; exact hM)
    refine ⟨i, i1, ?_⟩
    have : powValue (p : ℝ) |e| = (p : ℝ) ^ ((|e| : ℚ) : ℝ) := by
      unfold powValue
      split
      · next h =>
        have h7 : |e| = |e|.num := by
          conv_lhs => rw [← Rat.num_div_den |e|, h]
          simp
        conv_rhs => rw [h7]
        rw [Rat.cast_intCast, Real.rpow_intCast]
      · rfl
    rw [this]
    exact i2

/-- the code's own `factor` is right on the resultant of a power of a rational number -/
theorem powResultant_right (choose : ℕ → List ℕ → ℕ) (hc : Poly.HeapOrder choose) (rng : ℕ → ℕ)
    (ffuel : ℕ) (p : ℚ) (n d : ℕ) (hn : 0 < n) (hd : 0 < d) (R : Poly ℤ)
    (hR : powResultant (ofRat p).poly n d = some R)
    (hirr : p.den ^ n ≤ 4 ∨ Irreducible (X ^ d - C (p ^ n) : ℚ[X]))
    (hret : ∃ r, factorCall choose rng ffuel R = .ok r) : FactorsRight (factorCall choose rng ffuel) R := by
  have hr := ofRat_represents p
  rcases hirr with h4 | hirr
  · refine factorCall_right choose hc rng ffuel R ?_ hret
    rw [powResultant_leading _ R n d hn hd hr.ne_zero hR]
    have hl : (ofRat p).poly.toPoly.leadingCoeff = p.den := by
      rcases hr.rat_or_irr with ⟨q', h1, h2, h3, h5⟩ | ⟨-, h2⟩
      · obtain rfl : q' = p := by exact_mod_cast h1
        rw [leadingCoeff, h2, h5]
      · exact absurd ⟨p, rfl⟩ h2
    rw [hl, abs_of_nonneg (by positivity)]
    exact_mod_cast h4
  · refine factorCall_right_conjugates choose hc rng ffuel R (fun z w hz hw => ?_) hret
    have key : ∀ z : ℂ, aeval z R.toPoly = 0 → minpoly ℚ z = X ^ d - C (p ^ n) := by
      intro z hz
      obtain ⟨x, h1, h2⟩ := (powResultant_root _ R n d hn hr.ne_zero hR z).mp hz
      rw [linear_root hr x h1] at h2
      symm
      refine minpoly.eq_of_irreducible_of_monic hirr ?_ (monic_X_pow_sub_C _ hd.ne')
      simp [h2]
    rw [key z hz, key w hw]

/-- C47, in part: the same with the code's own factoring and fair random numbers, when the factoring can be
trusted: a small denominator, or a power of the expected degree. -/
theorem _root_.Algebraics.C47_small_power_total_partial (ln2 : ℕ → ℕ → DFI) (hln2 : ∀ t, IsLn2 (ln2 t))
    (choose : ℕ → List ℕ → ℕ) (hc : Poly.HeapOrder choose) (rng : ℕ → ℕ) (hfair : Fair rng)
    (q : ℚ) (hq : 0 < q) (e : ℚ) (p : ℚ) (hp : p = if e < 0 then q⁻¹ else q)
    (hM : |e| * (Nat.log 2 ⌈p⌉₊ + 2) ≤ 16)
    (hirr : p.den ^ e.num.natAbs ≤ 4 ∨ Irreducible (X ^ e.den - C (p ^ e.num.natAbs) : ℚ[X]))
    (h : ℕ) (hnum : |p.num| ^ e.num.natAbs < 2 ^ h) (hden : p.den ^ e.num.natAbs < 2 ^ h)
    (hsize : e.den * (5 * e.den + h) < 2 ^ 29) :
    ∃ M, ∀ ffuel ≥ M, ∀ fuel ≥ 1, ∃ c,
      (ofRat q).checkedPow ln2 (factorCall choose rng ffuel) fuel e = .ok (some c) ∧
      c.Represents (powValue q e) := by
  subst hp
  by_cases he : e = 0
  · refine ⟨0, fun ffuel _ fuel _ => ?_⟩
    have h := ofRat_represents q
    subst he
    classical
    have hqr : (0 : ℝ) < q := by exact_mod_cast hq
    rcases checkedPow_cases ln2 (factorCall choose rng ffuel) fuel (ofRat q) q h hqr.ne' 0 (Or.inl hqr) with
      h1 | ⟨h1, -⟩ | ⟨h0, -⟩
    · exact h1
    · norm_num at h1
    · exact absurd rfl h0
  have hn : 0 < e.num.natAbs := by
    have : e.num ≠ 0 := by simpa using he
    omega
  generalize hpp : (if e < 0 then q⁻¹ else q : ℚ) = p at *
  have hr := ofRat_represents p
  obtain ⟨M, hMM⟩ := factorCall_returns_option choose hc rng hfair
    (powResultant (ofRat p).poly e.num.natAbs e.den) (fun R hR _ => by
      have hRp := powResultant_rat hr R _ e.den hn hR
      refine ⟨h, fun i => ?_, ?_⟩
      · rw [hRp, coeff_sub, coeff_C_mul, coeff_X_pow, coeff_C]
        have h0 := e.den_pos
        have hd' : |((p.den : ℤ) ^ e.num.natAbs)| < 2 ^ h := by
          rw [abs_of_nonneg (by positivity)]; exact_mod_cast hden
        have hn' : |p.num ^ e.num.natAbs| < 2 ^ h := by rw [abs_pow]; exact hnum
        by_cases h1 : i = e.den
        · rw [if_pos h1, if_neg (by omega), mul_one, sub_zero]; exact hd'
        · rw [if_neg h1, mul_zero, zero_sub, abs_neg]
          split
          · exact hn'
          · simp
      · have hdeg : R.toPoly.natDegree ≤ e.den := by
          rw [hRp]
          refine (natDegree_sub_le _ _).trans (max_le ?_ ?_)
          · exact natDegree_C_mul_X_pow_le _ _
          · rw [natDegree_C]; omega
        exact lt_of_le_of_lt (Nat.mul_le_mul hdeg (Nat.add_le_add_right (Nat.mul_le_mul_left 5 hdeg) _)) hsize)
  refine ⟨M, fun ffuel hf fuel hfu => ?_⟩
  obtain ⟨k, rfl⟩ : ∃ k, fuel = k + 1 := ⟨fuel - 1, by omega⟩
  refine C47_small_power_partial ln2 hln2 _ k q hq e (by rw [hpp]; exact hM) fun R hR => ?_
  rw [hpp] at hR
  exact powResultant_right choose hc rng ffuel p _ _ hn e.den_pos R hR hirr
    (hMM ffuel hf R hR (powResultant_ne_zero _ R _ _ hn e.den_pos hr.ne_zero hR))

/-- C47, in part: roots and fractional powers of positive integers are exact and `checked_pow` always
returns, with the code's own factoring and fair random numbers: any exponent with denominator up to 5000, and
any integer `m` with `e * (log2 m + 2) ≤ 16`. -/
theorem _root_.Algebraics.C47_integer_root_total_partial (ln2 : ℕ → ℕ → DFI) (hln2 : ∀ t, IsLn2 (ln2 t))
    (choose : ℕ → List ℕ → ℕ) (hc : Poly.HeapOrder choose) (rng : ℕ → ℕ) (hfair : Fair rng)
    (m : ℕ) (hm : 0 < m) (e : ℚ) (he : 0 < e) (hd : e.den ≤ 5000) (hM : e * (Nat.log 2 m + 2) ≤ 16) :
    ∃ M, ∀ ffuel ≥ M, ∀ fuel ≥ 1, ∃ c,
      (ofInt m).checkedPow ln2 (factorCall choose rng ffuel) fuel e = .ok (some c) ∧
      c.Represents (powValue m e) := by
  have hof : ofRat (m : ℚ) = ofInt m := by unfold ofRat; simp
  have hn0 : 0 < e.num := Rat.num_pos.mpr he
  -- the bits of the power
  have hbits : (m : ℤ) ^ e.num.natAbs < 2 ^ (16 * e.den) := by
    have h1 : m < 2 ^ (Nat.log 2 m + 1) := Nat.lt_pow_succ_log_self (by norm_num) m
    have h2 : m ^ e.num.natAbs < (2 ^ (Nat.log 2 m + 1)) ^ e.num.natAbs :=
      Nat.pow_lt_pow_left h1 (by omega)
    have h3 : (Nat.log 2 m + 1) * e.num.natAbs ≤ 16 * e.den := by
      have h4 : (e.num.natAbs : ℚ) = e * e.den := by
        rw [Rat.mul_den_eq_num]
        have : ((e.num.natAbs : ℕ) : ℤ) = e.num := Int.natAbs_of_nonneg hn0.le
        rw [← Int.cast_natCast, this]
      have h5 : (((Nat.log 2 m + 1) * e.num.natAbs : ℕ) : ℚ) ≤ ((16 * e.den : ℕ) : ℚ) := by
        push_cast
        rw [h4]
        have h6 : (0 : ℚ) < e.den := by exact_mod_cast e.den_pos
        have h7 := mul_le_mul_of_nonneg_right hM h6.le
        nlinarith [mul_pos he h6]
      exact_mod_cast h5
    rw [← pow_mul] at h2
    have h8 := h2.trans_le (Nat.pow_le_pow_right (by norm_num) h3)
    exact_mod_cast h8
  have := C47_small_power_total_partial ln2 hln2 choose hc rng hfair m (by exact_mod_cast hm) e m
    (by rw [if_neg (by linarith)]) (by rw [abs_of_pos he, Nat.ceil_natCast]; exact hM)
    (Or.inl (by simp)) (16 * e.den) (by simpa using hbits) (by
      simp only [Rat.den_natCast, one_pow]
      exact Nat.one_lt_two_pow (by have := e.den_pos; omega)) (by nlinarith [e.den_pos])
  rw [hof] at this
  simpa using this

/-- C47, in part: the `l`-th root of a rational number up to `2^(15 l)` that is not an `l`-th power, `l` a
prime, with the code's own factoring and fair random numbers. The denominator has `k` bits; `l` and `k` are
of moderate size, for example `l` up to 1000 and `k` up to 500000. -/
theorem _root_.Algebraics.C47_prime_root_total_partial (ln2 : ℕ → ℕ → DFI) (hln2 : ∀ t, IsLn2 (ln2 t))
    (choose : ℕ → List ℕ → ℕ) (hc : Poly.HeapOrder choose) (rng : ℕ → ℕ) (hfair : Fair rng)
    (l : ℕ) (hl : l.Prime) (q : ℚ) (hq : 0 < q) (hsmall : q ≤ 2 ^ (15 * l)) (hpow : ∀ r : ℚ, r ^ l ≠ q)
    (k : ℕ) (hbits : q.den < 2 ^ k) (hsize : l * (20 * l + k) < 2 ^ 29) :
    ∃ M, ∀ ffuel ≥ M, ∀ fuel ≥ 1, ∃ c,
      (ofRat q).checkedPow ln2 (factorCall choose rng ffuel) fuel (1 / l) = .ok (some c) ∧
      c.Represents ((q : ℝ) ^ (1 / (l : ℝ))) := by
  have hl2 := hl.two_le
  have hl2' : (2 : ℚ) ≤ l := by exact_mod_cast hl2
  have hd : (1 / l : ℚ).den = l := by simp [hl.ne_zero]
  have hn : (1 / l : ℚ).num.natAbs = 1 := by
    rw [one_div, Rat.inv_natCast_num_of_pos hl.pos]; rfl
  have hpos : (0 : ℚ) < 1 / l := by positivity
  have hv : powValue q (1 / l) = (q : ℝ) ^ (1 / (l : ℝ)) := by
    unfold powValue
    rw [if_neg (by rw [hd]; omega)]
    push_cast
    rfl
  have hden0 : (0 : ℚ) < q.den := by exact_mod_cast q.den_pos
  have := C47_small_power_total_partial ln2 hln2 choose hc rng hfair q hq (1 / l) q
    (by rw [if_neg (by linarith)])
    (by
      have h1 : ⌈q⌉₊ ≤ 2 ^ (15 * l) := Nat.ceil_le.mpr (by push_cast; exact hsmall)
      have h2 : Nat.log 2 ⌈q⌉₊ ≤ 15 * l := by
        calc Nat.log 2 ⌈q⌉₊ ≤ Nat.log 2 (2 ^ (15 * l)) := Nat.log_mono_right h1
          _ = 15 * l := Nat.log_pow (by norm_num) _
      have h3 : ((Nat.log 2 ⌈q⌉₊ : ℕ) : ℚ) ≤ 15 * l := by exact_mod_cast h2
      rw [abs_of_pos hpos, one_div, inv_mul_le_iff₀ (by linarith)]
      linarith)
    (Or.inr (by
      rw [hd, hn, pow_one]
      exact X_pow_sub_C_irreducible_of_prime hl hpow))
    (k + 15 * l)
    (by
      rw [hn, pow_one, abs_of_pos (Rat.num_pos.mpr hq)]
      have h1 : (q.num : ℚ) = q * q.den := (Rat.mul_den_eq_num q).symm
      have h2 : (q.num : ℚ) ≤ ((2 ^ (15 * l) * q.den : ℕ) : ℚ) := by
        rw [h1]; push_cast; exact mul_le_mul_of_nonneg_right hsmall hden0.le
      have h3 : q.num ≤ ((2 ^ (15 * l) * q.den : ℕ) : ℤ) := by exact_mod_cast h2
      have h4 : 2 ^ (15 * l) * q.den < 2 ^ (15 * l) * 2 ^ k := Nat.mul_lt_mul_of_pos_left hbits (by positivity)
      rw [← pow_add, add_comm (15 * l)] at h4
      have h5 : ((2 ^ (15 * l) * q.den : ℕ) : ℤ) < ((2 ^ (k + 15 * l) : ℕ) : ℤ) := Int.ofNat_lt.mpr h4
      refine lt_of_le_of_lt h3 (h5.trans_le (le_of_eq ?_))
      rw [Nat.cast_pow]
      rfl)
    (by
      rw [hn, pow_one]
      exact hbits.trans_le (Nat.pow_le_pow_right (by norm_num) (by omega)))
    (by rw [hd]; refine lt_of_le_of_lt (Nat.mul_le_mul_left l ?_) hsize; omega)
  rw [hv] at this
  exact this

/-! ## The theorems apply: `√2`, `1000000^(2/3)`, `∛(5/7)`, `(3/2)^(-1/2)` -/

/-- the square root of two, in words of the property: `checked_pow` returns it -/
example (ln2 : ℕ → ℕ → DFI) (hln2 : ∀ t, IsLn2 (ln2 t)) (rng : ℕ → ℕ) (hfair : Fair rng) :
    ∃ M, ∀ ffuel ≥ M, ∀ fuel ≥ 1, ∃ c,
      (ofInt 2).checkedPow ln2 (factorCall firstSmallest rng ffuel) fuel (1 / 2) = .ok (some c) ∧
      c.Represents (√2) := by
  have h := C47_integer_root_total_partial ln2 hln2 firstSmallest firstSmallest_order rng hfair 2 (by norm_num)
    (1 / 2) (by norm_num) (by norm_num) (by rw [show Nat.log 2 2 = 1 by decide +kernel]; norm_num)
  rw [show powValue ((2 : ℕ) : ℝ) (1 / 2) = √2 by
    unfold powValue
    rw [if_neg (by norm_num), Real.sqrt_eq_rpow]
    norm_num] at h
  exact h

/-- `1000000^(2/3)` is `10000` -/
example (ln2 : ℕ → ℕ → DFI) (hln2 : ∀ t, IsLn2 (ln2 t)) (rng : ℕ → ℕ) (hfair : Fair rng) :
    ∃ M, ∀ ffuel ≥ M, ∀ fuel ≥ 1, ∃ c,
      (ofInt 1000000).checkedPow ln2 (factorCall firstSmallest rng ffuel) fuel (2 / 3) = .ok (some c) ∧
      c.Represents 10000 := by
  have h := C47_integer_root_total_partial ln2 hln2 firstSmallest firstSmallest_order rng hfair 1000000
    (by norm_num) (2 / 3) (by norm_num) (by norm_num)
    (by rw [show Nat.log 2 1000000 = 19 by decide +kernel]; norm_num)
  rw [show powValue ((1000000 : ℕ) : ℝ) (2 / 3) = 10000 by
    unfold powValue
    rw [if_neg (by norm_num), show ((1000000 : ℕ) : ℝ) = 100 ^ (3 : ℝ) by norm_num, ← Real.rpow_mul (by norm_num)]
    push_cast
    rw [show (3 : ℝ) * (2 / 3) = (2 : ℕ) by norm_num, Real.rpow_natCast]
    norm_num] at h
  exact h

/-- the cube root of `5/7` -/
example (ln2 : ℕ → ℕ → DFI) (hln2 : ∀ t, IsLn2 (ln2 t)) (rng : ℕ → ℕ) (hfair : Fair rng) :
    ∃ M, ∀ ffuel ≥ M, ∀ fuel ≥ 1, ∃ c,
      (ofRat (5 / 7)).checkedPow ln2 (factorCall firstSmallest rng ffuel) fuel (1 / (3 : ℕ)) = .ok (some c) ∧
      c.Represents (((5 / 7 : ℚ) : ℝ) ^ (1 / ((3 : ℕ) : ℝ))) := by
  refine C47_prime_root_total_partial ln2 hln2 firstSmallest firstSmallest_order rng hfair 3 (by norm_num)
    (5 / 7) (by norm_num) (by norm_num) (fun r hr => ?_) 3 (by norm_num) (by norm_num)
  have h1 := congrArg (fun z : ℚ => z.num) hr
  simp only [Rat.num_pow] at h1
  have h2 : (5 / 7 : ℚ).num = 5 := by norm_num
  rw [h2] at h1
  generalize r.num = n at h1
  have h3 : n < 2 := by
    by_contra hc
    push Not at hc
    have := pow_le_pow_left₀ (by norm_num) hc 3
    omega
  have h4 : 0 < n := by
    by_contra hc
    push Not at hc
    have := Odd.pow_nonpos (show Odd 3 by decide) hc
    omega
  have : n = 1 := by omega
  rw [this] at h1
  norm_num at h1

/-- a negative exponent: `(3/2)^(-1/2)` -/
example (ln2 : ℕ → ℕ → DFI) (hln2 : ∀ t, IsLn2 (ln2 t)) (rng : ℕ → ℕ) (hfair : Fair rng) :
    ∃ M, ∀ ffuel ≥ M, ∀ fuel ≥ 1, ∃ c,
      (ofRat (3 / 2)).checkedPow ln2 (factorCall firstSmallest rng ffuel) fuel (-1 / 2) = .ok (some c) ∧
      c.Represents (powValue ((3 / 2 : ℚ) : ℝ) (-1 / 2)) := by
  have hn : (-1 / 2 : ℚ).num.natAbs = 1 := by norm_num
  have hd : (-1 / 2 : ℚ).den = 2 := by norm_num
  have hd' : (2 / 3 : ℚ).den = 3 := by norm_num
  have hn' : (2 / 3 : ℚ).num = 2 := by norm_num
  refine C47_small_power_total_partial ln2 hln2 firstSmallest firstSmallest_order rng hfair (3 / 2)
    (by norm_num) (-1 / 2) (2 / 3) (by norm_num) ?_ (Or.inl (by rw [hn, hd']; norm_num)) 2
    (by rw [hn, hn']; norm_num) (by rw [hn, hd']; norm_num) (by rw [hd]; norm_num)
  rw [show ⌈(2 / 3 : ℚ)⌉₊ = 1 from (Nat.ceil_eq_iff (by norm_num)).mpr (by norm_num)]
  norm_num [abs_of_neg]

end RealAlg

end Algebraics
