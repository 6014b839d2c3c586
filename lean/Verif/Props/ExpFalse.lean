import Verif.Props.IntervalFn
import Mathlib.Analysis.Complex.Exponential

/-!
# C08: the interval that `exp` returns can miss values

The code reduces both ends of an interval by multiples of `ln 2`. For negative arguments it divides
the upper end by the lower bound of `ln 2`, which makes the upper bound of the result too small. The
error is a few units of the working precision, so it shows only when `exp` of the upper end lies just
above a number that the result's precision can represent. Here is an interval for which this happens.
-/

namespace Algebraics
open DFI

/-- the upper end of the interval, in units of `2^-208` -/
def expFalseHi : ℤ := -8511554702124046548084671004227017496076088043536728523972474726

/-- the lower end of the interval, in units of `2^-208` -/
def expFalseLo : ℤ := -8532123509090561623611608119008984377388372241857148272264332338

/-- the upper bound that is returned, in units of `2^-208` -/
def expFalseBound : ℤ := 425102567056222724089833651312210906653462414204353653

/-- `ln 2` rounded down to a multiple of `2^-254` -/
def ln2Floor : ℤ := 20065240046497827215558476051577517633497666902897486651530716876354989244042

/-- the part of `exp` after the lookups of `ln 2`, for the interval of the counterexample -/
def expFalseTail (l2 : DFI) : Option DFI := do
  let a := ((⟨expFalseLo, expFalseHi, 208⟩ : DFI).convertLog2Denom 218).convertLog2Denom 254
  if l2.hi = 0 ∨ l2.lo = 0 then none
  else
    let ql := a.lo.fdiv l2.hi
    let qu := a.hi.fdiv l2.lo
    let x : DFI := ⟨a.lo.fmod l2.hi, a.hi.fmod l2.lo, 254⟩
    let r ← expLoop x (254 - 1) 1 (one 254) (one 254)
    let lo := if ql < 0 then shr r.lo ql.natAbs else shl r.lo ql.natAbs
    let hi := if qu < 0 then -shr (-r.hi) qu.natAbs else shl r.hi qu.natAbs
    return (⟨lo, hi, r.log2Denom⟩ : DFI).convertLog2Denom 208

theorem exp_false_eq (ln2 : Nat → DFI) (h : (ln2 218).lo ≠ 0) :
    (⟨expFalseLo, expFalseHi, 208⟩ : DFI).exp ln2 = expFalseTail (ln2 254) := by
  unfold exp expFalseTail
  dsimp only
  rw [if_neg h]
  have h1 : ((⟨expFalseLo, expFalseHi, 208⟩ : DFI).convertLog2Denom (208 + 10)).lo ≤ 0 := by decide
  have h2 : ((⟨expFalseLo, expFalseHi, 208⟩ : DFI).convertLog2Denom (208 + 10)).hi ≤ 0 := by decide
  have e1 : ∀ s v : ℤ, v ≤ 0 → expExtraBits s v = 0 := by
    intro s v hv
    unfold expExtraBits
    rw [if_neg (by omega)]
  rw [e1 _ _ h1, e1 _ _ h2]
  have hfl : floorLog2U (208 + 1) = some 7 := by decide
  rw [hfl]
  rfl

theorem exp_false_tails : ∀ i < 8, ∀ j < 8,
    ((expFalseTail ⟨ln2Floor - (i : ℕ), ln2Floor + 1 + (j : ℕ), 254⟩).any
      fun r => decide (r.hi ≤ expFalseBound) && decide (r.log2Denom = 208)) = true := by
  decide +kernel

theorem ln2Floor_bounds : (ln2Floor : ℝ) < Real.log 2 * 2 ^ 254 ∧
    Real.log 2 * 2 ^ 254 < (ln2Floor : ℝ) + 1 := by
  obtain ⟨h1, h2, h3⟩ := C06_ln2_direct 270
  obtain ⟨b1, -, b3, -⟩ := isLn2_bounds h1 h2 h3
  have e : (ln2Floor * 2 ^ 16 < (ln2Direct 270).lo) ∧ (ln2Direct 270).hi < (ln2Floor + 1) * 2 ^ 16 := by
    decide +kernel
  have e1 : (ln2Floor : ℝ) * 2 ^ 16 < (ln2Direct 270).lo := by exact_mod_cast e.1
  have e2 : ((ln2Direct 270).hi : ℝ) < ((ln2Floor : ℝ) + 1) * 2 ^ 16 := by exact_mod_cast e.2
  have hp : (2 : ℝ) ^ 270 = 2 ^ 254 * 2 ^ 16 := by rw [← pow_add]
  rw [hp, ← mul_assoc] at b1 b3
  generalize Real.log 2 * 2 ^ 254 = L at b1 b3 ⊢
  generalize (ln2Floor : ℝ) = f at e1 e2 ⊢
  constructor <;> norm_num at e1 e2 b1 b3 <;> linarith

/-- a rational lower bound for `ln 2` -/
def ln2Low : ℚ := (ln2Direct 320).lo / 2 ^ 320

theorem ln2Low_le : (ln2Low : ℝ) ≤ Real.log 2 := by
  obtain ⟨h1, h2, h3⟩ := C06_ln2_direct 320
  obtain ⟨b1, -⟩ := isLn2_bounds h1 h2 h3
  unfold ln2Low
  push_cast
  rw [div_le_iff₀ (by positivity)]
  exact b1

/-- the argument of the counterexample, reduced by 30 times the lower bound of `ln 2` -/
def expFalseArg : ℚ := expFalseHi / 2 ^ 208 + 30 * ln2Low

theorem expFalse_taylor : 0 ≤ expFalseArg ∧
    (expFalseBound : ℚ) * 2 ^ 30 / 2 ^ 208 <
      ∑ i ∈ Finset.range 60, expFalseArg ^ i / (i.factorial : ℚ) := by
  decide +kernel

theorem expFalse_real : (expFalseBound : ℝ) / 2 ^ 208 < Real.exp ((expFalseHi : ℝ) / 2 ^ 208) := by
  obtain ⟨h0, h1⟩ := expFalse_taylor
  have h2 : ((∑ i ∈ Finset.range 60, expFalseArg ^ i / (i.factorial : ℚ) : ℚ) : ℝ) ≤
      Real.exp (expFalseArg : ℝ) := by
    push_cast
    exact Real.sum_le_exp_of_nonneg (by exact_mod_cast h0) 60
  have h3 : ((expFalseBound : ℝ) * 2 ^ 30 / 2 ^ 208) <
      ((∑ i ∈ Finset.range 60, expFalseArg ^ i / (i.factorial : ℚ) : ℚ) : ℝ) := by
    exact_mod_cast h1
  have h4 : (expFalseArg : ℝ) ≤ (expFalseHi : ℝ) / 2 ^ 208 + 30 * Real.log 2 := by
    unfold expFalseArg
    push_cast
    have := ln2Low_le
    linarith
  have h5 : Real.exp ((expFalseHi : ℝ) / 2 ^ 208 + 30 * Real.log 2) =
      Real.exp ((expFalseHi : ℝ) / 2 ^ 208) * 2 ^ 30 := by
    rw [Real.exp_add, show (30 : ℝ) * Real.log 2 = Real.log (2 ^ 30) by
      rw [Real.log_pow]; norm_num, Real.exp_log (by positivity)]
  have h6 := Real.exp_le_exp.mpr h4
  rw [h5] at h6
  have h7 : (expFalseBound : ℝ) * 2 ^ 30 / 2 ^ 208 < Real.exp ((expFalseHi : ℝ) / 2 ^ 208) * 2 ^ 30 := by
    linarith
  have h8 : (expFalseBound : ℝ) * 2 ^ 30 / 2 ^ 208 = (expFalseBound : ℝ) / 2 ^ 208 * 2 ^ 30 := by ring
  rw [h8] at h7
  exact lt_of_mul_lt_mul_right h7 (by positivity)

/-- C08 is false also when `exp` returns: there is an interval, 208 bits after the point, with a member
`x` such that the result of `exp` does not contain `exp x`, whatever the state of the `ln 2` cache. -/
theorem C08_enclosure_false (ln2 : Nat → DFI) (hln2 : IsLn2 ln2) :
    ∃ (a r : DFI) (x : ℝ), a.Ordered ∧ a.Contains x ∧ a.exp ln2 = some r ∧ ¬ r.Contains (Real.exp x) := by
  obtain ⟨sd, sc, su⟩ := hln2 218
  obtain ⟨-, s2, -⟩ := isLn2_bounds sd sc su
  have hs0 : (ln2 218).lo ≠ 0 := by
    intro h
    rw [h] at s2
    have := log_two_gt
    norm_num at s2
    linarith
  obtain ⟨ld, lc, lu⟩ := hln2 254
  obtain ⟨l1, l2, l3, l4⟩ := isLn2_bounds ld lc lu
  obtain ⟨f1, f2⟩ := ln2Floor_bounds
  have r1 : (ln2 254).lo < ln2Floor + 1 := by exact_mod_cast lt_of_le_of_lt l1 f2
  have r2 : ln2Floor < (ln2 254).lo + 8 := by exact_mod_cast lt_of_lt_of_le f1 l2
  have r3 : ln2Floor < (ln2 254).hi := by exact_mod_cast lt_of_lt_of_le f1 l3
  have r4 : (ln2 254).hi < ln2Floor + 9 := by
    have : ((ln2 254).hi : ℝ) < ln2Floor + 9 := by linarith
    exact_mod_cast this
  have hl : ln2 254 = ⟨ln2Floor - ((ln2Floor - (ln2 254).lo).toNat : ℕ),
      ln2Floor + 1 + (((ln2 254).hi - ln2Floor - 1).toNat : ℕ), 254⟩ := by
    generalize ln2Floor = f at r1 r2 r3 r4 ⊢
    generalize ln2 254 = l at r1 r2 r3 r4 ld ⊢
    obtain ⟨lo, hi, d⟩ := l
    simp only [DFI.mk.injEq] at r1 r2 r3 r4 ld ⊢
    exact ⟨by omega, by omega, ld⟩
  have ht := exp_false_tails (ln2Floor - (ln2 254).lo).toNat (by omega)
    ((ln2 254).hi - ln2Floor - 1).toNat (by omega)
  rw [← hl, Option.any_eq_true] at ht
  obtain ⟨r, hr, hb⟩ := ht
  simp only [Bool.and_eq_true, decide_eq_true_eq] at hb
  refine ⟨⟨expFalseLo, expFalseHi, 208⟩, r, (expFalseHi : ℝ) / 2 ^ 208,
    (by decide : expFalseLo ≤ expFalseHi), ⟨?_, le_refl _⟩,
    by rw [exp_false_eq ln2 hs0, hr], ?_⟩
  · have : (expFalseLo : ℝ) ≤ expFalseHi := by exact_mod_cast (by decide : expFalseLo ≤ expFalseHi)
    exact div_le_div_of_nonneg_right this (by positivity)
  · intro hc
    have h1 := hc.2
    rw [hb.2] at h1
    have h2 : (r.hi : ℝ) ≤ expFalseBound := by exact_mod_cast hb.1
    have h3 : (r.hi : ℝ) / 2 ^ 208 ≤ (expFalseBound : ℝ) / 2 ^ 208 :=
      div_le_div_of_nonneg_right h2 (by positivity)
    have := expFalse_real
    linarith

/-- the hypothesis is met by the code's own `ln 2`. -/
example : IsLn2 ln2Direct := C06_ln2_direct

end Algebraics
