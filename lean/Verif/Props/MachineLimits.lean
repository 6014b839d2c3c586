import Verif.Lemmas.MachineLimits
import Verif.Props.AlgNumPow
import Verif.Props.ExpReturns
import Verif.Props.IntervalFn

/-!
# C81: limits of machine words are never silent
-/

namespace Algebraics

/-- C81, powers of intervals with an exponent of a machine type: the only exponents for which the type matters are
the negative ones whose negation the type does not have; those give an error. -/
theorem C81_pow_typed (E : IntTy) (a : DFI) (k : ℤ) :
    (0 ≤ k ∨ E.fits (-k) → a.powTyped E k = a.pow k) ∧
    (k < 0 → ¬ E.fits (-k) → a.powTyped E k = none) := by
  unfold DFI.powTyped DFI.pow
  by_cases h0 : k = 0
  · rw [if_pos h0, if_pos h0]
    exact ⟨fun _ => rfl, fun h => by omega⟩
  rw [if_neg h0, if_neg h0]
  by_cases h1 : k = 1
  · rw [if_pos h1, if_pos h1]
    exact ⟨fun _ => rfl, fun h => by omega⟩
  rw [if_neg h1, if_neg h1]
  by_cases h2 : k < 0
  · rw [if_pos h2, if_pos h2]
    refine ⟨?_, ?_⟩
    · rintro (h | h)
      · omega
      · unfold IntTy.check
        rw [zero_sub, if_pos h]
        simp only [Option.bind_eq_bind, Option.bind_some, Int.natAbs_neg]
        by_cases h3 : k = -1
        · have h4 : -k = 1 := by omega
          simp only [if_pos h3, if_pos h4]
        · have h4 : ¬ -k = 1 := by omega
          simp only [if_neg h3, if_neg h4]
    · intro _ h
      unfold IntTy.check
      rw [zero_sub, if_neg h]
      rfl
  · rw [if_neg h2, if_neg h2]
    exact ⟨fun _ => rfl, fun h => absurd h h2⟩

/-- for a signed type only the smallest number is affected, for an unsigned type and big integers none -/
theorem C81_pow_signed (n : ℕ) (a : DFI) (k : ℤ) (hk : (IntTy.signed n).fits k) :
    a.powTyped (.signed n) k = if k = -2 ^ (n - 1) then none else a.pow k := by
  have hb : (0 : ℤ) < 2 ^ (n - 1) := by positivity
  obtain ⟨k1, k2⟩ := hk
  by_cases h : k = -2 ^ (n - 1)
  · rw [if_pos h]
    refine (C81_pow_typed _ a k).2 (by omega) ?_
    rintro ⟨-, h4⟩
    omega
  · rw [if_neg h]
    refine (C81_pow_typed _ a k).1 (Or.inr ⟨by omega, by omega⟩)

theorem C81_pow_unsigned (n : ℕ) (a : DFI) (k : ℤ) (hk : (IntTy.unsigned n).fits k) :
    a.powTyped (.unsigned n) k = a.pow k :=
  (C81_pow_typed _ a k).1 (Or.inl hk.1)

/-- the powers of one half in `i8` is there; the power with exponent `-128` is refused -/
example : (⟨1, 1, 1⟩ : DFI).powTyped (.signed 8) (-2) = some ⟨8, 8, 1⟩ ∧
    (⟨1, 1, 1⟩ : DFI).powTyped (.signed 8) (-128) = none ∧ (IntTy.signed 8).fits (-128) := by
  refine ⟨?_, ?_, ?_⟩ <;> decide +kernel

/-- C81, the exponential: whatever the interval, a result that is computed with machine words is the one that is
computed without limits. -/
theorem C81_exp_exact (ln2 : ℕ → DFI) (hln2 : IsLn2 ln2) (a r : DFI) (h : a.expWords ln2 = some r) :
    a.exp ln2 = some r :=
  DFI.expWords_some ln2 hln2 a r h

/-- C81, the exponential: with a precision below `2^61` and an upper end up to `2^61` the limits do not matter, however
far below zero the interval begins. -/
theorem C81_exp_unaffected (ln2 : ℕ → DFI) (hln2 : IsLn2 ln2) (a : DFI) (hn : a.log2Denom < 2 ^ 61) (ho : a.Ordered)
    (hhi : (a.hi : ℚ) / 2 ^ a.log2Denom ≤ 2 ^ 61) : a.expWords ln2 = a.exp ln2 := by
  unfold DFI.Ordered at ho
  refine DFI.expWords_eq ln2 hln2 a hn ho ?_
  have hp : (0 : ℚ) < 2 ^ a.log2Denom := by positivity
  rw [div_le_iff₀ hp] at hhi
  exact_mod_cast hhi

/-- C81, the exponential: an interval that reaches `2^64` is refused. -/
theorem C81_exp_refused (ln2 : ℕ → DFI) (hln2 : IsLn2 ln2) (a : DFI) (hhi : 2 ^ 64 ≤ (a.hi : ℚ) / 2 ^ a.log2Denom) :
    a.expWords ln2 = none := by
  refine DFI.expWords_none ln2 hln2 a ?_
  have hp : (0 : ℚ) < 2 ^ a.log2Denom := by positivity
  rw [le_div_iff₀ hp] at hhi
  exact_mod_cast hhi

/-- the exponential of `[-2^70, 0]`, whose lower end needs a shift beyond a machine word, comes out the same;
`[0, 2^64]` is refused -/
example : (⟨-2 ^ 70, 0, 0⟩ : DFI).expWords ln2Direct = (⟨-2 ^ 70, 0, 0⟩ : DFI).exp ln2Direct ∧
    (⟨0, 2 ^ 64, 0⟩ : DFI).expWords ln2Direct = none := by
  refine ⟨C81_exp_unaffected _ C06_ln2_direct _ (by norm_num) (by unfold DFI.Ordered; norm_num) ?_,
    C81_exp_refused _ C06_ln2_direct _ ?_⟩
  · norm_num
  · norm_num

open RealAlg in
/-- C81, powers of algebraic numbers: an exponent whose numerator or denominator is too big for a machine word is
refused, unless the base is 0, 1 or -1 or the power of a negative number with an exponent that is not an integer;
with every other exponent the limits do not matter. -/
theorem C81_alg_pow (ln2 : ℕ → ℕ → DFI) (F : FactorCall) (fuel : ℕ) (a : RealAlg) (x : ℝ) (h : a.Represents x)
    (e : ℚ) :
    (e.num.natAbs < 2 ^ 64 ∧ e.den < 2 ^ 64 ∨ x = 0 ∨ x = 1 ∨ x = -1 ∨ (x < 0 ∧ e.den ≠ 1) →
      a.checkedPowWords ln2 F fuel e = a.checkedPow ln2 F fuel e) ∧
    (2 ^ 64 ≤ e.num.natAbs ∨ 2 ^ 64 ≤ e.den → x ≠ 0 → x ≠ 1 → x ≠ -1 → ¬ (x < 0 ∧ e.den ≠ 1) →
      a.checkedPowWords ln2 F fuel e = .error .panic) := by
  classical
  constructor
  · intro hc
    unfold checkedPowWords checkedPow
    by_cases h0 : e = 0
    · rw [if_pos h0, if_pos h0]
    rw [if_neg h0, if_neg h0]
    by_cases h1 : e = 1
    · rw [if_pos h1, if_pos h1]
    rw [if_neg h1, if_neg h1]
    by_cases h2 : e = -1
    · rw [if_pos h2, if_pos h2]
    rw [if_neg h2, if_neg h2]
    by_cases h3 : a.isZero
    · rw [if_pos h3, if_pos h3]
    rw [if_neg h3, if_neg h3]
    by_cases h4 : a.isOne
    · rw [if_pos h4, if_pos h4]
    rw [if_neg h4, if_neg h4]
    by_cases h5 : a.isNegativeOne
    · rw [if_pos h5, if_pos h5]
    rw [if_neg h5, if_neg h5]
    unfold powTailWords powTail
    rw [h.isNegative_eq]
    simp only [bind, Except.bind]
    by_cases h6 : x < 0 ∧ e.den ≠ 1
    · rw [if_pos (by simpa using h6), if_pos (by simpa using h6)]
    · rw [if_neg (by simpa using h6), if_neg (by simpa using h6)]
      rcases hc with hc | hc | hc | hc | hc
      · rw [usize_some hc.1, usize_some hc.2]
        rfl
      · exact absurd (h.isZero_iff.mpr hc) h3
      · exact absurd (h.isOne_iff.mpr hc) h4
      · exact absurd (h.isNegativeOne_iff.mpr hc) h5
      · exact absurd hc h6
  · intro hb x0 x1 x2 x3
    have hbig : e.num.natAbs ≠ 1 ∨ e.den ≠ 1 := by omega
    unfold checkedPowWords
    rw [if_neg (by rintro rfl; simp at hb), if_neg (by rintro rfl; simp at hb),
      if_neg (by rintro rfl; simp at hb), if_neg (fun t => x0 (h.isZero_iff.mp t)),
      if_neg (fun t => x1 (h.isOne_iff.mp t)), if_neg (fun t => x2 (h.isNegativeOne_iff.mp t))]
    unfold powTailWords
    rw [h.isNegative_eq]
    simp only [bind, Except.bind]
    rw [if_neg (by simpa using x3)]
    by_cases hn : 2 ^ 64 ≤ e.num.natAbs
    · rw [usize_none hn]; rfl
    · rw [usize_some (not_le.mp hn), usize_none (hb.resolve_left hn)]; rfl

open RealAlg in
/-- the power of 2 with exponent `2^64` is refused, that of -1 is there -/
example (ln2 : ℕ → ℕ → DFI) (F : FactorCall) (fuel : ℕ) :
    (RealAlg.ofInt 2).checkedPowWords ln2 F fuel (2 ^ 64) = .error .panic ∧
    (RealAlg.ofInt (-1)).checkedPowWords ln2 F fuel (2 ^ 64) = (RealAlg.ofInt (-1)).checkedPow ln2 F fuel (2 ^ 64) := by
  have hnum : ((2 : ℚ) ^ 64).num.natAbs = 2 ^ 64 := by norm_num
  have hden : ((2 : ℚ) ^ 64).den = 1 := by norm_num
  refine ⟨(C81_alg_pow ln2 F fuel _ _ (ofInt_represents 2) _).2 (Or.inl hnum.ge) (by norm_num) (by norm_num)
    (by norm_num) (by norm_num), (C81_alg_pow ln2 F fuel _ _ (ofInt_represents (-1)) _).1 (by norm_num)⟩

theorem asI64_small {x : ℕ} (h : x < 2 ^ 63) : DFI.asI64 x = x := by
  unfold DFI.asI64
  rw [Int.bmod_eq_of_le] <;> omega

theorem check64_sub {x y : ℕ} (hx : x < 2 ^ 63) (hy : y < 2 ^ 63) :
    DFI.subI64 x y = some ((x : ℤ) - y) := by
  unfold DFI.subI64
  rw [asI64_small hx, asI64_small hy]
  unfold IntTy.check
  rw [if_pos]
  unfold IntTy.fits
  norm_num
  omega

theorem floorLog2_lt {v : ℤ} {l : ℕ} {s : ℕ} (hv : v < 2 ^ s) (hs : s < 2 ^ 63) (h : floorLog2 v = some l) :
    l < 2 ^ 63 := by
  unfold floorLog2 at h
  by_cases h0 : 0 < v
  · rw [if_pos h0, Option.some.injEq] at h
    unfold bits at h
    rw [if_neg (by omega)] at h
    have h1 : v.natAbs < 2 ^ s := by
      have : ((v.natAbs : ℕ) : ℤ) < ((2 ^ s : ℕ) : ℤ) := by push_cast; rw [abs_of_pos h0]; exact hv
      exact_mod_cast this
    have h2 : Nat.log 2 v.natAbs < s := Nat.log_lt_of_lt_pow (by omega) h1
    omega
  · rw [if_neg h0] at h; simp at h

theorem ceilLog2_lt {v : ℤ} {l : ℕ} {s : ℕ} (hv : v < 2 ^ s) (hs : s < 2 ^ 63) (h : ceilLog2 v = some l) :
    l < 2 ^ 63 := by
  unfold ceilLog2 at h
  by_cases h0 : 0 < v
  · rw [if_pos h0, Option.some.injEq] at h
    unfold bits at h
    by_cases h3 : (v - 1).natAbs = 0
    · rw [if_pos h3] at h; omega
    · rw [if_neg h3] at h
      have h1 : (v - 1).natAbs < 2 ^ s := by
        have : (((v - 1).natAbs : ℕ) : ℤ) < ((2 ^ s : ℕ) : ℤ) := by
          push_cast; rw [abs_of_nonneg (by omega)]; omega
        exact_mod_cast this
      have h2 : Nat.log 2 (v - 1).natAbs < s := Nat.log_lt_of_lt_pow h3 h1
      omega
  · rw [if_neg h0] at h; simp at h

theorem bind_of {α β : Type} {o : Option α} {x : α} (h : o = some x) (f : α → Option β) : o.bind f = f x := by
  rw [h]; rfl

/-- C81, logarithms of intervals: while the precision and the length of the numerators are below `2^63` bits, the
casts and the subtraction of machine words do not matter. -/
theorem C81_log2_unaffected (a : DFI) (s : ℕ) (hs : s < 2 ^ 63) (hn : a.log2Denom < 2 ^ 63) (hl : a.lo < 2 ^ s)
    (hh : a.hi < 2 ^ s) : a.floorLog2Words = a.floorLog2 ∧ a.ceilLog2Words = a.ceilLog2 := by
  have key : ∀ x y : ℕ, x < 2 ^ 63 → y < 2 ^ 63 →
    DFI.subI64 x y = some ((x : ℤ) - y) := fun x y hx hy => check64_sub hx hy
  have f1 : ∀ l, floorLog2 a.lo = some l → l < 2 ^ 63 := fun l h => floorLog2_lt hl hs h
  have f2 : ∀ l, floorLog2 a.hi = some l → l < 2 ^ 63 := fun l h => floorLog2_lt hh hs h
  have f3 : ∀ l, ceilLog2 a.lo = some l → l < 2 ^ 63 := fun l h => ceilLog2_lt hl hs h
  have f4 : ∀ l, ceilLog2 a.hi = some l → l < 2 ^ 63 := fun l h => ceilLog2_lt hh hs h
  clear hl hh hs
  constructor
  · unfold DFI.floorLog2Words DFI.floorLog2
    simp only [Option.bind_eq_bind]
    cases h1 : floorLog2 a.lo with
    | none => exact (Option.bind_none _).trans (Option.bind_none _).symm
    | some l =>
      refine (bind_of rfl _).trans ((bind_of (key _ _ (f1 l h1) hn) _).trans (Eq.trans ?_ (bind_of rfl _).symm))
      cases h2 : floorLog2 a.hi with
      | none => exact (Option.bind_none _).trans (Option.bind_none _).symm
      | some h =>
        exact (bind_of rfl _).trans ((bind_of (key _ _ (f2 h h2) hn) _).trans (bind_of rfl _).symm)
  · unfold DFI.ceilLog2Words DFI.ceilLog2
    simp only [Option.bind_eq_bind]
    cases h1 : ceilLog2 a.lo with
    | none => exact (Option.bind_none _).trans (Option.bind_none _).symm
    | some l =>
      refine (bind_of rfl _).trans ((bind_of (key _ _ (f3 l h1) hn) _).trans (Eq.trans ?_ (bind_of rfl _).symm))
      cases h2 : ceilLog2 a.hi with
      | none => exact (Option.bind_none _).trans (Option.bind_none _).symm
      | some h =>
        exact (bind_of rfl _).trans ((bind_of (key _ _ (f4 h h2) hn) _).trans (bind_of rfl _).symm)

example : (⟨3, 20, 4⟩ : DFI).floorLog2Words = some (-3, 0) ∧ (⟨3, 20, 4⟩ : DFI).ceilLog2Words = some (-2, 1) := by
  have h := C81_log2_unaffected ⟨3, 20, 4⟩ 5 (by norm_num) (by norm_num) (by norm_num) (by norm_num)
  rw [h.1, h.2]
  constructor <;> decide +kernel

/-- beyond that bound the casts are not harmless: one unit at a precision of `2^63 + 1` bits gets a huge positive
logarithm -/
theorem C81_log2_wraps : (⟨1, 1, 2 ^ 63 + 1⟩ : DFI).floorLog2Words = some (2 ^ 63 - 1, 2 ^ 63 - 1) := by
  decide +kernel

theorem toI64_eq (r : ℕ) : RealAlg.toI64 r = if r < 2 ^ 63 then some (r : ℤ) else none := by
  unfold RealAlg.toI64 IntTy.check
  by_cases h : r < 2 ^ 63
  · rw [if_pos h, if_pos]
    unfold IntTy.fits; norm_num; omega
  · rw [if_neg h, if_neg]
    unfold IntTy.fits; norm_num; omega

open RealAlg in
theorem toIntegerLog2With_eq (convert : ℕ → Option ℤ) (M : ℕ)
    (hc : ∀ r, convert r = if r < M then some (r : ℤ) else none) (a : RealAlg) :
    a.toIntegerLog2With convert = match a.toIntegerLog2 with
      | .ok (some r) => if r.natAbs < M then .ok (some r) else .error .panic
      | other => other := by
  unfold toIntegerLog2With toIntegerLog2
  simp only [bind, Except.bind, hc]
  cases a.toRationalRaw with
  | error e => rfl
  | ok o =>
    cases o with
    | none => rfl
    | some p =>
      obtain ⟨numer, denom⟩ := p
      dsimp only
      by_cases hd : denom = 1
      · simp only [if_pos hd]
        cases floorLog2 numer with
        | none => rfl
        | some r =>
          dsimp only
          cases ceilLog2 numer with
          | none => rfl
          | some c =>
            simp only [orPanic]
            by_cases hrc : r = c
            · simp only [if_pos hrc]
              by_cases hr : r < M <;> simp [hr, pure, Except.pure]
            · simp only [if_neg hrc]; rfl
      · simp only [if_neg hd]
        by_cases hn : numer = 1
        · simp only [if_pos hn]
          cases floorLog2 denom with
          | none => rfl
          | some r =>
            cases ceilLog2 denom with
            | none => rfl
            | some c =>
              simp only [orPanic]
              by_cases hrc : r = c
              · simp only [if_pos hrc]
                by_cases hr : r < M <;> simp [hr, pure, Except.pure]
              · simp only [if_neg hrc]; rfl
        · simp only [if_neg hn]; rfl

/-- C81, the logarithm of a power of two: exponents that are no `i64` are refused, the others are exact. (The smallest
`i64` is refused too.) -/
theorem C81_integer_log2 (a : RealAlg) :
    a.toIntegerLog2Words = match a.toIntegerLog2 with
      | .ok (some r) => if r.natAbs < 2 ^ 63 then .ok (some r) else .error .panic
      | other => other :=
  toIntegerLog2With_eq RealAlg.toI64 (2 ^ 63) toI64_eq a

example : (RealAlg.ofInt 8).toIntegerLog2Words = .ok (some 3) := by
  rw [C81_integer_log2]
  decide +kernel

end Algebraics
