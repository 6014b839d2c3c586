import Verif.Lemmas.MachineInt
import Verif.Props.Traits

/-!
# Properties C35 and C36 for machine integers and rational numbers
-/

namespace Algebraics

/-- C35: for machine integers of every width `w`, signed (`-2^(w-1) ≤ v < 2^(w-1)`) or unsigned
(`0 ≤ v < 2^w`), the logarithms and the number of trailing zeros are those of the integer, the
subtractions do not go below zero, and `BITS` is the width. -/
theorem C35_machine (w : Nat) (v : Int)
    (hv : (0 ≤ v ∧ v < 2 ^ w) ∨ (0 < w ∧ -2 ^ (w - 1) ≤ v ∧ v < 2 ^ (w - 1))) :
    integerBits w = w ∧
    (∃ r, floorLog2Machine w v = some r ∧
      (∀ k : Nat, r = some k ↔ 2 ^ k ≤ v ∧ v < 2 ^ (k + 1)) ∧ (r = none ↔ v ≤ 0)) ∧
    (∃ r, ceilLog2Machine w v = some r ∧
      (∀ k : Nat, r = some k ↔ 0 < v ∧ v ≤ 2 ^ k ∧ ∀ j : Nat, v ≤ 2 ^ j → k ≤ j) ∧
      (r = none ↔ v ≤ 0)) ∧
    (∀ k : Nat, trailingZerosMachine w v = some k ↔ (2:Int) ^ k ∣ v ∧ ¬ (2:Int) ^ (k + 1) ∣ v) ∧
    (trailingZerosMachine w v = none ↔ v = 0) := by
  have hlo : -(2:Int) ^ w < v := by
    rcases hv with ⟨h, -⟩ | ⟨hw, h, -⟩
    · have : (0:Int) < 2 ^ w := by positivity
      omega
    · obtain ⟨m, rfl⟩ : ∃ m, w = m + 1 := ⟨w - 1, by omega⟩
      have : (0:Int) < 2 ^ m := by positivity
      rw [Nat.add_sub_cancel] at h
      rw [pow_succ]
      omega
  have hhi : v < (2:Int) ^ w := by
    rcases hv with ⟨-, h⟩ | ⟨hw, -, h⟩
    · exact h
    · obtain ⟨m, rfl⟩ : ∃ m, w = m + 1 := ⟨w - 1, by omega⟩
      have : (0:Int) < 2 ^ m := by positivity
      rw [Nat.add_sub_cancel] at h
      rw [pow_succ]
      omega
  refine ⟨integerBits_eq w, ⟨floorLog2 v, ?_, C35_floor_log2 v⟩, ⟨ceilLog2 v, ?_, C35_ceil_log2 v⟩, ?_⟩
  · unfold floorLog2Machine floorLog2
    by_cases h0 : v ≤ 0
    · rw [if_pos h0, if_neg (by omega)]
    · have hp := twosComplement_of_nonneg w v (by omega) hhi
      have hs := machineLeadingZeros_add w v.natAbs (by rw [← hp]; exact twosComplement_lt w v)
      have hb : 0 < bits v.natAbs := by
        unfold bits; rw [if_neg (by omega)]; omega
      rw [if_neg h0, integerBits_eq, hp, if_neg (by omega), if_pos (by omega)]
      congr 2
      omega
  · unfold ceilLog2Machine ceilLog2
    by_cases h0 : v ≤ 0
    · rw [if_pos h0, if_neg (by omega)]
    · have hp := twosComplement_of_nonneg w (v - 1) (by omega) (by omega)
      have hs := machineLeadingZeros_add w (v - 1).natAbs
        (by rw [← hp]; exact twosComplement_lt w (v - 1))
      rw [if_neg h0, integerBits_eq, hp, if_neg (by omega), if_pos (by omega)]
      congr 2
      omega
  · have e : trailingZerosMachine w v = trailingZeros v := by
      unfold trailingZerosMachine trailingZeros
      rw [trailingZerosU_eq]
      by_cases h0 : v = 0
      · simp [h0]
      · obtain ⟨hne, hval⟩ := padicValNat_twosComplement w v h0 hlo hhi
        rw [if_neg h0, if_neg (by omega),
          machineTrailingZeros_spec w _ hne (twosComplement_lt w v), hval]
    rw [e]
    exact C35_trailing_zeros v

example : floorLog2Machine 8 255 = some (some 7) ∧ ceilLog2Machine 8 255 = some (some 8) ∧
    floorLog2Machine 16 (-3) = some none ∧ ceilLog2Machine 16 1 = some (some 0) ∧
    trailingZerosMachine 8 (-128) = some 7 ∧ trailingZerosMachine 32 (-48) = some 4 := by
  decide +kernel

/-- C36: for rational numbers the nearest division is the exact one: it fails only for a divisor of
zero, and leaves no remainder. -/
theorem C36_rational (a b : Rat) :
    (divRemNearestRat a b = none ↔ b = 0) ∧
    ∀ q r, divRemNearestRat a b = some (q, r) ↔ b ≠ 0 ∧ a = q * b + r ∧ r = 0 := by
  unfold divRemNearestRat
  by_cases hb : b = 0
  · simp [hb]
  · simp only [hb, if_false, Option.some.injEq, Prod.mk.injEq, reduceCtorEq, ne_eq, not_false_eq_true,
      true_and]
    intro q r
    constructor
    · rintro ⟨rfl, rfl⟩
      exact ⟨by field_simp; simp, rfl⟩
    · rintro ⟨h, rfl⟩
      refine ⟨?_, rfl⟩
      rw [h]; field_simp; simp

example : divRemNearestRat (3 / 4) (-5 / 7) = some (-21 / 20, 0) := by decide +kernel

end Algebraics
