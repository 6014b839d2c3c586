import Verif.Model.Traits
import Mathlib.NumberTheory.Padics.PadicVal.Basic
import Mathlib.Tactic

namespace Algebraics

theorem bits_spec (n : Nat) (h : n ≠ 0) : 2 ^ (bits n - 1) ≤ n ∧ n < 2 ^ bits n := by
  unfold bits
  rw [if_neg h]
  exact ⟨Nat.pow_log_le_self 2 h, Nat.lt_pow_succ_log_self (by norm_num) n⟩

theorem bits_pos (n : Nat) (h : n ≠ 0) : 1 ≤ bits n := by unfold bits; rw [if_neg h]; omega

theorem floorLog2_spec (n : Int) (k : Nat) :
    floorLog2 n = some k ↔ 2 ^ k ≤ n ∧ n < 2 ^ (k + 1) := by
  unfold floorLog2
  constructor
  · intro h
    split at h
    · next hn =>
      obtain ⟨m, rfl⟩ := Int.eq_ofNat_of_zero_le hn.le
      have hm : m ≠ 0 := by omega
      simp only [Int.natAbs_natCast, Option.some.injEq] at h
      have := bits_spec m hm
      have h1 := bits_pos m hm
      have e : bits m = k + 1 := by omega
      rw [e] at this
      simp only [Nat.add_sub_cancel] at this
      exact ⟨by exact_mod_cast this.1, by exact_mod_cast this.2⟩
    · simp at h
  · rintro ⟨h1, h2⟩
    have hn : 0 < n := lt_of_lt_of_le (by positivity) h1
    rw [if_pos hn]
    obtain ⟨m, rfl⟩ := Int.eq_ofNat_of_zero_le hn.le
    have hm : m ≠ 0 := by omega
    simp only [Int.natAbs_natCast, Option.some.injEq]
    unfold bits
    rw [if_neg hm, Nat.add_sub_cancel]
    have a1 : 2 ^ k ≤ m := by exact_mod_cast h1
    have a2 : m < 2 ^ (k + 1) := by exact_mod_cast h2
    exact (Nat.log_eq_iff (Or.inr ⟨by norm_num, hm⟩)).mpr ⟨a1, a2⟩

theorem ceilLog2_spec (n : Int) (k : Nat) :
    ceilLog2 n = some k ↔ 0 < n ∧ n ≤ 2 ^ k ∧ ∀ j : Nat, n ≤ 2 ^ j → k ≤ j := by
  have main : ∀ m : Nat, (m + 1 ≤ 2 ^ bits m) ∧ ∀ j : Nat, m + 1 ≤ 2 ^ j → bits m ≤ j := by
    intro m
    by_cases hm : m = 0
    · subst hm; simp [bits]
    · refine ⟨(bits_spec m hm).2, fun j hj => ?_⟩
      by_contra hlt
      push Not at hlt
      have : 2 ^ j ≤ 2 ^ (bits m - 1) := Nat.pow_le_pow_right (by norm_num) (by omega)
      have := (bits_spec m hm).1
      omega
  unfold ceilLog2
  by_cases hn : 0 < n
  · obtain ⟨m, rfl⟩ : ∃ m : Nat, n = m + 1 := ⟨(n - 1).toNat, by omega⟩
    rw [if_pos hn]
    have e : ((m : Int) + 1 - 1).natAbs = m := by omega
    rw [e]
    simp only [Option.some.injEq]
    obtain ⟨m1, m2⟩ := main m
    constructor
    · rintro rfl
      exact ⟨hn, by exact_mod_cast m1, fun j hj => m2 j (by exact_mod_cast hj)⟩
    · rintro ⟨-, h1, h2⟩
      exact le_antisymm (m2 k (by exact_mod_cast h1)) (h2 _ (by exact_mod_cast m1))
  · simp [hn]

theorem machineTrailingZeros_spec (f n : Nat) (h0 : n ≠ 0) (h : n < 2 ^ f) :
    machineTrailingZeros f n = padicValNat 2 n := by
  induction f generalizing n with
  | zero => simp at h; omega
  | succ f ih =>
    unfold machineTrailingZeros
    split
    · next he =>
      obtain ⟨m, rfl⟩ := Nat.dvd_of_mod_eq_zero he
      have hm : m ≠ 0 := by rintro rfl; simp at h0
      rw [Nat.mul_div_cancel_left m (by norm_num), ih m hm (by rw [pow_succ] at h; omega),
        padicValNat.mul (by norm_num) hm, padicValNat_self]
      omega
    · next he =>
      exact (padicValNat.eq_zero_of_not_dvd (by omega)).symm

theorem trailingZerosBit_spec (c : Nat) (fuel bit j : Nat) (hb : bit = 2 ^ j)
    (h : c ≤ bit * 2 ^ fuel) :
    ∃ k, trailingZerosBit c fuel bit = 2 ^ k ∧ c ≤ 2 ^ k := by
  induction fuel generalizing bit j with
  | zero => exact ⟨j, by simp [trailingZerosBit, hb], by simpa [hb] using h⟩
  | succ f ih =>
    unfold trailingZerosBit
    split
    · exact ih (bit * 2) (j + 1) (by rw [hb, pow_succ]) (by rw [pow_succ] at h; nlinarith)
    · next hc => exact ⟨j, hb, by rw [← hb]; omega⟩

theorem trailingZerosLoop_spec (fuel v ret : Nat) (h0 : v ≠ 0) (h : padicValNat 2 v < 2 ^ fuel)
    (hr : 2 ^ fuel ∣ ret) : trailingZerosLoop fuel v ret = ret + padicValNat 2 v := by
  induction fuel generalizing v ret with
  | zero =>
    have : padicValNat 2 v = 0 := by simpa using h
    simp [trailingZerosLoop, this]
  | succ f ih =>
    unfold trailingZerosLoop
    simp only
    have hor : ret ||| 2 ^ f = ret + 2 ^ f := by
      obtain ⟨c, rfl⟩ := hr
      rw [← Nat.two_pow_add_eq_or_of_lt (i := f + 1) (Nat.pow_lt_pow_right (by norm_num) (by omega))]
    split
    · next hd =>
      have hdv : 2 ^ 2 ^ f ∣ v := ⟨v / 2 ^ 2 ^ f, by rw [mul_comm]; exact hd.symm⟩
      obtain ⟨w, rfl⟩ := hdv
      have hw : w ≠ 0 := by rintro rfl; simp at h0
      rw [Nat.mul_div_cancel_left w (by positivity)]
      have e : padicValNat 2 (2 ^ 2 ^ f * w) = 2 ^ f + padicValNat 2 w := by
        rw [padicValNat.mul (by positivity) hw, padicValNat.prime_pow]
      rw [e] at h ⊢
      rw [ih w _ hw (by rw [pow_succ] at h; omega), hor]
      · omega
      · rw [hor]; exact Nat.dvd_add ((pow_dvd_pow 2 (by omega)).trans hr) (dvd_refl _)
    · next hd =>
      apply ih v ret h0 _ ((pow_dvd_pow 2 (by omega)).trans hr)
      by_contra hge
      push Not at hge
      apply hd
      exact Nat.div_mul_cancel ((pow_dvd_pow 2 hge).trans pow_padicValNat_dvd)

theorem trailingZerosU_eq (n : Nat) :
    trailingZerosU n = if n = 0 then none else some (padicValNat 2 n) := by
  unfold trailingZerosU ceilLog2U
  by_cases hn : n = 0
  · simp [hn]
  simp only [hn, if_false]
  split
  · next h => rw [machineTrailingZeros_spec 32 n hn h]
  · next h =>
    set c := bits (n - 1) with hc
    obtain ⟨k, hk1, hk2⟩ := trailingZerosBit_spec c c 1 0 (by simp)
      (by rw [one_mul]; exact (Nat.lt_two_pow_self).le)
    rw [hk1, Nat.log_pow (by norm_num), trailingZerosLoop_spec _ _ _ hn _ (by simp), zero_add]
    -- the exponent of two is at most the number of bits
    have hle : n ≤ 2 ^ c := by
      by_cases h1 : n - 1 = 0
      · omega
      · have := (bits_spec (n - 1) h1).2; rw [← hc] at this; omega
    have hv : 2 ^ padicValNat 2 n ≤ 2 ^ c := (Nat.le_of_dvd (by omega) pow_padicValNat_dvd).trans hle
    have : padicValNat 2 n ≤ c := (Nat.pow_le_pow_iff_right (by norm_num)).mp hv
    calc padicValNat 2 n ≤ 2 ^ k := this.trans hk2
      _ < 2 ^ (k + 1) := Nat.pow_lt_pow_right (by norm_num) (by omega)

end Algebraics
