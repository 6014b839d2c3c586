import Verif.Model.MachineInt
import Verif.Lemmas.Traits

/-! Lemmas about machine integers. -/

namespace Algebraics

theorem machineTrailingZeros_zero (w : Nat) : machineTrailingZeros w 0 = w := by
  induction w with
  | zero => rfl
  | succ w ih => simp [machineTrailingZeros, ih]

theorem integerBits_eq (w : Nat) : integerBits w = w := by
  simp [integerBits, twosComplement, machineTrailingZeros_zero]

theorem machineLeadingZeros_add (w p : Nat) (h : p < 2 ^ w) :
    machineLeadingZeros w p + bits p = w := by
  induction w with
  | zero => have : p = 0 := by simpa using h
            simp [machineLeadingZeros, bits, this]
  | succ w ih =>
    unfold machineLeadingZeros
    by_cases ht : p.testBit w
    · rw [if_pos ht]
      have hge : 2 ^ w ≤ p := Nat.ge_two_pow_of_testBit ht
      have hp : p ≠ 0 := by have := Nat.two_pow_pos w; omega
      have : Nat.log 2 p = w := (Nat.log_eq_iff (Or.inr ⟨by norm_num, hp⟩)).mpr ⟨hge, h⟩
      simp [bits, hp, this]
    · rw [if_neg ht]
      have hlt : p < 2 ^ w := by
        by_contra hge
        push Not at hge
        exact ht (Nat.testBit_two_pow_add_gt_aux hge h)
      have := ih hlt
      omega
where
  Nat.testBit_two_pow_add_gt_aux {w p : Nat} (h1 : 2 ^ w ≤ p) (h2 : p < 2 ^ (w + 1)) :
      p.testBit w = true := by
    rw [Nat.testBit_eq_decide_div_mod_eq]
    have : p / 2 ^ w = 1 := by
      rw [Nat.div_eq_iff (Nat.two_pow_pos w)]
      rw [pow_succ] at h2
      omega
    simp [this]

theorem twosComplement_of_nonneg (w : Nat) (v : Int) (h0 : 0 ≤ v) (h : v < 2 ^ w) :
    twosComplement w v = v.natAbs := by
  unfold twosComplement
  rw [Int.emod_eq_of_lt h0 h]
  omega

theorem twosComplement_lt (w : Nat) (v : Int) : twosComplement w v < 2 ^ w := by
  unfold twosComplement
  have h1 := Int.emod_nonneg v (b := 2 ^ w) (by positivity)
  have h2 := Int.emod_lt_of_pos v (b := 2 ^ w) (by positivity)
  zify
  rw [Int.toNat_of_nonneg h1]
  exact_mod_cast h2

theorem padicValNat_twosComplement (w : Nat) (v : Int) (h0 : v ≠ 0) (h1 : -2 ^ w < v)
    (h2 : v < 2 ^ w) :
    twosComplement w v ≠ 0 ∧ padicValNat 2 (twosComplement w v) = padicValNat 2 v.natAbs := by
  have hlt := twosComplement_lt w v
  have hpos := Int.emod_nonneg v (b := 2 ^ w) (by positivity)
  have hcast : (twosComplement w v : Int) = v % 2 ^ w := by
    unfold twosComplement; exact Int.toNat_of_nonneg hpos
  have hnd : ¬ (2:Int) ^ w ∣ v := by
    intro hd
    have h3 := Int.le_of_dvd (abs_pos.mpr h0) ((dvd_abs _ _).mpr hd)
    have := abs_lt.mpr ⟨h1, h2⟩
    omega
  have hne : twosComplement w v ≠ 0 := by
    intro he
    rw [he] at hcast
    exact hnd (Int.dvd_of_emod_eq_zero (by simpa using hcast.symm))
  refine ⟨hne, ?_⟩
  have hv : v.natAbs ≠ 0 := by omega
  -- the same powers of two up to `2^w` divide both
  have key : ∀ k, k ≤ w → (2 ^ k ∣ twosComplement w v ↔ 2 ^ k ∣ v.natAbs) := by
    intro k hk
    have e1 : (2 ^ k ∣ twosComplement w v) ↔ (2:Int) ^ k ∣ v % 2 ^ w := by
      rw [← hcast]; exact_mod_cast Iff.rfl
    have e2 : (2 ^ k ∣ v.natAbs) ↔ (2:Int) ^ k ∣ v := by
      rw [← Int.natAbs_dvd_natAbs]; simp [Int.natAbs_pow]
    rw [e1, e2]
    exact Int.dvd_iff_dvd_of_dvd_sub (by
      rw [Int.emod_def, sub_sub_cancel_left]
      exact (dvd_neg.mpr ((pow_dvd_pow 2 hk).mul_right _)))
  have b1 : ¬ 2 ^ w ∣ twosComplement w v := fun hd =>
    absurd (Nat.le_of_dvd (by omega) hd) (by omega)
  have b2 : ¬ 2 ^ w ∣ v.natAbs := fun hd => b1 ((key w le_rfl).mpr hd)
  have l1 : padicValNat 2 (twosComplement w v) < w := by
    by_contra hge
    exact b1 ((padicValNat_dvd_iff_le hne).mpr (by omega))
  have l2 : padicValNat 2 v.natAbs < w := by
    by_contra hge
    exact b2 ((padicValNat_dvd_iff_le hv).mpr (by omega))
  apply le_antisymm
  · rw [← padicValNat_dvd_iff_le hv, ← key _ l1.le]
    exact pow_padicValNat_dvd
  · rw [← padicValNat_dvd_iff_le hne, key _ l2.le]
    exact pow_padicValNat_dvd

end Algebraics
