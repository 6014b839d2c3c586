import Verif.Props.Traits

/-!
Property C36: exactly which nearest divisions of signed machine integers are right, and which panic.
-/

namespace Algebraics

/-- C36: the `BigInt` implementation fails only for a divisor of zero. -/
theorem C36_bigint_none (a b : ℤ) : divRemNearest a b = none ↔ b = 0 := by
  unfold divRemNearest
  simp only
  split_ifs <;> simp_all

/-- C36, exact extent of the defect of the signed machine integers: a result is right if and only if the truncated
remainder was already small enough, or the dividend is not negative and the divisor is not the least value. -/
theorem C36_signed_correct_iff_partial (w : ℕ) (a b q r : ℤ)
    (ha : -2 ^ (w - 1) ≤ a ∧ a < 2 ^ (w - 1)) (hb : -2 ^ (w - 1) ≤ b ∧ b < 2 ^ (w - 1))
    (h : divRemNearestSigned w a b = some (q, r)) :
    IsNearestDivision a b q r ↔ 2 * |a.tmod b| ≤ |b| ∨ (0 ≤ a ∧ b ≠ -2 ^ (w - 1)) := by
  obtain ⟨k1, -⟩ := C36_signed_partial w a b ha hb
  obtain ⟨hid, k2⟩ := k1 q r h
  have hP : (0:ℤ) < 2 ^ (w - 1) := by positivity
  have hb0 : b ≠ 0 := by
    rintro rfl; simp [divRemNearestSigned] at h
  have hneg : a < 0 → a.tmod b ≤ 0 := by
    intro h0
    have := Int.tmod_nonneg b (by omega : 0 ≤ -a)
    rw [Int.neg_tmod] at this
    omega
  constructor
  · rintro ⟨-, hr⟩
    by_contra hc
    rw [not_or] at hc
    obtain ⟨c1, c2⟩ := hc
    simp only [Int.abs_eq_natAbs] at hr c1
    unfold divRemNearestSigned at h
    simp only [hb0, if_false] at h
    by_cases hov : b = -1 ∧ a = -2 ^ (w - 1)
    · simp [hov] at h
    simp only [hov, if_false] at h
    generalize a.tmod b = t at *
    generalize a.tdiv b = s at *
    by_cases hmin : b = -2 ^ (w - 1)
    · simp only [ne_eq, hmin, not_true, false_and, if_false, Option.some.injEq, Prod.mk.injEq] at h
      obtain ⟨-, rfl⟩ := h
      omega
    · have ha0 : a < 0 := by
        by_contra hge
        exact c2 ⟨by omega, hmin⟩
      have ht := hneg ha0
      have hbig : t.natAbs > b.natAbs / 2 := by omega
      simp only [ne_eq, hmin, not_false_eq_true, true_and, hbig, if_true] at h
      split at h
      · next q1 r1 e1 e2 =>
        simp only [Option.some.injEq, Prod.mk.injEq] at h
        obtain ⟨rfl, rfl⟩ := h
        split_ifs at e2 <;> simp only [Option.some.injEq] at e2 <;> subst e2 <;> omega
      · cases h
  · rintro (c | ⟨c1, c2⟩)
    · refine ⟨hid, ?_⟩
      unfold divRemNearestSigned at h
      simp only [hb0, if_false] at h
      by_cases hov : b = -1 ∧ a = -2 ^ (w - 1)
      · simp [hov] at h
      simp only [hov, if_false] at h
      have hsmall : ¬ (b ≠ -2 ^ (w - 1) ∧ (a.tmod b).natAbs > b.natAbs / 2) := by
        rintro ⟨-, hh⟩
        simp only [Int.abs_eq_natAbs] at c
        omega
      rw [if_neg hsmall] at h
      simp only [Option.some.injEq, Prod.mk.injEq] at h
      rw [← h.2]
      exact c
    · exact k2 c1 c2

/-- C36: the divisions of signed machine integers that fail. Besides the divisor zero and the quotient that does not
fit, they are exactly those whose wrong remainder does not fit: the claim does not allow them to fail. -/
theorem C36_signed_none_partial (w : ℕ) (a b : ℤ)
    (ha : -2 ^ (w - 1) ≤ a ∧ a < 2 ^ (w - 1)) (hb : -2 ^ (w - 1) ≤ b ∧ b < 2 ^ (w - 1)) :
    divRemNearestSigned w a b = none ↔ b = 0 ∨ (b = -1 ∧ a = -2 ^ (w - 1)) ∨
      (a < 0 ∧ b ≠ -2 ^ (w - 1) ∧ |b| < 2 * |a.tmod b| ∧ a.tmod b - |b| < -2 ^ (w - 1)) := by
  obtain ⟨-, k⟩ := C36_signed_partial w a b ha hb
  by_cases ha0 : 0 ≤ a
  · rw [k ha0]
    constructor
    · exact Or.inl
    · rintro (c | ⟨-, c⟩ | ⟨c, -⟩)
      · exact c
      · have hP : (0:ℤ) < 2 ^ (w - 1) := by positivity
        omega
      · omega
  have hneg : a.tmod b ≤ 0 := by
    have := Int.tmod_nonneg b (by omega : 0 ≤ -a)
    rw [Int.neg_tmod] at this
    omega
  have hP : (0:ℤ) < 2 ^ (w - 1) := by positivity
  by_cases hb0 : b = 0
  · simp [divRemNearestSigned, hb0]
  by_cases hov : b = -1 ∧ a = -2 ^ (w - 1)
  · simp [divRemNearestSigned, hov]
  have hid := Int.tdiv_mul_add_tmod a b
  have hq : |a.tdiv b| * |b| ≤ |a| := by
    rw [← abs_mul, Int.abs_eq_natAbs, Int.abs_eq_natAbs, Int.natAbs_mul, Int.natAbs_tdiv]
    exact_mod_cast Nat.div_mul_le_self _ _
  unfold divRemNearestSigned
  simp only [hb0, hov, if_false, false_or]
  have hlt : |a.tmod b| < |b| := by
    rw [Int.abs_eq_natAbs, Int.abs_eq_natAbs, Int.natAbs_tmod]
    have : a.natAbs % b.natAbs < b.natAbs := Nat.mod_lt _ (by omega)
    exact_mod_cast this
  generalize a.tmod b = t at *
  generalize a.tdiv b = s at *
  simp only [Int.abs_eq_natAbs] at hlt hq ⊢
  by_cases hc : b ≠ -2 ^ (w - 1) ∧ t.natAbs > b.natAbs / 2
  · obtain ⟨c1, c2⟩ := hc
    have hs : -2 ^ (w - 1) ≤ s + (if b < 0 then -1 else 1) ∧ s + (if b < 0 then -1 else 1) < 2 ^ (w - 1) := by
      have hb2 : (2:ℤ) ≤ b.natAbs := by omega
      have hs2 : (s.natAbs : ℤ) * 2 ≤ a.natAbs := le_trans (mul_le_mul_of_nonneg_left hb2 (by positivity)) hq
      split_ifs <;> omega
    simp only [ne_eq, c1, not_false_eq_true, true_and, c2, if_true]
    rw [if_pos hs]
    generalize s + (if b < 0 then (-1:ℤ) else 1) = Q at hs ⊢
    have hcase : (b.natAbs : ℤ) < 2 * t.natAbs := by omega
    have e : t + (if b < 0 then b else -b) = t - b.natAbs := by
      split_ifs <;> omega
    rw [e]
    by_cases hr : t - b.natAbs < -2 ^ (w - 1)
    · rw [if_neg (by omega)]
      exact ⟨fun _ => ⟨by omega, hcase, hr⟩, fun _ => rfl⟩
    · rw [if_pos (by omega)]
      simp only [reduceCtorEq, false_iff]
      rintro ⟨-, -, hr'⟩; omega
  · rw [if_neg hc]
    simp only [reduceCtorEq, false_iff]
    rintro ⟨-, h1, h2, -⟩
    exact hc ⟨h1, by omega⟩

/-- both sides of the criteria occur: a right result for a negative dividend, a wrong one, and a failure. -/
example : divRemNearestSigned 8 (-21) 10 = some (-2, -1) ∧ divRemNearestSigned 8 (-16) 10 = some (0, -16) ∧
    divRemNearestSigned 8 (-100) 101 = none := by
  decide +kernel

end Algebraics
