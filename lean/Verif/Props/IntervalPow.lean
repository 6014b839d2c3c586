import Verif.Props.Interval
import Mathlib.NumberTheory.Padics.PadicVal.Basic

/-!
# C09: exactly when a nonnegative integer power of an interval misses a member
-/

namespace Algebraics

open DFI

namespace DFI

/-- the lower half of the loop makes no rounding if none is needed -/
theorem powLoop_exact (n E : ℕ) (c : ℕ → ℤ) (hc : ∀ i j, i + j ≤ E → c i * c j = c (i + j) * 2 ^ n) :
    ∀ (fuel e : ℕ) (s : PowState) (j k : ℕ), e ≤ fuel → 1 ≤ e → s.baseLo = c j → s.retLo = c k →
    k + j * e = E → (powLoop n fuel e s).retLo = c E ∧
      (s.baseHi = c j → s.negRetHi = -c k → (powLoop n fuel e s).negRetHi = -c E) := by
  intro fuel
  induction fuel with
  | zero => intro e s j k h1 h2; omega
  | succ fuel ih =>
    intro e s j k h1 h2 hb hr hE
    have hshr : ∀ i l, i + l ≤ E → shr (c i * c l) n = c (i + l) := by
      intro i l h
      rw [hc i l h]
      unfold shr
      exact Int.mul_ediv_cancel _ (by positivity)
    have hshr' : ∀ i l, i + l ≤ E → shr (-c i * c l) n = -c (i + l) := by
      intro i l h
      rw [neg_mul, hc i l h, ← neg_mul]
      unfold shr
      exact Int.mul_ediv_cancel _ (by positivity)
    have hje : j ≤ j * e := Nat.le_mul_of_pos_right _ h2
    have step : ∃ s1 : PowState, ∃ k1 : ℕ,
        (if e % 2 = 1 then
          { s with retLo := shr (s.retLo * s.baseLo) n, negRetHi := shr (s.negRetHi * s.baseHi) n }
          else s) = s1 ∧ s1.baseLo = c j ∧ s1.retLo = c k1 ∧ k1 = k + j * (e % 2) ∧
        (s.baseHi = c j → s.negRetHi = -c k → s1.baseHi = c j ∧ s1.negRetHi = -c k1) := by
      by_cases h : e % 2 = 1
      · rw [if_pos h]
        refine ⟨_, _, rfl, hb, ?_, rfl, fun h3 h4 => ⟨h3, ?_⟩⟩
        · simp only [hb, hr, h, mul_one]
          exact hshr k j (by omega)
        · simp only [h3, h4, h, mul_one]
          exact hshr' k j (by omega)
      · rw [if_neg h]
        have e0 : k + j * (e % 2) = k := by rw [show e % 2 = 0 by omega, mul_zero, add_zero]
        exact ⟨_, _, rfl, hb, by rw [hr, e0], rfl, fun h3 h4 => ⟨h3, by rw [h4, e0]⟩⟩
    obtain ⟨s1, k1, hs1, q1, q2, q3, q4⟩ := step
    have hsplit : j * e = j * (e % 2) + 2 * (j * (e / 2)) := by
      conv_lhs => rw [← Nat.mod_add_div e 2]
      ring
    unfold powLoop
    simp only [hs1]
    split
    · next h =>
      have hk : k1 = E := by rw [h] at hsplit; omega
      exact ⟨by rw [q2, hk], fun h3 h4 => by rw [(q4 h3 h4).2, hk]⟩
    · next h =>
      have h3 : j ≤ j * (e / 2) := Nat.le_mul_of_pos_right _ (by omega)
      obtain ⟨g1, g2⟩ := ih (e / 2) { s1 with
        baseLo := shr (s1.baseLo * s1.baseLo) n
        baseHi := -shr (-s1.baseHi * s1.baseHi) n } (j + j) k1 (by omega) (by omega) (by
          simp only [q1]
          exact hshr j j (by omega)) q2 (by rw [q3, add_mul]; omega)
      refine ⟨g1, fun h4 h5 => ?_⟩
      obtain ⟨e1, e2⟩ := q4 h4 h5
      exact g2 (by simp only [e1]; rw [hshr' j j (by omega), neg_neg]) e2

/-- if the highest power is a multiple of the unit, so are all lower ones -/
theorem pow_unit_dvd (n e : ℕ) (m : ℤ) (h : ((2 : ℤ) ^ n) ^ e ∣ m ^ e * 2 ^ n) (j : ℕ) (hj : j ≤ e) :
    ((2 : ℤ) ^ n) ^ j ∣ m ^ j * 2 ^ n := by
  rcases Nat.eq_zero_or_pos j with rfl | hj0
  · simp
  by_cases hm : m = 0
  · subst hm
    rw [zero_pow hj0.ne', zero_mul]
    exact dvd_zero _
  have key : ∀ i, ((2 : ℤ) ^ n) ^ i ∣ m ^ i * 2 ^ n ↔ n * i ≤ padicValInt 2 m * i + n := by
    intro i
    have hne : m ^ i * 2 ^ n ≠ 0 := mul_ne_zero (pow_ne_zero _ hm) (by positivity)
    rw [← pow_mul]
    have := padicValInt_dvd_iff (p := 2) (n * i) (m ^ i * 2 ^ n)
    rw [show ((2 : ℕ) : ℤ) = 2 from rfl] at this
    rw [this, or_iff_right hne, padicValInt.mul (pow_ne_zero _ hm) (by positivity)]
    have h1 : padicValInt 2 (m ^ i) = padicValInt 2 m * i := by
      unfold padicValInt
      rw [Int.natAbs_pow, padicValNat.pow, mul_comm]
    have h2 : padicValInt 2 ((2 : ℤ) ^ n) = n := by
      unfold padicValInt
      rw [Int.natAbs_pow]
      simp
    rw [h1, h2]
  rw [key] at h ⊢
  rcases le_total n (padicValInt 2 m) with hv | hv
  · nlinarith
  · obtain ⟨w, hw⟩ := Nat.exists_eq_add_of_le hv
    rw [hw] at h ⊢
    have : w * j ≤ w * e := Nat.mul_le_mul_left _ hj
    nlinarith

theorem powLoop_lower_exact (n e : ℕ) (he : 1 ≤ e) (m bh : ℤ) (h : ((2 : ℤ) ^ n) ^ e ∣ m ^ e * 2 ^ n) :
    (powLoop n e e ⟨m, bh, shl 1 n, -shl 1 n⟩).retLo * (2 ^ n) ^ e = m ^ e * 2 ^ n ∧
    (m = bh → (powLoop n e e ⟨m, bh, shl 1 n, -shl 1 n⟩).negRetHi * (2 ^ n) ^ e = -(m ^ e * 2 ^ n)) := by
  have hd := pow_unit_dvd n e m h
  have hP : ∀ j, ((2 : ℤ) ^ n) ^ j ≠ 0 := fun j => by positivity
  have hc : ∀ j, j ≤ e → (m ^ j * 2 ^ n / (2 ^ n) ^ j) * (2 ^ n) ^ j = m ^ j * 2 ^ n := fun j hj =>
    Int.ediv_mul_cancel (hd j hj)
  have := powLoop_exact n e (fun j => m ^ j * 2 ^ n / (2 ^ n) ^ j) (fun i j hij => by
    apply mul_right_cancel₀ (mul_ne_zero (hP i) (hP j))
    have e1 := hc i (by omega)
    have e2 := hc j (by omega)
    have e3 := hc (i + j) hij
    calc (m ^ i * 2 ^ n / (2 ^ n) ^ i) * (m ^ j * 2 ^ n / (2 ^ n) ^ j) * ((2 ^ n) ^ i * (2 ^ n) ^ j)
        = ((m ^ i * 2 ^ n / (2 ^ n) ^ i) * (2 ^ n) ^ i) *
          ((m ^ j * 2 ^ n / (2 ^ n) ^ j) * (2 ^ n) ^ j) := by ring
      _ = m ^ (i + j) * 2 ^ n * 2 ^ n := by rw [e1, e2]; ring
      _ = _ := by rw [← pow_add, mul_assoc _ ((2 : ℤ) ^ n) (((2 : ℤ) ^ n) ^ (i + j)), mul_comm ((2 : ℤ) ^ n)
            (((2 : ℤ) ^ n) ^ (i + j)), ← mul_assoc, e3]) e e ⟨m, bh, shl 1 n, -shl 1 n⟩ 1 0 le_rfl he (by
        simp) (by simp [shl]) (by omega)
  refine ⟨by rw [this.1]; exact hc e le_rfl, fun h => ?_⟩
  rw [this.2 (by simp [← h]) (by simp [shl]), neg_mul]
  rw [hc e le_rfl]

theorem powLoop_bounds (n e : ℕ) (he : 1 ≤ e) (m bh : ℤ) (h0 : 0 ≤ m) (h1 : m ≤ bh) :
    ((powLoop n e e ⟨m, bh, shl 1 n, -shl 1 n⟩).retLo : ℝ) ≤ ((m : ℝ) / 2 ^ n) ^ e * 2 ^ n ∧
    ((bh : ℝ) / 2 ^ n) ^ e * 2 ^ n ≤ -((powLoop n e e ⟨m, bh, shl 1 n, -shl 1 n⟩).negRetHi : ℝ) ∧
    ((∃ k : ℤ, ((m : ℝ) / 2 ^ n) ^ e = k / 2 ^ n) →
      ((powLoop n e e ⟨m, bh, shl 1 n, -shl 1 n⟩).retLo : ℝ) = ((m : ℝ) / 2 ^ n) ^ e * 2 ^ n ∧
      (m = bh → ((powLoop n e e ⟨m, bh, shl 1 n, -shl 1 n⟩).negRetHi : ℝ) =
        -(((m : ℝ) / 2 ^ n) ^ e * 2 ^ n))) := by
  have hp : (0 : ℝ) < 2 ^ n := by positivity
  have hm : (0 : ℝ) ≤ m := by exact_mod_cast h0
  have hmb : (m : ℝ) ≤ bh := by exact_mod_cast h1
  have key : ∀ b : ℝ, (m : ℝ) / 2 ^ n ≤ b → b ≤ bh / 2 ^ n →
      ((powLoop n e e ⟨m, bh, shl 1 n, -shl 1 n⟩).retLo : ℝ) ≤ b ^ e * 2 ^ n ∧
      b ^ e * 2 ^ n ≤ -((powLoop n e e ⟨m, bh, shl 1 n, -shl 1 n⟩).negRetHi : ℝ) := by
    intro b hb1 hb2
    rw [div_le_iff₀ hp] at hb1
    rw [le_div_iff₀ hp] at hb2
    have hb0 : 0 ≤ b := by
      by_contra h
      push Not at h
      nlinarith
    have := powLoop_spec n e e ⟨m, bh, shl 1 n, -shl 1 n⟩ b 1 le_rfl he hb0 zero_le_one h0 hb1 hb2
      (by simp [shl]) (by simp [shl_cast]) (by simp [shl_cast])
    rw [one_mul] at this
    exact this.2
  have hle : (m : ℝ) / 2 ^ n ≤ bh / 2 ^ n := div_le_div_of_nonneg_right hmb hp.le
  refine ⟨(key _ le_rfl hle).1, (key _ hle le_rfl).2, ?_⟩
  rintro ⟨k, hk⟩
  have hd : ((2 : ℤ) ^ n) ^ e ∣ m ^ e * 2 ^ n := by
    refine ⟨k, ?_⟩
    rw [div_pow, div_eq_div_iff (by positivity) (by positivity)] at hk
    have : (m : ℝ) ^ e * 2 ^ n = (2 ^ n) ^ e * k := by rw [hk]; ring
    exact_mod_cast this
  obtain ⟨g1, g2⟩ := powLoop_lower_exact n e he m bh hd
  constructor
  · have : ((powLoop n e e ⟨m, bh, shl 1 n, -shl 1 n⟩).retLo : ℝ) * (2 ^ n) ^ e = (m : ℝ) ^ e * 2 ^ n := by
      exact_mod_cast g1
    rw [div_pow, div_mul_eq_mul_div, eq_div_iff (by positivity)]
    exact this
  · intro h
    have : ((powLoop n e e ⟨m, bh, shl 1 n, -shl 1 n⟩).negRetHi : ℝ) * (2 ^ n) ^ e =
        -((m : ℝ) ^ e * 2 ^ n) := by exact_mod_cast g2 h
    rw [div_pow, div_mul_eq_mul_div, ← neg_div, eq_div_iff (by positivity)]
    exact this

theorem powPos_odd_mixed (lo hi : ℤ) (n e : ℕ) (h1 : lo < 0) (h2 : 0 < hi) (h4 : e % 2 = 1) :
    (⟨lo, hi, n⟩ : DFI).powPos e = if hi < -lo then
      ⟨(powLoop n e e ⟨hi, -lo, shl 1 n, -shl 1 n⟩).negRetHi,
        (powLoop n e e ⟨hi, -lo, shl 1 n, -shl 1 n⟩).retLo, n⟩
      else ⟨-(powLoop n e e ⟨-lo, hi, shl 1 n, -shl 1 n⟩).retLo,
        -(powLoop n e e ⟨-lo, hi, shl 1 n, -shl 1 n⟩).negRetHi, n⟩ := by
  have e1 : (e % 2 == 0) = false := by simp [h4]
  have e2 : ¬ hi < 0 := by omega
  unfold powPos
  by_cases e3 : hi < -lo
  · simp only [h1, e2, e1, e3, decide_true, decide_false, if_true, gt_iff_lt, Bool.not_false,
      Bool.and_true, Bool.false_and, Bool.false_eq_true, if_false, neg_neg]
  · simp only [h1, e2, e1, e3, decide_true, decide_false, if_true, gt_iff_lt, Bool.not_false,
      Bool.and_true, Bool.false_and, Bool.false_eq_true, if_false]

theorem powPos_odd_point (lo : ℤ) (n e : ℕ) (h1 : lo < 0) (h4 : e % 2 = 1) :
    (⟨lo, lo, n⟩ : DFI).powPos e = ⟨-(powLoop n e e ⟨-lo, -lo, shl 1 n, -shl 1 n⟩).retLo,
      (powLoop n e e ⟨-lo, -lo, shl 1 n, -shl 1 n⟩).negRetHi, n⟩ := by
  have e1 : (e % 2 == 0) = false := by simp [h4]
  unfold powPos
  simp only [h1, e1, lt_irrefl, decide_true, decide_false, if_true, gt_iff_lt, Bool.not_false,
    Bool.and_true, Bool.false_and, Bool.false_eq_true, if_false, neg_neg]

end DFI

/-- C09, in full for exponents from 0 on: the power of an interval holds the powers of all its members if
and only if it is not one of the following.  The exponent is odd and at least 3, the interval has members
of both signs or is one negative number, and the power of the end nearer to zero is not a multiple of the
unit `2^-n` of the interval. -/
theorem C09_pow_exact_iff (a : DFI) (e : ℕ) (ho : a.Ordered) :
    ∃ r, a.pow e = some r ∧ r.log2Denom = a.log2Denom ∧
      ((∀ x : ℝ, a.Contains x → r.Contains (x ^ e)) ↔
        ¬ (Odd e ∧ 3 ≤ e ∧ (a.lo < 0 ∧ 0 < a.hi ∨ a.lo = a.hi ∧ a.hi < 0) ∧
          ¬ ∃ k : ℤ, (min |(a.lo : ℝ) / 2 ^ a.log2Denom| |(a.hi : ℝ) / 2 ^ a.log2Denom|) ^ e =
            k / 2 ^ a.log2Denom)) := by
  obtain ⟨lo, hi, n⟩ := a
  unfold Ordered at ho
  simp only at ho ⊢
  obtain ⟨h1, h2⟩ := C09_pow_partial ⟨lo, hi, n⟩ e
  cases hr : (⟨lo, hi, n⟩ : DFI).pow (e : ℤ) with
  | none => exact absurd (h1.mp hr).1 (by omega)
  | some r =>
    have hp : (0 : ℝ) < 2 ^ n := by positivity
    have hl : (⟨lo, hi, n⟩ : DFI).Contains (lo / 2 ^ n) :=
      ⟨le_rfl, div_le_div_of_nonneg_right (by exact_mod_cast ho) hp.le⟩
    have hh : (⟨lo, hi, n⟩ : DFI).Contains (hi / 2 ^ n) :=
      ⟨div_le_div_of_nonneg_right (by exact_mod_cast ho) hp.le, le_rfl⟩
    by_cases hbad : Odd e ∧ 3 ≤ e ∧ (lo < 0 ∧ 0 < hi ∨ lo = hi ∧ hi < 0)
    swap
    · have hok : ∀ x : ℝ, (⟨lo, hi, n⟩ : DFI).Contains x → r.log2Denom = n ∧ r.Contains (x ^ e) := by
        intro x hx
        have := h2 r hr x hx (by
          simp only
          rcases Nat.even_or_odd e with he | he
          · exact Or.inl (by exact_mod_cast he)
          · rcases Nat.lt_or_ge e 3 with h3 | h3
            · right; left
              have : e % 2 = 1 := Nat.odd_iff.mp he
              have : e = 1 := by omega
              exact_mod_cast this
            · have h4 : ¬ (lo < 0 ∧ 0 < hi ∨ lo = hi ∧ hi < 0) := fun h => hbad ⟨he, h3, h⟩
              push Not at h4
              by_cases h5 : 0 ≤ lo
              · exact Or.inr (Or.inr (Or.inr (Or.inl h5)))
              · have := h4.1 (by omega)
                refine Or.inr (Or.inr (Or.inr (Or.inr (Or.inl ⟨by omega, this, ?_⟩))))
                by_contra h6
                have h7 : lo = hi := by omega
                have := h4.2 h7
                omega)
        rwa [zpow_natCast] at this
      refine ⟨r, rfl, (hok _ hl).1, ?_⟩
      constructor
      · rintro - ⟨g1, g2, g3, -⟩
        exact hbad ⟨g1, g2, g3⟩
      · exact fun _ x hx => (hok x hx).2
    · obtain ⟨hodd, h3, hs⟩ := hbad
      have hm : e % 2 = 1 := Nat.odd_iff.mp hodd
      have hr' : r = (⟨lo, hi, n⟩ : DFI).powPos e := by
        unfold pow at hr
        rw [if_neg (by omega), if_neg (by omega), if_neg (by omega)] at hr
        simpa using hr.symm
      subst hr'
      refine ⟨_, rfl, rfl, ?_⟩
      simp only [hodd, h3, hs, true_and, not_not]
      have mono : ∀ x y : ℝ, x ≤ y → x ^ e ≤ y ^ e := fun x y h => (hodd.strictMono_pow).monotone h
      have hneg : ((-lo : ℤ) : ℝ) / 2 ^ n = -((lo : ℝ) / 2 ^ n) := by push_cast; ring
      have hnegp : (-((lo : ℝ) / 2 ^ n)) ^ e = -((lo : ℝ) / 2 ^ n) ^ e := hodd.neg_pow _
      rcases hs with ⟨s1, s2⟩ | ⟨s1, s2⟩
      · have s1' : (lo : ℝ) < 0 := by exact_mod_cast s1
        have s2' : (0 : ℝ) < hi := by exact_mod_cast s2
        have a1 : |(lo : ℝ) / 2 ^ n| = -((lo : ℝ) / 2 ^ n) := abs_of_neg (div_neg_of_neg_of_pos s1' hp)
        have a2 : |(hi : ℝ) / 2 ^ n| = (hi : ℝ) / 2 ^ n := abs_of_pos (div_pos s2' hp)
        rw [powPos_odd_mixed lo hi n e s1 s2 hm]
        by_cases hsw : hi < -lo
        · rw [if_pos hsw]
          have hmin : min |(lo : ℝ) / 2 ^ n| |(hi : ℝ) / 2 ^ n| = (hi : ℝ) / 2 ^ n := by
            rw [a1, a2, min_eq_right]
            rw [← neg_div]
            exact div_le_div_of_nonneg_right (by exact_mod_cast hsw.le) hp.le
          rw [hmin]
          obtain ⟨b1, b2, b3⟩ := powLoop_bounds n e (by omega) hi (-lo) s2.le hsw.le
          rw [hneg, hnegp] at b2
          constructor
          · intro h
            have h5 := (contains_iff _ _).mp (h _ hh)
            simp only at h5
            refine ⟨(powLoop n e e ⟨hi, -lo, shl 1 n, -shl 1 n⟩).retLo, ?_⟩
            rw [eq_div_iff hp.ne']
            exact le_antisymm h5.2 b1
          · intro h x hx
            obtain ⟨c1, -⟩ := b3 h
            rw [contains_iff]
            simp only
            constructor
            · have := mul_le_mul_of_nonneg_right (mono _ _ hx.1) hp.le
              simp only at this
              linarith
            · rw [c1]
              exact mul_le_mul_of_nonneg_right (mono _ _ hx.2) hp.le
        · rw [if_neg hsw]
          have hmin : min |(lo : ℝ) / 2 ^ n| |(hi : ℝ) / 2 ^ n| = -((lo : ℝ) / 2 ^ n) := by
            rw [a1, a2, min_eq_left]
            rw [← neg_div]
            exact div_le_div_of_nonneg_right (by exact_mod_cast (not_lt.mp hsw)) hp.le
          rw [hmin, ← hneg]
          obtain ⟨b1, b2, b3⟩ := powLoop_bounds n e (by omega) (-lo) hi (by omega) (not_lt.mp hsw)
          constructor
          · intro h
            have h5 := (contains_iff _ _).mp (h _ hl)
            simp only at h5
            have h6 := h5.1
            push_cast at h6
            refine ⟨(powLoop n e e ⟨-lo, hi, shl 1 n, -shl 1 n⟩).retLo, ?_⟩
            rw [eq_div_iff hp.ne']
            refine le_antisymm ?_ b1
            rw [hneg, hnegp]
            linarith
          · intro h x hx
            obtain ⟨c1, -⟩ := b3 h
            rw [contains_iff]
            simp only
            push_cast
            constructor
            · rw [c1, hneg, hnegp]
              have := mul_le_mul_of_nonneg_right (mono _ _ hx.1) hp.le
              simp only at this
              linarith
            · have := mul_le_mul_of_nonneg_right (mono _ _ hx.2) hp.le
              simp only at this
              linarith
      · subst s1
        have s2' : (lo : ℝ) < 0 := by exact_mod_cast s2
        have a1 : |(lo : ℝ) / 2 ^ n| = -((lo : ℝ) / 2 ^ n) := abs_of_neg (div_neg_of_neg_of_pos s2' hp)
        rw [powPos_odd_point lo n e s2 hm, min_self, a1, ← hneg]
        obtain ⟨b1, b2, b3⟩ := powLoop_bounds n e (by omega) (-lo) (-lo) (by omega) le_rfl
        constructor
        · intro h
          have h5 := (contains_iff _ _).mp (h _ hl)
          simp only at h5
          have h6 := h5.1
          push_cast at h6
          refine ⟨(powLoop n e e ⟨-lo, -lo, shl 1 n, -shl 1 n⟩).retLo, ?_⟩
          rw [eq_div_iff hp.ne']
          refine le_antisymm ?_ b1
          rw [hneg, hnegp]
          linarith
        · intro h x hx
          obtain ⟨c1, c2⟩ := b3 h
          have c3 := c2 rfl
          rw [hneg, hnegp] at c1 c3
          have hx' : x = lo / 2 ^ n := le_antisymm hx.2 hx.1
          subst hx'
          rw [contains_iff]
          simp only
          push_cast
          rw [c1, c3]
          constructor <;> linarith

/-- all sides of the criterion occur: `[-3/2, 1/2]` and `[-3/2, -3/2]` at precision 1 are wrong,
`[-2, 1]` is right. -/
example : (⟨-3, 1, 1⟩ : DFI).Ordered ∧ (⟨-3, 1, 1⟩ : DFI).pow (3 : ℕ) = some ⟨-8, 0, 1⟩ ∧
    (⟨-3, -3, 1⟩ : DFI).Ordered ∧ (⟨-3, -3, 1⟩ : DFI).pow (3 : ℕ) = some ⟨-6, -8, 1⟩ ∧
    (⟨-4, 2, 1⟩ : DFI).Ordered ∧ (⟨-4, 2, 1⟩ : DFI).pow (3 : ℕ) = some ⟨-16, 2, 1⟩ := by
  unfold Ordered
  decide +kernel

end Algebraics
