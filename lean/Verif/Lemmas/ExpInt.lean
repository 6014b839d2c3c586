import Verif.Props.ExpReturns
import Verif.Lemmas.LogUpper
import Verif.Lemmas.PowInterval

/-!
`exp` on intervals with integer ends (`src/interval_arithmetic.rs:685-759`): up to 16 it returns and its
result encloses the exponential of every member exactly.
-/

namespace Algebraics
namespace DFI

/-- the powers of Euler's number up to the sixteenth are not just above an integer -/
theorem exp_nat_frac (B : ℕ) (h : B ≤ 16) :
    ∃ k : ℤ, (k : ℝ) + 1 / 2 ^ 26 < Real.exp B ∧ Real.exp B ≤ k + 1 := by
  rw [← Real.exp_one_pow B]
  have h1 := Real.exp_one_gt_d9
  have h2 := Real.exp_one_lt_d9
  have key : ∀ k : ℤ, (k : ℝ) + 1 / 2 ^ 26 < 2.7182818283 ^ B → (2.7182818286 : ℝ) ^ B ≤ k + 1 →
      ∃ k : ℤ, (k : ℝ) + 1 / 2 ^ 26 < Real.exp 1 ^ B ∧ Real.exp 1 ^ B ≤ k + 1 := by
    intro k k1 k2
    refine ⟨k, k1.trans_le ?_, le_trans ?_ k2⟩
    · exact pow_le_pow_left₀ (by norm_num) h1.le B
    · exact pow_le_pow_left₀ (by positivity) h2.le B
  interval_cases B
  · exact key 0 (by norm_num) (by norm_num)
  · exact key 2 (by norm_num) (by norm_num)
  · exact key 7 (by norm_num) (by norm_num)
  · exact key 20 (by norm_num) (by norm_num)
  · exact key 54 (by norm_num) (by norm_num)
  · exact key 148 (by norm_num) (by norm_num)
  · exact key 403 (by norm_num) (by norm_num)
  · exact key 1096 (by norm_num) (by norm_num)
  · exact key 2980 (by norm_num) (by norm_num)
  · exact key 8103 (by norm_num) (by norm_num)
  · exact key 22026 (by norm_num) (by norm_num)
  · exact key 59874 (by norm_num) (by norm_num)
  · exact key 162754 (by norm_num) (by norm_num)
  · exact key 442413 (by norm_num) (by norm_num)
  · exact key 1202604 (by norm_num) (by norm_num)
  · exact key 3269017 (by norm_num) (by norm_num)
  · exact key 8886110 (by norm_num) (by norm_num)

/-- the remainder of a small integer modulo the approximation of `ln 2` is never one of those on which
the series loop panics -/
theorem exp_int_rem (w : ℕ) (hw : 32 ≤ w) (L B : ℤ) (l1 : (L : ℝ) ≤ Real.log 2 * 2 ^ w)
    (l2 : Real.log 2 * 2 ^ w ≤ L + 8) (b0 : 0 ≤ B) (b1 : B ≤ 16) :
    (B * 2 ^ w) % L ≠ 1 ∧ ((B * 2 ^ w) % L) ^ 2 ≠ 2 ^ (w + 1) := by
  have hW : (2:ℝ) ^ 32 ≤ 2 ^ w := pow_le_pow_right₀ (by norm_num) hw
  have g1 := Real.log_two_gt_d9
  have g2 := Real.log_two_lt_d9
  have hWz : (2:ℤ) ^ 32 ≤ 2 ^ w := pow_le_pow_right₀ (by norm_num) hw
  -- bounds of `L` in integers
  have a1 : 69314717 * 2 ^ w ≤ L * 10 ^ 8 := by
    have : (69314717:ℝ) * 2 ^ w ≤ L * 10 ^ 8 := by nlinarith
    exact_mod_cast this
  have a2 : L * 10 ^ 8 ≤ 69314719 * 2 ^ w := by
    have : (L : ℝ) * 10 ^ 8 ≤ 69314719 * 2 ^ w := by nlinarith
    exact_mod_cast this
  have hL : 0 < L := by omega
  rcases eq_or_lt_of_le b0 with hB | hB
  · rw [← hB]
    simp
    exact (show (0:ℤ) < 2 ^ (w + 1) by positivity).ne
  -- the remainder is large
  have hbig : 2 ^ w ≤ (B * 2 ^ w) % L * 2 ^ 14 := by
    by_contra hc
    push Not at hc
    have h3 := Int.emod_add_mul_ediv (B * 2 ^ w) L
    have h4 := Int.emod_nonneg (B * 2 ^ w) hL.ne'
    generalize (B * 2 ^ w) % L = s at *
    generalize (B * 2 ^ w) / L = k at *
    have k0 : 0 ≤ k := by
      by_contra hk
      nlinarith
    have k1 : k ≤ 23 := by
      by_contra hk
      push Not at hk
      nlinarith
    generalize (2:ℤ) ^ w = W at *
    interval_cases B <;> interval_cases k <;> omega
  have hsq : (2:ℤ) ^ (w + 1) < ((B * 2 ^ w) % L) ^ 2 := by
    have h4 := Int.emod_nonneg (B * 2 ^ w) hL.ne'
    generalize (B * 2 ^ w) % L = s at *
    rw [pow_succ]
    generalize (2:ℤ) ^ w = W at *
    nlinarith
  refine ⟨?_, hsq.ne'⟩
  intro h
  rw [h] at hbig
  omega

theorem exp_int (ln2 : ℕ → DFI) (hln2 : IsLn2 ln2) (a : DFI) (hd : a.log2Denom = 0) (ho : a.lo ≤ a.hi)
    (h0 : 0 ≤ a.hi) (h16 : a.hi ≤ 16) :
    ∃ r, a.exp ln2 = some r ∧ r.log2Denom = 0 ∧ ∀ x : ℝ, a.Contains x → r.Contains (Real.exp x) := by
  cases hr : a.exp ln2 with
  | none =>
    exfalso
    obtain ⟨h1, h2⟩ := (exp_none_iff ln2 hln2 a (expPrecision ln2 a) rfl).mp hr
    have hw : 32 ≤ expPrecision ln2 a := by unfold expPrecision; omega
    generalize expPrecision ln2 a = w at *
    obtain ⟨n1, n2, n3⟩ := hln2 w
    obtain ⟨m1, m2, -, -⟩ := isLn2_bounds n1 n2 n3
    obtain ⟨p1, p2⟩ := exp_int_rem w hw _ a.hi m1 m2 h0 h16
    rw [h1, hd, Nat.sub_zero] at h2
    exact h2.elim p1 p2
  | some r =>
    obtain ⟨e1, e2⟩ := C08_exp_partial ln2 hln2 a r hr
    rw [hd] at e1
    refine ⟨r, rfl, e1, fun x hx => ?_⟩
    have hx' := (contains_iff _ _).mp hx
    rw [hd] at hx'
    simp only [pow_zero, mul_one] at hx'
    obtain ⟨f1, f2, -⟩ := e2 x hx
    obtain ⟨-, -, f3⟩ := e2 a.hi (by
      rw [contains_iff, hd]
      have : (a.lo : ℝ) ≤ a.hi := by exact_mod_cast ho
      simpa using this)
    obtain ⟨g1, -, -⟩ := e2 a.lo (by
      rw [contains_iff, hd]
      have : (a.lo : ℝ) ≤ a.hi := by exact_mod_cast ho
      simpa using this)
    rw [hd] at f1 f2 f3 g1
    simp only [pow_zero, div_one] at f1 f2 f3 g1
    rw [contains_iff, e1]
    simp only [pow_zero, mul_one]
    constructor
    · by_cases hlo : 0 ≤ a.lo
      · exact f2 hlo
      · have h3 : (a.lo : ℝ) ≤ -1 := by exact_mod_cast (by omega : a.lo ≤ -1)
        have h4 : Real.exp a.lo ≤ Real.exp (-1) := Real.exp_le_exp.mpr h3
        have h5 : Real.exp (-1) < 1 / 2 := by
          rw [Real.exp_neg, inv_eq_one_div]
          have := Real.exp_one_gt_d9
          exact one_div_lt_one_div_of_lt (by norm_num) (by linarith)
        have h6 : (r.lo : ℝ) < 1 := by
          have : (1:ℝ) / 2 ^ 26 < 1 / 2 := by norm_num
          linarith
        have h7 : r.lo ≤ 0 := by
          have : r.lo < 1 := by exact_mod_cast h6
          omega
        have h8 : (r.lo : ℝ) ≤ 0 := by exact_mod_cast h7
        exact h8.trans (Real.exp_pos x).le
    · have h3 : Real.exp x ≤ Real.exp a.hi := Real.exp_le_exp.mpr hx'.2
      obtain ⟨k, k1, k2⟩ := exp_nat_frac a.hi.toNat (by omega)
      have h4 : ((a.hi.toNat : ℕ) : ℝ) = a.hi := by
        have : ((a.hi.toNat : ℕ) : ℤ) = a.hi := Int.toNat_of_nonneg h0
        exact_mod_cast this
      rw [h4] at k1 k2
      have h5 : (k : ℝ) < r.hi := by linarith
      have h6 : k + 1 ≤ r.hi := by exact_mod_cast h5
      have h7 : (k : ℝ) + 1 ≤ r.hi := by exact_mod_cast h6
      linarith

end DFI

namespace RealAlg

/-- the first interval for a power of a number in `(0, M]`, when the interval of the base has integer ends -/
theorem powInterval_int (ln2 : ℕ → DFI) (hln2 : IsLn2 ln2) (e : ℚ) (he : 0 < e) (s : Shrinker) (x : ℝ)
    (hx0 : 0 < x) (hx : s.interval.Contains x) (hd : s.interval.log2Denom = 0) (hlo : 0 ≤ s.interval.lo)
    (hM : e * (Nat.log 2 s.interval.hi.toNat + 2) ≤ 16) :
    ∃ i, powInterval ln2 e false s = some i ∧ i.Contains (x ^ (e : ℝ)) := by
  have hxc := (DFI.contains_iff _ _).mp hx
  rw [hd] at hxc
  simp only [pow_zero, mul_one] at hxc
  have habs : s.interval.abs = s.interval := by
    have ho : s.interval.lo ≤ s.interval.hi := hx.ordered
    obtain ⟨a1, -, -, a4, a5⟩ := DFI.abs_spec s.interval hx.ordered
    generalize s.interval.abs = A at *
    generalize s.interval = I at *
    obtain ⟨l, h, n⟩ := I
    obtain ⟨l', h', n'⟩ := A
    simp only at *
    rw [max_eq_right (by omega)] at a5
    simp only [DFI.mk.injEq]
    exact ⟨by omega, a5, a1⟩
  have hhi : 0 < s.interval.hi := by
    have : (0:ℝ) < s.interval.hi := by linarith
    exact_mod_cast this
  have her : (0:ℝ) < (e : ℝ) := by exact_mod_cast he
  -- the middle part
  have mid : ∀ J : DFI, J.log2Denom = 0 → 0 < J.lo → J.lo ≤ J.hi → J.hi = s.interval.hi →
      ∃ L E, J.log ln2 = some L ∧ (L.mulRatio e).exp ln2 = some E ∧ E.log2Denom = 0 ∧
        ∀ y : ℝ, J.Contains y → E.Contains (y ^ (e : ℝ)) := by
    intro J j1 j2 j3 j4
    obtain ⟨L, l1, l2, l3⟩ := C07_log ln2 hln2 J j3 j2
    rw [j1] at l2
    have l4 := DFI.log_hi ln2 hln2 J L j1 l1
    rw [j4] at l4
    have hup := DFI.contains_upper j3
    have hc1 := DFI.contains_mulRatio (l3 _ hup) e
    have lpos : 0 ≤ L.hi := by
      have h1 := ((DFI.contains_iff _ _).mp (l3 _ hup)).2
      rw [l2] at h1
      have h2 : (0:ℝ) ≤ Real.log ((J.hi : ℝ) / 2 ^ J.log2Denom) := by
        apply Real.log_nonneg
        rw [j1, pow_zero, div_one]
        exact_mod_cast (by omega : 1 ≤ J.hi)
      have h3 : (0:ℝ) ≤ L.hi := by simp only [pow_zero, mul_one] at h1; linarith
      exact_mod_cast h3
    have hmr : L.mulRatio e = ⟨⌊e * L.lo⌋, ⌈e * L.hi⌉, 0⟩ := by
      unfold DFI.mulRatio
      rw [if_neg (not_lt.mpr he.le), l2]
    have hb0 : 0 ≤ ⌈e * L.hi⌉ := Int.ceil_nonneg (mul_nonneg he.le (by exact_mod_cast lpos))
    have hb1 : ⌈e * L.hi⌉ ≤ 16 := by
      rw [Int.ceil_le]
      have h1 : (L.hi : ℚ) ≤ Nat.log 2 s.interval.hi.toNat + 2 := by exact_mod_cast l4
      have h2 := mul_le_mul_of_nonneg_left h1 he.le
      push_cast
      linarith
    have hord : (L.mulRatio e).lo ≤ (L.mulRatio e).hi := hc1.ordered
    obtain ⟨E, e1, e2, e3⟩ := DFI.exp_int ln2 hln2 (L.mulRatio e) (by rw [hmr]) hord (by rw [hmr]; exact hb0)
      (by rw [hmr]; exact hb1)
    refine ⟨L, E, l1, e1, e2, fun y hy => ?_⟩
    have hy0 : 0 < y := by
      have := ((DFI.contains_iff _ _).mp hy).1
      rw [j1] at this
      simp only [pow_zero, mul_one] at this
      have h2 : (0:ℝ) < J.lo := by exact_mod_cast j2
      linarith
    have h3 := e3 _ (DFI.contains_mulRatio (l3 y hy) e)
    rw [Real.rpow_def_of_pos hy0]
    exact h3
  unfold powInterval
  dsimp only
  rw [habs, if_neg hhi.ne']
  have hord : s.interval.lo ≤ s.interval.hi := hx.ordered
  by_cases hz : s.interval.lo = 0
  · obtain ⟨L, E, l1, l2, l3, l4⟩ := mid s.interval.setToUpperBound hd hhi (le_refl _) rfl
    have h5 := l4 s.interval.hi (by
      rw [DFI.contains_iff]
      unfold DFI.setToUpperBound
      simp [hd])
    have h6 := (DFI.contains_iff _ _).mp h5
    rw [l3] at h6
    simp only [pow_zero, mul_one] at h6
    have h7 : x ^ (e : ℝ) ≤ (s.interval.hi : ℝ) ^ (e : ℝ) := Real.rpow_le_rpow hx0.le hxc.2 her.le
    have h8 : (0:ℝ) < x ^ (e : ℝ) := Real.rpow_pos_of_pos hx0 _
    have hE : 0 ≤ E.hi := by
      have : (0:ℝ) ≤ E.hi := by linarith
      exact_mod_cast this
    refine ⟨{ E with lo := 0 }, ?_, ?_⟩
    · simp only [hz, decide_true, if_true, l1, l2, Option.bind_eq_bind, Option.bind_some,
        DFI.setLowerBoundToZero, if_pos hE, Option.pure_def, Bool.false_eq_true, if_false]
    · rw [DFI.contains_iff]
      dsimp only
      rw [l3]
      simp only [pow_zero, mul_one, Int.cast_zero]
      exact ⟨h8.le, by linarith⟩
  · obtain ⟨L, E, l1, l2, l3, l4⟩ := mid s.interval hd (by omega) hord rfl
    refine ⟨E, ?_, l4 x hx⟩
    simp only [hz, decide_false, Bool.false_eq_true, if_false, l1, l2, Option.bind_eq_bind,
      Option.bind_some, Option.pure_def]

end RealAlg
end Algebraics
