import Verif.Lemmas.Log
import Mathlib.Analysis.SpecialFunctions.Exponential
import Mathlib.Analysis.SpecialFunctions.Log.Deriv
import Mathlib.Analysis.Complex.ExponentialBounds

namespace Algebraics
namespace DFI

theorem mulOp_swap (ll lh p q : Int) (n : Nat) : mulOp ll lh p q n = mulOp ll lh q p n := by
  obtain ⟨mn, mx, e1, e2, ⟨p1, p2, p3, p4⟩, ⟨q1, q2, q3, q4⟩, m1, m2⟩ := mulOp_bounds ll lh p q n
  obtain ⟨mn', mx', e1', e2', ⟨p1', p2', p3', p4'⟩, ⟨q1', q2', q3', q4'⟩, m1', m2'⟩ := mulOp_bounds ll lh q p n
  simp only [List.mem_cons, List.not_mem_nil, or_false] at m1 m2 m1' m2'
  have h1 : mn = mn' := by
    apply le_antisymm
    · rcases m1' with h | h | h | h <;> rw [h] <;> assumption
    · rcases m1 with h | h | h | h <;> rw [h] <;> assumption
  have h2 : mx = mx' := by
    apply le_antisymm
    · rcases m2 with h | h | h | h <;> rw [h] <;> assumption
    · rcases m2' with h | h | h | h <;> rw [h] <;> assumption
  exact Prod.ext (by rw [e1, e1', h1]) (by rw [e2, e2', h2])

theorem contains_mul_ends {a : DFI} {x : ℝ} {p q : Int} {w : Nat} (ha : a.Contains x)
    (hd : a.log2Denom = w) :
    (a.mul ⟨p, q, w⟩).Contains (x * (p / 2 ^ w)) ∧ (a.mul ⟨p, q, w⟩).Contains (x * (q / 2 ^ w)) := by
  rcases le_total p q with h | h
  · have ho : (⟨p, q, w⟩ : DFI).Ordered := h
    exact ⟨contains_mul ha (contains_lower ho), contains_mul ha (contains_upper ho)⟩
  · have ho : (⟨q, p, w⟩ : DFI).Ordered := h
    have e : a.mul ⟨p, q, w⟩ = a.mul ⟨q, p, w⟩ := by
      rw [mul_same_lo (by rw [hd]), mul_same_lo (by rw [hd])]
      simp only [mulOp_swap _ _ p q]
    rw [e]
    exact ⟨contains_mul ha (contains_upper ho), contains_mul ha (contains_lower ho)⟩

theorem divInt_log2Denom {a r : DFI} {k : Int} (h : a.divInt k = some r) : r.log2Denom = a.log2Denom := by
  unfold divInt at h
  split at h
  · simp at h
  · simp only [Option.some.injEq] at h
    rw [← h]; unfold mulRatio; split <;> rfl

theorem expLoop_spec {w : Nat} {x : DFI} {z : ℝ} (hx : x.log2Denom = w) 
    (hz : z = x.lo / 2 ^ w ∨ z = x.hi / 2 ^ w) : ∀ (count i : Nat) (term ret r : DFI),
    term.log2Denom = w → ret.log2Denom = w → 1 ≤ i → term.Contains (z ^ (i - 1) / (i - 1).factorial) →
    ret.Contains (∑ j ∈ Finset.range i, z ^ j / j.factorial) →
    expLoop x count i term ret = some r →
    r.log2Denom = w ∧ ∃ k, i ≤ k + 1 ∧ r.Contains (∑ j ∈ Finset.range (k + 1), z ^ j / j.factorial) ∧
      ((i ≤ k ∧ z ^ k / k.factorial ≤ 1 / 2 ^ w) ∨ k + 1 = i + count) := by
  intro count
  induction count with
  | zero =>
    intro i term ret r h1 h2 hi h3 h4 h5
    simp only [expLoop, Option.some.injEq] at h5
    subst h5
    refine ⟨h2, i - 1, by omega, ?_, Or.inr (by omega)⟩
    rw [show i - 1 + 1 = i by omega]; exact h4
  | succ count ih =>
    intro i term ret r h1 h2 hi h3 h4 h5
    unfold expLoop at h5
    simp only [Option.bind_eq_bind, Option.bind_eq_some_iff] at h5
    obtain ⟨t', ht', h5⟩ := h5
    have hm := contains_mul_ends (p := x.lo) (q := x.hi) h3 h1
    have ex : (⟨x.lo, x.hi, w⟩ : DFI) = x := by rw [← hx]
    rw [ex] at hm
    have hm' : (term.mul x).Contains (z ^ (i - 1) / (i - 1).factorial * z) := by
      rcases hz with h | h
      · rw [← h] at hm; exact hm.1
      · rw [← h] at hm; exact hm.2
    have hi0 : (i:ℝ) ≠ 0 := by positivity
    have hc : t'.Contains (z ^ i / i.factorial) := by
      have hh := contains_divInt hm' ht'
      convert hh using 1
      obtain ⟨m, rfl⟩ : ∃ m, i = m + 1 := ⟨i - 1, by omega⟩
      rw [Nat.add_sub_cancel, pow_succ, Nat.factorial_succ]
      push_cast
      have : (m.factorial : ℝ) ≠ 0 := by positivity
      have : (m:ℝ) + 1 ≠ 0 := by positivity
      field_simp
    have hd' : t'.log2Denom = w := by
      rw [divInt_log2Denom ht', mul_same_lo (by rw [h1, hx]), hx]
    have hr : (ret.add t').Contains (∑ j ∈ Finset.range (i + 1), z ^ j / j.factorial) := by
      rw [Finset.sum_range_succ]; exact contains_add h4 hc
    have hrd : (ret.add t').log2Denom = w := by rw [add_same (by rw [h2, hd'])]; exact h2
    split at h5
    · next hb =>
      split at h5
      · simp only [Option.some.injEq] at h5
        subst h5
        refine ⟨hrd, i, by omega, hr, Or.inl ⟨le_refl _, ?_⟩⟩
        have := hc.2
        rw [hd'] at this
        refine this.trans ?_
        have : (t'.hi : ℝ) ≤ 1 := by rcases hb with h | h <;> rw [h] <;> norm_num
        gcongr
      · simp at h5
    · obtain ⟨e1, k, e2, e3, e4⟩ := ih (i + 1) t' (ret.add t') r hd' hrd (by omega) (by simpa using hc) hr h5
      refine ⟨e1, k, by omega, e3, ?_⟩
      rcases e4 with h | h
      · exact Or.inl ⟨by omega, h.2⟩
      · exact Or.inr (by omega)

theorem two_pow_le_factorial (k : Nat) (hk : 10 ≤ k) : 2 ^ (k + 1) ≤ k.factorial := by
  induction k, hk using Nat.le_induction with
  | base => decide
  | succ k hk ih =>
    rw [pow_succ, Nat.factorial_succ]
    nlinarith

/-- the truncated series plus one unit bounds the exponential. -/
theorem exp_tail {w k : Nat} {z : ℝ} (hz0 : 0 ≤ z) (hz1 : z ≤ 0.7) (hw : 11 ≤ w)
    (hk : (1 ≤ k ∧ z ^ k / k.factorial ≤ 1 / 2 ^ w) ∨ k + 1 = w) :
    Real.exp z ≤ ∑ j ∈ Finset.range (k + 1), z ^ j / j.factorial + 1 / 2 ^ w := by
  have hk1 : 1 ≤ k ∧ z ^ k / k.factorial ≤ 1 / 2 ^ w := by
    rcases hk with h | h
    · exact h
    · refine ⟨by omega, ?_⟩
      have h1 : z ^ k ≤ 1 := pow_le_one₀ hz0 (by linarith)
      have h2 := two_pow_le_factorial k (by omega)
      rw [h] at h2
      have h2' : (2:ℝ) ^ w ≤ k.factorial := by exact_mod_cast h2
      gcongr
  obtain ⟨hk1, hk2⟩ := hk1
  refine (Real.exp_bound' hz0 (by linarith) (n := k + 1) (by omega)).trans ?_
  refine add_le_add (le_refl _) (le_trans ?_ hk2)
  have hf : (0:ℝ) < k.factorial := by positivity
  have e : z ^ (k + 1) * (((k + 1 : ℕ) : ℝ) + 1) / (((k + 1).factorial : ℕ) * ((k + 1 : ℕ) : ℝ)) =
      z ^ k / k.factorial * (z * (k + 2) / ((k + 1) * (k + 1))) := by
    rw [Nat.factorial_succ, pow_succ]; push_cast
    have : (k:ℝ) + 1 ≠ 0 := by positivity
    field_simp; ring
  rw [e]
  have hk1' : (1:ℝ) ≤ k := by exact_mod_cast hk1
  have : z * (k + 2) / ((k + 1) * (k + 1)) ≤ 1 := by
    rw [div_le_one (by positivity)]; nlinarith
  have h0 : 0 ≤ z ^ k / k.factorial := by positivity
  nlinarith

theorem log_two_lt : Real.log 2 < 0.7 := by
  have := Real.log_two_lt_d9; linarith

theorem log_two_gt : 0.69 < Real.log 2 := by
  have := Real.log_two_gt_d9; linarith

/-- `q * (δ-grown halving)^q` stays bounded. -/
theorem q_decay {q : Nat} {c : ℝ} (hc : 0 < c) (h : c ≤ 5 / 9) : (q:ℝ) * c ^ q ≤ 5 / 4 := by
  have h1 := one_add_mul_le_pow (a := (4 / 5 : ℝ)) (by norm_num) q
  have h2 : c ^ q ≤ (5 / 9 : ℝ) ^ q := by gcongr
  have h3 : (0:ℝ) < (5/9 : ℝ) ^ q := by positivity
  have h4 : (1 + 4 / 5 : ℝ) ^ q * (5 / 9) ^ q = 1 := by rw [← mul_pow]; norm_num
  have hq : (0:ℝ) ≤ q := by positivity
  have h5 : (q:ℝ) * c ^ q ≤ q * (5/9) ^ q := by gcongr
  have h6 : (1 + q * (4 / 5) : ℝ) * (5 / 9) ^ q ≤ 1 := by
    exact (mul_le_mul_of_nonneg_right h1 h3.le).trans_eq h4
  nlinarith

/-- `(2^w + t)`-style bookkeeping for `fmod`. -/
theorem exp_split (A q r H : Int) (w : Nat) (h : r + q * H = A) :
    Real.exp (A / 2 ^ w) = Real.exp (r / 2 ^ w) * Real.exp (q * (H / 2 ^ w)) := by
  rw [← Real.exp_add, ← h]; push_cast; congr 1; ring

theorem exp_nat_mul_log_two (q : Nat) : Real.exp (q * Real.log 2) = 2 ^ q := by
  rw [mul_comm, Real.exp_mul, Real.exp_log (by norm_num), Real.rpow_natCast]

/-- lower end: `lo` is the lower end of the sum for the remainder `r`, scaled by `2^q`. -/
theorem exp_lower {A q r H lo lo' : Int} {w : Nat} (hA : r + q * H = A) (hr : r < H) (hw : 32 ≤ w)
    (hH1 : Real.log 2 * 2 ^ w ≤ H) (hH2 : (H:ℝ) ≤ Real.log 2 * 2 ^ w + 8)
    (hlo : (lo:ℝ) / 2 ^ w ≤ Real.exp (r / 2 ^ w))
    (hlo' : lo' = if q < 0 then shr lo q.natAbs else shl lo q.natAbs) :
    (lo' : ℝ) / 2 ^ w ≤ Real.exp (A / 2 ^ w) + (if 0 ≤ q then 0 else 40 / 2 ^ w) := by
  have hP : (0:ℝ) < 2 ^ w := by positivity
  rw [exp_split A q r H w hA]
  have hE : 0 < Real.exp (r / 2 ^ w) := Real.exp_pos _
  split at hlo'
  · next hq =>
    rw [if_neg (by omega)]
    obtain ⟨m, rfl⟩ : ∃ m : Nat, q = -(m : Int) := ⟨q.natAbs, by omega⟩
    have hm : 1 ≤ m := by omega
    have hn : (-(m:Int)).natAbs = m := by omega
    rw [hn] at hlo'
    have h1 := shr_le lo m
    rw [← hlo'] at h1
    have hM : (0:ℝ) < 2 ^ m := by positivity
    set d : ℝ := H / 2 ^ w - Real.log 2 with hd
    have hd0 : 0 ≤ d := by rw [hd, sub_nonneg, le_div_iff₀ hP]; exact hH1
    have hd1 : d ≤ 8 / 2 ^ w := by
      rw [hd, sub_le_iff_le_add, div_le_iff₀ hP, add_mul, div_mul_cancel₀ _ hP.ne']; linarith
    have e1 : Real.exp (((-(m:Int) : Int) : ℝ) * (H / 2 ^ w)) = (1 / 2 ^ m) * Real.exp (-(m * d)) := by
      have : (((-(m:Int) : Int) : ℝ) * (H / 2 ^ w)) = -(m * Real.log 2) + -(m * d) := by
        rw [hd]; push_cast; ring
      rw [this, Real.exp_add, Real.exp_neg, exp_nat_mul_log_two]; ring
    rw [e1]
    have e2 : 1 - m * d ≤ Real.exp (-(m * d)) := by
      have := Real.add_one_le_exp (-(m * d)); linarith
    -- exp of the remainder is at most 3
    have hw' : (2:ℝ) ^ 32 ≤ 2 ^ w := pow_le_pow_right₀ (by norm_num) hw
    have h8 : (8:ℝ) / 2 ^ w ≤ 8 / 2 ^ 32 := by gcongr
    have hrz : (r:ℝ) / 2 ^ w ≤ 1 := by
      rw [div_le_one hP]
      have : (r:ℝ) ≤ H := by exact_mod_cast hr.le
      have := log_two_lt
      nlinarith
    have hE3 : Real.exp (r / 2 ^ w) ≤ 3 :=
      (Real.exp_le_exp.mpr hrz).trans (by have := Real.exp_one_lt_d9; linarith)
    have hm2 : (m:ℝ) * (1/2) ^ m ≤ 5 / 4 := q_decay (by norm_num) (by norm_num)
    have hm2' : (m:ℝ) * (1 / 2 ^ m) ≤ 5 / 4 := by
      have : (1 / 2 : ℝ) ^ m = 1 / 2 ^ m := by rw [div_pow, one_pow]
      rwa [this] at hm2
    -- assemble
    have g1 : (lo':ℝ) / 2 ^ w ≤ (1 / 2 ^ m) * Real.exp (r / 2 ^ w) := by
      rw [div_le_iff₀ hP] at hlo ⊢
      have : (lo':ℝ) ≤ lo / 2 ^ m := by rw [le_div_iff₀ hM]; exact h1
      refine this.trans ?_
      rw [div_le_iff₀ hM]
      field_simp
      linarith
    have g2 : (1 / 2 ^ m) * Real.exp (r / 2 ^ w) * (1 - m * d) ≤
        Real.exp (r / 2 ^ w) * (1 / 2 ^ m * Real.exp (-(m * d))) := by
      have : 0 ≤ (1 / 2 ^ m) * Real.exp (r / 2 ^ w) := by positivity
      have := mul_le_mul_of_nonneg_left e2 this
      linarith
    have g3 : (1 / 2 ^ m) * Real.exp (r / 2 ^ w) * (m * d) ≤ 40 / 2 ^ w := by
      have : (1 / 2 ^ m) * Real.exp (r / 2 ^ w) * (m * d) = (m * (1 / 2 ^ m)) * (Real.exp (r / 2 ^ w) * d) := by ring
      rw [this]
      have a1 : Real.exp (r / 2 ^ w) * d ≤ 3 * (8 / 2 ^ w) := by gcongr
      have a0 : 0 ≤ Real.exp (r / 2 ^ w) * d := by positivity
      have a2 : (m * (1 / 2 ^ m)) * (Real.exp (r / 2 ^ w) * d) ≤ 5 / 4 * (3 * (8 / 2 ^ w)) := by gcongr
      refine a2.trans ?_
      rw [le_div_iff₀ hP]; field_simp; norm_num
    linarith
  · next hq =>
    rw [if_pos (by omega), add_zero]
    obtain ⟨m, rfl⟩ : ∃ m : Nat, q = (m : Int) := ⟨q.natAbs, by omega⟩
    rw [Int.natAbs_natCast] at hlo'
    rw [hlo', shl_cast, mul_div_right_comm]
    have e1 : (2:ℝ) ^ m ≤ Real.exp (((m:Int) : ℝ) * (H / 2 ^ w)) := by
      rw [← exp_nat_mul_log_two m]
      apply Real.exp_le_exp.mpr
      have : Real.log 2 ≤ H / 2 ^ w := by rw [le_div_iff₀ hP]; exact hH1
      push_cast; gcongr
    have hM : (0:ℝ) < 2 ^ m := by positivity
    calc (lo:ℝ) / 2 ^ w * 2 ^ m ≤ Real.exp (r / 2 ^ w) * 2 ^ m := by gcongr
      _ ≤ _ := by gcongr

/-- upper end. -/
theorem exp_upper {B q r L hi hi' : Int} {w : Nat} (hB : r + q * L = B) (hr : r < L) (hw : 32 ≤ w)
    (hL1 : (L:ℝ) ≤ Real.log 2 * 2 ^ w) (hL2 : Real.log 2 * 2 ^ w ≤ L + 8)
    (hhi : Real.exp (r / 2 ^ w) ≤ hi / 2 ^ w + 1 / 2 ^ w)
    (hhi' : hi' = if q < 0 then -shr (-hi) q.natAbs else shl hi q.natAbs) :
    Real.exp (B / 2 ^ w) ≤ (hi' : ℝ) / 2 ^ w +
      (if 0 ≤ q then 2 ^ q.toNat / 2 ^ w else 40 / 2 ^ w) := by
  have hP : (0:ℝ) < 2 ^ w := by positivity
  rw [exp_split B q r L w hB]
  have hE : 0 < Real.exp (r / 2 ^ w) := Real.exp_pos _
  split at hhi'
  · next hq =>
    rw [if_neg (by omega)]
    obtain ⟨m, rfl⟩ : ∃ m : Nat, q = -(m : Int) := ⟨q.natAbs, by omega⟩
    have hm : 1 ≤ m := by omega
    have hn : (-(m:Int)).natAbs = m := by omega
    rw [hn] at hhi'
    have h1 := le_neg_shr_neg hi m
    rw [← hhi'] at h1
    have hM : (0:ℝ) < 2 ^ m := by positivity
    set d : ℝ := Real.log 2 - L / 2 ^ w with hd
    have hd0 : 0 ≤ d := by rw [hd, sub_nonneg, div_le_iff₀ hP]; exact hL1
    have hd1 : d ≤ 8 / 2 ^ w := by
      rw [hd, sub_le_iff_le_add, ← add_div, le_div_iff₀ hP]; linarith
    have e1 : Real.exp (((-(m:Int) : Int) : ℝ) * (L / 2 ^ w)) = (1 / 2 ^ m) * Real.exp (m * d) := by
      have : (((-(m:Int) : Int) : ℝ) * (L / 2 ^ w)) = -(m * Real.log 2) + m * d := by
        rw [hd]; push_cast; ring
      rw [this, Real.exp_add, Real.exp_neg, exp_nat_mul_log_two]; ring
    rw [e1]
    have hw' : (2:ℝ) ^ 32 ≤ 2 ^ w := pow_le_pow_right₀ (by norm_num) hw
    have h8 : (8:ℝ) / 2 ^ w ≤ 8 / 2 ^ 32 := by gcongr
    have hE2 : Real.exp (r / 2 ^ w) ≤ 2 := by
      rw [← Real.exp_log (show (0:ℝ) < 2 by norm_num)]
      apply Real.exp_le_exp.mpr
      rw [Real.exp_log (by norm_num), div_le_iff₀ hP]
      have : (r:ℝ) ≤ L := by exact_mod_cast hr.le
      linarith
    -- exp d ≤ 10/9
    have hed : Real.exp d ≤ 10 / 9 := by
      have h3 : d ≤ 1 / 10 := by
        have : (8:ℝ) / 2 ^ 32 ≤ 1 / 10 := by norm_num
        linarith
      have := Real.add_one_le_exp (-d)
      rw [Real.exp_neg] at this
      have h4 : (9/10 : ℝ) ≤ (Real.exp d)⁻¹ := by linarith
      have h5 := inv_anti₀ (by norm_num : (0:ℝ) < 9/10) h4
      rw [inv_inv] at h5
      linarith
    have em : Real.exp (m * d) = Real.exp d ^ m := by rw [Real.exp_nat_mul]
    -- exp (m d) - 1 ≤ m d exp (m d)
    have e2 : Real.exp (m * d) ≤ 1 + m * d * Real.exp (m * d) := by
      have h3 := Real.add_one_le_exp (-(m * d))
      have h4 : Real.exp (-(m * d)) * Real.exp (m * d) = 1 := by rw [← Real.exp_add]; simp
      have h5 : 0 < Real.exp (m * d) := Real.exp_pos _
      nlinarith
    have hdec : (m:ℝ) * (Real.exp d / 2) ^ m ≤ 5 / 4 := q_decay (by positivity) (by linarith)
    have hdec' : (m:ℝ) * (1 / 2 ^ m * Real.exp (m * d)) ≤ 5 / 4 := by
      rw [em]; rw [div_pow] at hdec
      have : (m:ℝ) * (1 / 2 ^ m * Real.exp d ^ m) = m * (Real.exp d ^ m / 2 ^ m) := by ring
      rw [this]; exact hdec
    have g1 : (1 / 2 ^ m) * Real.exp (r / 2 ^ w) ≤ (hi':ℝ) / 2 ^ w + 1 / 2 ^ w := by
      have a1 : (1 / 2 ^ m) * Real.exp (r / 2 ^ w) ≤ (1 / 2 ^ m) * (hi / 2 ^ w + 1 / 2 ^ w) := by gcongr
      refine a1.trans ?_
      have a2 : (1 / 2 ^ m) * ((hi:ℝ) / 2 ^ w + 1 / 2 ^ w) = (hi / 2 ^ m + 1 / 2 ^ m) / 2 ^ w := by ring
      rw [a2, ← add_div (hi':ℝ)]
      have a3 : (hi:ℝ) / 2 ^ m ≤ hi' := by rw [div_le_iff₀ hM]; exact h1
      have a4 : (1:ℝ) / 2 ^ m ≤ 1 := by rw [div_le_one hM]; exact one_le_pow₀ (by norm_num)
      exact div_le_div_of_nonneg_right (by linarith) hP.le
    have g2 : Real.exp (r / 2 ^ w) * (1 / 2 ^ m * Real.exp (m * d)) ≤
        (1 / 2 ^ m) * Real.exp (r / 2 ^ w) +
        Real.exp (r / 2 ^ w) * d * (m * (1 / 2 ^ m * Real.exp (m * d))) := by
      have : 0 ≤ Real.exp (r / 2 ^ w) * (1 / 2 ^ m) := by positivity
      have := mul_le_mul_of_nonneg_left e2 this
      linarith
    have g3 : Real.exp (r / 2 ^ w) * d * (m * (1 / 2 ^ m * Real.exp (m * d))) ≤ 2 * (8 / 2 ^ w) * (5 / 4) := by
      gcongr
    have g4 : 2 * (8 / 2 ^ w) * (5 / 4) + 1 / 2 ^ w ≤ (40:ℝ) / 2 ^ w := by
      rw [le_div_iff₀ hP]; field_simp; norm_num
    linarith
  · next hq =>
    rw [if_pos (by omega)]
    obtain ⟨m, rfl⟩ : ∃ m : Nat, q = (m : Int) := ⟨q.natAbs, by omega⟩
    rw [Int.natAbs_natCast] at hhi'
    rw [hhi', shl_cast, Int.toNat_natCast]
    have e1 : Real.exp (((m:Int) : ℝ) * (L / 2 ^ w)) ≤ (2:ℝ) ^ m := by
      rw [← exp_nat_mul_log_two m]
      apply Real.exp_le_exp.mpr
      have : L / 2 ^ w ≤ Real.log 2 := by rw [div_le_iff₀ hP]; exact hL1
      push_cast; gcongr
    calc Real.exp (r / 2 ^ w) * Real.exp (((m:Int) : ℝ) * (L / 2 ^ w))
        ≤ (hi / 2 ^ w + 1 / 2 ^ w) * 2 ^ m := by
          apply mul_le_mul hhi e1 (Real.exp_pos _).le
          exact hE.le.trans hhi
      _ = _ := by ring

theorem isLn2_bounds {l : DFI} {w : Nat} (hd : l.log2Denom = w) (hc : l.Contains (Real.log 2))
    (hu : l.ulps ≤ 8) : (l.lo:ℝ) ≤ Real.log 2 * 2 ^ w ∧ Real.log 2 * 2 ^ w ≤ l.lo + 8 ∧
      Real.log 2 * 2 ^ w ≤ l.hi ∧ (l.hi:ℝ) ≤ Real.log 2 * 2 ^ w + 8 := by
  rw [contains_iff, hd] at hc
  unfold ulps at hu
  have : (l.hi:ℝ) - l.lo ≤ 8 := by exact_mod_cast hu
  refine ⟨hc.1, by linarith [hc.2], hc.2, by linarith [hc.1]⟩

theorem convert_up (a : DFI) (w : Nat) (h : a.log2Denom ≤ w) :
    a.convertLog2Denom w = ⟨a.lo * 2 ^ (w - a.log2Denom), a.hi * 2 ^ (w - a.log2Denom), w⟩ := by
  unfold convertLog2Denom convertLog2DenomFloor convertLog2DenomCeil shl
  rw [if_pos (by omega), if_pos (by omega)]

/-- the quotient of the upper end by `ln 2` is at most one more than the number of extra bits. -/
theorem exp_quotient_bound {v L S : Int} {w n k extra : Nat} (hwn : n + 10 ≤ w)
    (hw : w = n + 32 + k * 2 + extra) (hex : expExtraBits S v ≤ extra)
    (s1 : (S:ℝ) ≤ Real.log 2 * 2 ^ (n + 10)) (s2 : Real.log 2 * 2 ^ (n + 10) ≤ S + 8)
    (l2 : Real.log 2 * 2 ^ w ≤ L + 8) (hLpos : 0 < L) :
    (v * 2 ^ (w - (n + 10))).fdiv L ≤ extra + 1 := by
  by_contra hc
  push Not at hc
  set B := v * 2 ^ (w - (n + 10)) with hB
  have hLr : (0:ℝ) < L := by exact_mod_cast hLpos
  have hBq : ((extra:ℝ) + 2) * L ≤ B := by
    have h1 := fdiv_le_real B L hLpos.ne'
    have h2 : ((extra:ℝ) + 2) ≤ (B.fdiv L : Int) := by
      have : (extra + 2 : Int) ≤ B.fdiv L := by omega
      exact_mod_cast this
    exact (le_div_iff₀ hLr).mp (h2.trans h1)
  have hBpos : (0:ℝ) < B := lt_of_lt_of_le (by positivity) hBq
  have hvpos : 0 < v := by
    have h1 : 0 < B := by exact_mod_cast hBpos
    rw [hB] at h1
    by_contra hv
    have : v * 2 ^ (w - (n + 10)) ≤ 0 := mul_nonpos_of_nonpos_of_nonneg (by omega) (by positivity)
    omega
  have g1 := log_two_gt
  have hS' : (0:ℝ) < S := by
    have h210 : (2:ℝ) ^ 10 ≤ 2 ^ (n + 10) := pow_le_pow_right₀ (by norm_num) (by omega)
    norm_num at h210
    nlinarith
  have hSpos : 0 < S := by exact_mod_cast hS'
  have hext : v.fdiv S ≤ (extra : Int) := by
    unfold expExtraBits at hex
    rw [if_pos hvpos] at hex
    omega
  have hv : (v : ℝ) ≤ (extra + 1) * S := by
    have h1 := lt_fdiv_real v S hSpos.ne'
    rw [div_lt_iff₀ hS'] at h1
    have h2 : ((v.fdiv S : Int) : ℝ) ≤ extra := by exact_mod_cast hext
    refine h1.le.trans ?_
    gcongr
  have hB2 : (B:ℝ) ≤ (extra + 1) * (L + 8) := by
    have e : (B:ℝ) = (v : ℝ) * 2 ^ (w - (n + 10)) := by rw [hB]; push_cast; ring
    rw [e]
    calc (v : ℝ) * 2 ^ (w - (n + 10))
        ≤ (extra + 1) * S * 2 ^ (w - (n + 10)) := by gcongr
      _ ≤ (extra + 1) * (Real.log 2 * 2 ^ (n + 10)) * 2 ^ (w - (n + 10)) := by gcongr
      _ = (extra + 1) * (Real.log 2 * 2 ^ w) := by
          have : (2:ℝ) ^ w = 2 ^ (n + 10) * 2 ^ (w - (n + 10)) := by
            rw [← pow_add]; congr 1; omega
          rw [this]; ring
      _ ≤ _ := by gcongr
  have hsm : (8:ℝ) * (extra + 1) < L := by
    have h1 : (extra:ℝ) + 1 ≤ 2 ^ extra := by
      have := Nat.lt_two_pow_self (n := extra)
      exact_mod_cast this
    have h2 : (2:ℝ) ^ extra * 2 ^ 32 ≤ 2 ^ w := by
      rw [← pow_add]; exact pow_le_pow_right₀ (by norm_num) (by omega)
    have h3 : (1:ℝ) ≤ 2 ^ extra := one_le_pow₀ (by norm_num)
    norm_num at h2
    have h4 : 0.69 * (2:ℝ) ^ w ≤ Real.log 2 * 2 ^ w := by gcongr
    linarith
  nlinarith

/-- whenever `exp` returns, it encloses the exponential up to `2^-26` of a unit in the last place,
and exactly from below when the argument interval is nonnegative. -/
theorem exp_spec (ln2 : Nat → DFI) (hln2 : IsLn2 ln2) (a r : DFI) (hr : a.exp ln2 = some r) :
    r.log2Denom = a.log2Denom ∧ ∀ x : ℝ, a.Contains x →
      ((r.lo : ℝ) - 1 / 2 ^ 26) / 2 ^ a.log2Denom ≤ Real.exp x ∧
      (0 ≤ a.lo → (r.lo : ℝ) / 2 ^ a.log2Denom ≤ Real.exp x) ∧
      Real.exp x ≤ ((r.hi : ℝ) + 1 / 2 ^ 26) / 2 ^ a.log2Denom := by
  unfold exp at hr
  dsimp only at hr
  set n := a.log2Denom with hn
  rw [convert_up a (n + 10) (by omega)] at hr
  have hfl : floorLog2U (n + 1) = some (Nat.log 2 (n + 1)) := by simp [floorLog2U, bits]
  simp only [hfl] at hr
  set k := Nat.log 2 (n + 1)
  rw [← hn] at hr
  rw [show n + 10 - n = 10 by omega] at hr
  obtain ⟨sd, sc, su⟩ := hln2 (n + 10)
  generalize ln2 (n + 10) = short at hr sd sc su
  obtain ⟨s1, s2, s3, s4⟩ := isLn2_bounds sd sc su
  by_cases hs0 : short.lo = 0
  · simp [hs0] at hr
  simp only [hs0, if_false, Option.bind_eq_bind, Option.bind_some] at hr
  set extra := max (max 0 (expExtraBits short.lo (a.lo * 2 ^ 10))) (expExtraBits short.lo (a.hi * 2 ^ 10)) with hextra
  set w := n + 32 + k * 2 + extra with hw
  rw [convert_up _ w (show n + 10 ≤ w by omega)] at hr
  simp only at hr
  obtain ⟨ld, lc, lu⟩ := hln2 w
  generalize ln2 w = l2 at hr ld lc lu
  obtain ⟨l1, l2', l3, l4⟩ := isLn2_bounds ld lc lu
  have hP : (0:ℝ) < 2 ^ w := by positivity
  have hw32 : 32 ≤ w := by omega
  have hw' : (2:ℝ) ^ 32 ≤ 2 ^ w := pow_le_pow_right₀ (by norm_num) hw32
  have hLpos : 0 < l2.lo := by
    have : (0:ℝ) < l2.lo := by have := log_two_gt; nlinarith
    exact_mod_cast this
  have hHpos : 0 < l2.hi := by
    have : (0:ℝ) < l2.hi := by have := log_two_gt; nlinarith
    exact_mod_cast this
  rw [if_neg (by omega)] at hr
  simp only [Option.bind_eq_some_iff, Option.pure_def, Option.some.injEq] at hr
  obtain ⟨s, hs, hr⟩ := hr
  set A : Int := a.lo * 2 ^ 10 * 2 ^ (w - (n + 10)) with hA
  set B : Int := a.hi * 2 ^ 10 * 2 ^ (w - (n + 10)) with hB
  set ql := A.fdiv l2.hi with hql
  set qu := B.fdiv l2.lo with hqu
  set rl := A.fmod l2.hi with hrl
  set ru := B.fmod l2.lo with hru
  have hrl0 : 0 ≤ rl := Int.fmod_nonneg_of_pos _ hHpos
  have hrl1 : rl < l2.hi := Int.fmod_lt_of_pos _ hHpos
  have hru0 : 0 ≤ ru := Int.fmod_nonneg_of_pos _ hLpos
  have hru1 : ru < l2.lo := Int.fmod_lt_of_pos _ hLpos
  have heA : rl + ql * l2.hi = A := Int.fmod_add_fdiv_mul _ _
  have heB : ru + qu * l2.lo = B := Int.fmod_add_fdiv_mul _ _
  have hAr : (A:ℝ) / 2 ^ w = a.lo / 2 ^ n := by
    rw [hA, div_eq_div_iff (by positivity) (by positivity)]; push_cast
    have : (2:ℝ) ^ w = 2 ^ n * 2 ^ 10 * 2 ^ (w - (n + 10)) := by
      rw [← pow_add, ← pow_add]; congr 1; omega
    rw [this]; ring
  have hBr : (B:ℝ) / 2 ^ w = a.hi / 2 ^ n := by
    rw [hB, div_eq_div_iff (by positivity) (by positivity)]; push_cast
    have : (2:ℝ) ^ w = 2 ^ n * 2 ^ 10 * 2 ^ (w - (n + 10)) := by
      rw [← pow_add, ← pow_add]; congr 1; omega
    rw [this]; ring
  -- remainders are in range
  have hzl1 : (rl:ℝ) / 2 ^ w ≤ 1 := by
    rw [div_le_one hP]
    have : (rl:ℝ) ≤ l2.hi := by exact_mod_cast hrl1.le
    have := log_two_lt
    nlinarith
  have hzu1 : (ru:ℝ) / 2 ^ w ≤ 0.7 := by
    rw [div_le_iff₀ hP]
    have : (ru:ℝ) ≤ l2.lo := by exact_mod_cast hru1.le
    have := log_two_lt
    nlinarith
  have hzl0 : (0:ℝ) ≤ rl / 2 ^ w := by
    have : (0:ℝ) ≤ rl := by exact_mod_cast hrl0
    positivity
  have hzu0 : (0:ℝ) ≤ ru / 2 ^ w := by
    have : (0:ℝ) ≤ ru := by exact_mod_cast hru0
    positivity
  have hone : (one w).Contains 1 := by
    unfold one fromInt fromDyadicFraction Contains; simp only [shl_cast]; push_cast
    rw [one_mul, div_self hP.ne']; exact ⟨le_refl _, le_refl _⟩
  have honed : (one w).log2Denom = w := rfl
  -- the series for both ends
  obtain ⟨sd1, kl, -, cl, -⟩ := expLoop_spec (x := ⟨rl, ru, w⟩) (z := rl / 2 ^ w) rfl (Or.inl rfl)
    (w - 1) 1 (one w) (one w) s honed honed (le_refl _) (by simpa using hone) (by simpa using hone) hs
  obtain ⟨-, ku, -, cu, tu⟩ := expLoop_spec (x := ⟨rl, ru, w⟩) (z := ru / 2 ^ w) rfl (Or.inr rfl)
    (w - 1) 1 (one w) (one w) s honed honed (le_refl _) (by simpa using hone) (by simpa using hone) hs
  have hlo : (s.lo:ℝ) / 2 ^ w ≤ Real.exp (rl / 2 ^ w) := by
    have := cl.1; rw [sd1] at this
    exact this.trans (Real.sum_le_exp_of_nonneg hzl0 _)
  have hhi : Real.exp (ru / 2 ^ w) ≤ s.hi / 2 ^ w + 1 / 2 ^ w := by
    refine (exp_tail hzu0 hzu1 (by omega : 11 ≤ w) (k := ku) ?_).trans ?_
    · rcases tu with h | h
      · exact Or.inl h
      · exact Or.inr (by omega)
    · have := cu.2; rw [sd1] at this; linarith
  have LO := exp_lower (lo' := if ql < 0 then shr s.lo ql.natAbs else shl s.lo ql.natAbs) heA hrl1 hw32 l3 l4 hlo rfl
  have HI := exp_upper (hi' := if qu < 0 then -shr (-s.hi) qu.natAbs else shl s.hi qu.natAbs) heB hru1 hw32 l1 l2' hhi rfl
  rw [sd1] at hr
  generalize (if ql < 0 then shr s.lo ql.natAbs else shl s.lo ql.natAbs) = lo' at hr LO
  generalize (if qu < 0 then -shr (-s.hi) qu.natAbs else shl s.hi qu.natAbs) = hi' at hr HI
  -- final conversion
  have rlo : (r.lo:ℝ) / 2 ^ n ≤ lo' / 2 ^ w := by rw [← hr]; exact convertFloor_le _ _ _
  have rhi : (hi':ℝ) / 2 ^ w ≤ r.hi / 2 ^ n := by rw [← hr]; exact le_convertCeil _ _ _
  have hN : (0:ℝ) < 2 ^ n := by positivity
  have hsplit : (2:ℝ) ^ w = 2 ^ n * 2 ^ (w - n) := by rw [← pow_add]; congr 1; omega
  -- small slack
  have slack40 : (40:ℝ) / 2 ^ w ≤ (1 / 2 ^ 26) / 2 ^ n := by
    rw [div_le_div_iff₀ hP hN, hsplit]
    have : (2:ℝ) ^ 32 ≤ 2 ^ (w - n) := pow_le_pow_right₀ (by norm_num) (by omega)
    nlinarith
  refine ⟨by rw [← hr]; rfl, fun x hx => ?_⟩
  have hxl : Real.exp (A / 2 ^ w) ≤ Real.exp x := by rw [hAr]; exact Real.exp_le_exp.mpr hx.1
  have hxu : Real.exp x ≤ Real.exp (B / 2 ^ w) := by rw [hBr]; exact Real.exp_le_exp.mpr hx.2
  refine ⟨?_, ?_, ?_⟩
  · rw [sub_div]
    have : (if 0 ≤ ql then (0:ℝ) else 40 / 2 ^ w) ≤ (1 / 2 ^ 26) / 2 ^ n := by
      split
      · positivity
      · exact slack40
    linarith
  · intro ha0
    have hq0 : 0 ≤ ql := by
      rw [hql]
      apply Int.fdiv_nonneg _ hHpos.le
      rw [hA]; positivity
    rw [if_pos hq0] at LO
    linarith
  · rw [add_div]
    have : (if 0 ≤ qu then (2:ℝ) ^ qu.toNat / 2 ^ w else 40 / 2 ^ w) ≤ (1 / 2 ^ 26) / 2 ^ n := by
      split
      · next hq0 =>
        have hqx : qu ≤ extra + 1 :=
          exp_quotient_bound (by omega) hw (le_max_right _ _) s1 s2 l2' hLpos
        rw [div_le_div_iff₀ hP hN, hsplit]
        have h1 : (2:ℝ) ^ qu.toNat * 2 ^ 31 ≤ 2 ^ (w - n) := by
          rw [← pow_add]; exact pow_le_pow_right₀ (by norm_num) (by omega)
        have h2 : (0:ℝ) < 2 ^ qu.toNat := by positivity
        have h3 : (2:ℝ) ^ qu.toNat ≤ 1 / 2 ^ 26 * 2 ^ (w - n) := by
          have : (2:ℝ) ^ qu.toNat * 2 ^ 26 ≤ 2 ^ (w - n) := by nlinarith
          rw [one_div, ← div_eq_inv_mul, le_div_iff₀ (by positivity)]; exact this
        nlinarith
      · exact slack40
    linarith

/-- the assertion in the series loop fails for `[32/2^51, 32/2^51]`. -/
theorem exp_panics (ln2 : Nat → DFI) (hln2 : IsLn2 ln2) : (⟨32, 32, 51⟩ : DFI).exp ln2 = none := by
  have hn : (⟨32, 32, 51⟩ : DFI).log2Denom = 51 := rfl
  unfold exp
  dsimp only
  rw [convert_up _ (51 + 10) (show 51 ≤ 61 by omega)]
  have hfl : floorLog2U (51 + 1) = some 5 := by decide
  simp only [hfl]
  obtain ⟨sd, sc, su⟩ := hln2 (51 + 10)
  generalize ln2 (51 + 10) = short at sd sc su ⊢
  obtain ⟨s1, s2, s3, s4⟩ := isLn2_bounds sd sc su
  have g1 := log_two_gt
  have hs : (2:Int) ^ 57 < short.lo := by
    have : ((2:ℝ) ^ 57) < short.lo := by norm_num at s2 ⊢; linarith
    exact_mod_cast this
  have hex : expExtraBits short.lo (32 * 2 ^ (51 + 10 - 51)) = 0 := by
    unfold expExtraBits
    rw [if_pos (by norm_num)]
    have : (32 * 2 ^ (51 + 10 - 51) : Int).fdiv short.lo = 0 := by
      rw [Int.fdiv_eq_ediv_of_nonneg _ (by omega)]
      exact Int.ediv_eq_zero_of_lt (by norm_num) (by norm_num at hs ⊢; omega)
    rw [this]; rfl
  rw [hex]
  have hs0 : short.lo ≠ 0 := by omega
  simp only [hs0, if_false, Option.bind_eq_bind, Option.bind_some]
  obtain ⟨ld, lc, lu⟩ := hln2 93
  have e93 : 51 + 32 + 5 * 2 + max (max 0 0) 0 = 93 := rfl
  rw [e93]
  generalize ln2 93 = l at ld lc lu ⊢
  obtain ⟨l1, l2, l3, l4⟩ := isLn2_bounds ld lc lu
  have hl : (2:Int) ^ 60 < l.lo := by
    have : ((2:ℝ) ^ 60) < l.lo := by norm_num at l2 ⊢; linarith
    exact_mod_cast this
  have hh : (2:Int) ^ 60 < l.hi := by
    have : ((2:ℝ) ^ 60) < l.hi := by norm_num at l3 ⊢; linarith
    exact_mod_cast this
  rw [if_neg (by omega), convert_up _ 93 (show 61 ≤ 93 by omega)]
  have hv : (32 * 2 ^ (51 + 10 - 51) * 2 ^ (93 - (51 + 10)) : Int) = 2 ^ 47 := by norm_num
  simp only [hv]
  have f1 : (2 ^ 47 : Int).fmod l.hi = 2 ^ 47 := by
    rw [Int.fmod_eq_emod_of_nonneg _ (by omega)]
    exact Int.emod_eq_of_lt (by norm_num) (by norm_num at hh ⊢; omega)
  have f2 : (2 ^ 47 : Int).fmod l.lo = 2 ^ 47 := by
    rw [Int.fmod_eq_emod_of_nonneg _ (by omega)]
    exact Int.emod_eq_of_lt (by norm_num) (by norm_num at hl ⊢; omega)
  rw [f1, f2]
  have : expLoop ⟨2 ^ 47, 2 ^ 47, 93⟩ (93 - 1) 1 (one 93) (one 93) = none := by decide +kernel
  rw [this]
  rfl

end DFI
end Algebraics
