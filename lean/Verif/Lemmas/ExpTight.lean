import Verif.Lemmas.ExpReturns

/-!
How narrow the result of `into_exp` is (`src/interval_arithmetic.rs:685-759`).
-/

namespace Algebraics
namespace DFI

/-- one turn of the series loop: the ends are rounded once. -/
theorem exp_step_tight {w : ℕ} {x term t' : DFI} (hx : x.log2Denom = w) (ht : term.log2Denom = w)
    (h0 : 0 ≤ term.lo) (h1 : term.lo ≤ term.hi) (hl : 0 ≤ x.lo) (hh : 0 ≤ x.hi) (i : ℕ) (hi : 1 ≤ i)
    (h : (term.mul x).divInt i = some t') :
    term.lo * min x.lo x.hi < (t'.lo + 1) * (i * 2 ^ w) ∧
    (t'.hi - 1) * (i * 2 ^ w) < term.hi * max x.lo x.hi := by
  have hiz : (i : ℤ) ≠ 0 := by omega
  have hi' : (0 : ℚ) < i := by exact_mod_cast hi
  have hp : (0 : ℤ) < 2 ^ w := by positivity
  unfold divInt at h
  rw [if_neg hiz] at h
  simp only [Option.some.injEq] at h
  subst h
  obtain ⟨mn, mx, e1, e2, ⟨p1, p2, p3, p4⟩, ⟨q1, q2, q3, q4⟩, m1, m2⟩ :=
    mulOp_bounds term.lo term.hi x.lo x.hi w
  have hneg : ¬ ((1 : ℚ) / (i : ℤ) < 0) := by
    have : (0 : ℚ) < 1 / (i : ℤ) := by push_cast; positivity
    linarith
  rw [mul_same_lo (by rw [hx, ht])]
  unfold mulRatio
  rw [if_neg hneg]
  simp only [hx, e1, e2, shr]
  simp only [List.mem_cons, List.not_mem_nil, or_false] at m1 m2
  have hm0 : 0 ≤ min x.lo x.hi := le_min hl hh
  have hM0 : 0 ≤ max x.lo x.hi := hl.trans (le_max_left _ _)
  have hmn : term.lo * min x.lo x.hi ≤ mn := by
    have a1 : term.lo * min x.lo x.hi ≤ term.lo * x.lo := by gcongr; exact min_le_left _ _
    have a2 : term.lo * min x.lo x.hi ≤ term.lo * x.hi := by gcongr; exact min_le_right _ _
    have a3 : term.lo * x.lo ≤ term.hi * x.lo := by gcongr
    have a4 : term.lo * x.hi ≤ term.hi * x.hi := by gcongr
    rcases m1 with h | h | h | h <;> omega
  have hmx : mx ≤ term.hi * max x.lo x.hi := by
    have t0 : 0 ≤ term.hi := h0.trans h1
    have a1 : term.hi * x.lo ≤ term.hi * max x.lo x.hi := by gcongr; exact le_max_left _ _
    have a2 : term.hi * x.hi ≤ term.hi * max x.lo x.hi := by gcongr; exact le_max_right _ _
    have a3 : term.lo * x.lo ≤ term.hi * x.lo := by gcongr
    have a4 : term.lo * x.hi ≤ term.hi * x.hi := by gcongr
    rcases m2 with h | h | h | h <;> omega
  have hfl : ∀ A : ℤ, ⌊(1 : ℚ) / (i : ℤ) * (A : ℚ)⌋ = A / i := fun A => by
    rw [one_div_mul_eq_div]
    exact_mod_cast Rat.floor_intCast_div_natCast A i
  have hce : ∀ A : ℤ, ⌈(1 : ℚ) / (i : ℤ) * (A : ℚ)⌉ = -(-A / i) := fun A => by
    rw [← hfl (-A), ← Int.ceil_neg]
    congr 1
    push_cast
    ring
  rw [hfl, hce, neg_neg]
  have hipos : (0 : ℤ) < i := by omega
  have hm : (0 : ℤ) < 2 ^ w * i := by positivity
  rw [Int.ediv_ediv_of_nonneg hp.le, Int.ediv_ediv_of_nonneg hp.le, mul_comm (i : ℤ) (2 ^ w)]
  have k1 := Int.lt_ediv_add_one_mul_self mn hm
  have k2 := Int.lt_ediv_add_one_mul_self (-mx) hm
  constructor
  · linarith
  · linarith

/-- the ends of the sum in the series loop: four units for each term at most. -/
theorem expLoop_tight {w : ℕ} {x : DFI} (hx : x.log2Denom = w) (hl : 0 ≤ x.lo) (hh : 0 ≤ x.hi)
    {m M : ℝ} (hm : m = ((min x.lo x.hi : ℤ) : ℝ) / 2 ^ w) (hM : M = ((max x.lo x.hi : ℤ) : ℝ) / 2 ^ w) (hM1 : M ≤ 0.7) :
    ∀ (count i : ℕ) (term ret r : DFI), 1 ≤ i → term.log2Denom = w → ret.log2Denom = w → 0 ≤ term.lo →
    term.lo ≤ term.hi → m ^ (i - 1) / (i - 1).factorial * 2 ^ w - 4 ≤ term.lo →
    (term.hi : ℝ) ≤ M ^ (i - 1) / (i - 1).factorial * 2 ^ w + 4 →
    expLoop x count i term ret = some r →
    r.log2Denom = w ∧ ∃ k, i ≤ k + 1 ∧ k + 1 ≤ i + count ∧
      (ret.lo : ℝ) + ∑ j ∈ Finset.Ico i (k + 1), (m ^ j / j.factorial * 2 ^ w - 4) ≤ r.lo ∧
      (r.hi : ℝ) ≤ ret.hi + ∑ j ∈ Finset.Ico i (k + 1), (M ^ j / j.factorial * 2 ^ w + 4) ∧
      ((i ≤ k ∧ m ^ k / k.factorial ≤ 5 / 2 ^ w) ∨ k + 1 = i + count) := by
  have hP : (0:ℝ) < 2 ^ w := by positivity
  have hlr : (0:ℝ) ≤ x.lo := by exact_mod_cast hl
  have hhr : (0:ℝ) ≤ x.hi := by exact_mod_cast hh
  have m0 : 0 ≤ m := by rw [hm]; exact div_nonneg (by exact_mod_cast le_min hl hh) hP.le
  have hmM : m ≤ M := by
    rw [hm, hM]
    exact div_le_div_of_nonneg_right (by exact_mod_cast (min_le_left x.lo x.hi).trans (le_max_left _ _)) hP.le
  intro count
  induction count with
  | zero =>
    intro i term ret r h1 _ hd _ _ _ _ hr
    simp only [expLoop, Option.some.injEq] at hr
    subst hr
    refine ⟨hd, i - 1, by omega, by omega, ?_, ?_, Or.inr (by omega)⟩
    · rw [show i - 1 + 1 = i by omega]; simp
    · rw [show i - 1 + 1 = i by omega]; simp
  | succ count ih =>
    intro i term ret r h1 h2 h3 h4 h5 h6 h7 hr
    unfold expLoop at hr
    simp only [Option.bind_eq_bind, Option.bind_eq_some_iff] at hr
    obtain ⟨t, ht, hr⟩ := hr
    obtain ⟨t', ht', d1, d2, d3, -⟩ := exp_step hx h2 h4 h5 hl hh i h1
    rw [ht] at ht'
    simp only [Option.some.injEq] at ht'
    subst ht'
    obtain ⟨s1, s2⟩ := exp_step_tight hx h2 h4 h5 hl hh i h1 ht
    have s1' : (term.lo:ℝ) * ((min x.lo x.hi : ℤ) : ℝ) < (t.lo + 1) * (i * 2 ^ w) := by exact_mod_cast s1
    have s2' : ((t.hi:ℝ) - 1) * (i * 2 ^ w) < term.hi * ((max x.lo x.hi : ℤ) : ℝ) := by exact_mod_cast s2
    have em : ((min x.lo x.hi : ℤ) : ℝ) = m * 2 ^ w := by rw [hm]; field_simp
    have eM : ((max x.lo x.hi : ℤ) : ℝ) = M * 2 ^ w := by rw [hM]; field_simp
    rw [em] at s1'
    rw [eM] at s2'
    have hir : (1:ℝ) ≤ i := by exact_mod_cast h1
    have s1'' : (term.lo:ℝ) * m < (t.lo + 1) * i := by
      have : (term.lo:ℝ) * m * 2 ^ w < (t.lo + 1) * i * 2 ^ w := by linarith
      exact lt_of_mul_lt_mul_right this hP.le
    have s2'' : ((t.hi:ℝ) - 1) * i < term.hi * M := by
      have : ((t.hi:ℝ) - 1) * i * 2 ^ w < term.hi * M * 2 ^ w := by linarith
      exact lt_of_mul_lt_mul_right this hP.le
    have fac : ∀ z : ℝ, z ^ i / i.factorial * i = z ^ (i - 1) / (i - 1).factorial * z := by
      intro z
      obtain ⟨j, rfl⟩ : ∃ j, i = j + 1 := ⟨i - 1, by omega⟩
      rw [Nat.add_sub_cancel, pow_succ, Nat.factorial_succ]
      push_cast
      have : (j:ℝ) + 1 ≠ 0 := by positivity
      field_simp
    have M0 : 0 ≤ M := m0.trans hmM
    have b1 : m ^ i / i.factorial * 2 ^ w - 4 ≤ t.lo := by
      have k1 := mul_le_mul_of_nonneg_right h6 m0
      have k2 : m ^ i / i.factorial * 2 ^ w * i - 4 * m < (t.lo + 1) * i := by
        have := fac m
        have e : m ^ i / i.factorial * 2 ^ w * i = m ^ (i - 1) / (i - 1).factorial * m * 2 ^ w := by
          rw [← this]; ring
        rw [e]; linarith
      have k3 : (4:ℝ) * m ≤ 3 * i := by linarith
      have k4 : (m ^ i / i.factorial * 2 ^ w - 4) * i < t.lo * i := by linarith
      exact (lt_of_mul_lt_mul_right k4 (by linarith)).le
    have b2 : (t.hi:ℝ) ≤ M ^ i / i.factorial * 2 ^ w + 4 := by
      have k1 := mul_le_mul_of_nonneg_right h7 M0
      have k2 : ((t.hi:ℝ) - 1) * i < M ^ i / i.factorial * 2 ^ w * i + 4 * M := by
        have := fac M
        have e : M ^ i / i.factorial * 2 ^ w * i = M ^ (i - 1) / (i - 1).factorial * M * 2 ^ w := by
          rw [← this]; ring
        rw [e]; linarith
      have k3 : (4:ℝ) * M ≤ 3 * i := by linarith
      have k4 : (t.hi:ℝ) * i < (M ^ i / i.factorial * 2 ^ w + 4) * i := by linarith
      exact (lt_of_mul_lt_mul_right k4 (by linarith)).le
    have hadd : ret.add t = ⟨ret.lo + t.lo, ret.hi + t.hi, w⟩ := by
      rw [add_same (by rw [h3, d1]), h3]
    split at hr
    · next hb =>
      split at hr
      · simp only [Option.some.injEq] at hr
        subst hr
        rw [hadd]
        refine ⟨rfl, i, by omega, by omega, ?_, ?_, Or.inl ⟨le_refl _, ?_⟩⟩
        · rw [Nat.Ico_succ_singleton, Finset.sum_singleton]; push_cast; linarith
        · rw [Nat.Ico_succ_singleton, Finset.sum_singleton]; push_cast; linarith
        · rw [le_div_iff₀ hP]
          have : t.lo ≤ 1 := by omega
          have : (t.lo:ℝ) ≤ 1 := by exact_mod_cast this
          linarith
      · simp at hr
    · rw [hadd] at hr
      obtain ⟨r1, k, k1, k2, k3, k4, k5⟩ := ih (i + 1) t _ r (by omega) d1 rfl d2 d3 (by simpa using b1)
        (by simpa using b2) hr
      refine ⟨r1, k, by omega, by omega, ?_, ?_, ?_⟩
      · rw [Finset.sum_eq_sum_Ico_succ_bot (by omega)]
        push_cast at k3
        linarith
      · rw [Finset.sum_eq_sum_Ico_succ_bot (by omega)]
        push_cast at k4
        linarith
      · rcases k5 with h | h
        · exact Or.inl ⟨by omega, h.2⟩
        · exact Or.inr (by omega)

/-- the truncated series bounds the exponential when the last term is small. -/
theorem exp_tail_small {k : ℕ} {z c : ℝ} (hz0 : 0 ≤ z) (hz1 : z ≤ 0.7) (hk1 : 1 ≤ k)
    (hk2 : z ^ k / k.factorial ≤ c) :
    Real.exp z ≤ ∑ j ∈ Finset.range (k + 1), z ^ j / j.factorial + c := by
  refine (Real.exp_bound' hz0 (by linarith) (n := k + 1) (by omega)).trans ?_
  refine add_le_add (le_refl _) (le_trans ?_ hk2)
  have hf : (0:ℝ) < k.factorial := by positivity
  have e : z ^ (k + 1) * (((k + 1 : ℕ) : ℝ) + 1) / (((k + 1).factorial : ℕ) * ((k + 1 : ℕ) : ℝ)) =
      z ^ k / k.factorial * (z * (k + 2) / ((k + 1) * (k + 1))) := by
    rw [Nat.factorial_succ, pow_succ]; push_cast
    have : (k:ℝ) + 1 ≠ 0 := by positivity
    field_simp; ring
  rw [e]
  have hk1' : (1:ℝ) ≤ k := by exact_mod_cast hk1
  have : z * (k + 2) / ((k + 1) * (k + 1)) ≤ 1 := by
    rw [div_le_one (by positivity)]; nlinarith
  have h0 : 0 ≤ z ^ k / k.factorial := by positivity
  nlinarith

/-- both ends of the whole series, as `into_exp` runs it -/
theorem expSeries_tight {w : ℕ} (hw : 32 ≤ w) {x s : DFI} (hx : x.log2Denom = w) (hl : 0 ≤ x.lo) (hh : 0 ≤ x.hi)
    {m M : ℝ} (hm : m = ((min x.lo x.hi : ℤ) : ℝ) / 2 ^ w) (hM : M = ((max x.lo x.hi : ℤ) : ℝ) / 2 ^ w)
    (hM1 : M ≤ 0.7) (hs : expLoop x (w - 1) 1 (one w) (one w) = some s) :
    s.log2Denom = w ∧ Real.exp m * 2 ^ w - (4 * w + 5) ≤ s.lo ∧ (s.hi : ℝ) ≤ Real.exp M * 2 ^ w + 4 * w := by
  have hP : (0:ℝ) < 2 ^ w := by positivity
  have m0 : 0 ≤ m := by rw [hm]; exact div_nonneg (by exact_mod_cast le_min hl hh) hP.le
  have hmM : m ≤ M := by
    rw [hm, hM]
    exact div_le_div_of_nonneg_right (by exact_mod_cast (min_le_left x.lo x.hi).trans (le_max_left _ _)) hP.le
  obtain ⟨o1, o2, o3⟩ := one_ends w
  obtain ⟨r1, k, k1, k2, k3, k4, k5⟩ := expLoop_tight hx hl hh hm hM hM1 (w - 1) 1 (one w) (one w) s (le_refl _)
    o3 o3 (by rw [o1]; positivity) (by rw [o1, o2]) (by rw [o1]; simp) (by rw [o2]; simp) hs
  have hkw : (k:ℝ) ≤ w := by
    have : k ≤ w := by omega
    exact_mod_cast this
  have sums : ∀ (z c : ℝ), ∑ j ∈ Finset.Ico 1 (k + 1), (z ^ j / j.factorial * 2 ^ w + c) =
      (∑ j ∈ Finset.range (k + 1), z ^ j / j.factorial) * 2 ^ w - 2 ^ w + k * c := by
    intro z c
    rw [Finset.sum_add_distrib, ← Finset.sum_mul, Finset.sum_const, Nat.card_Ico, Finset.range_eq_Ico,
      Finset.sum_eq_sum_Ico_succ_bot (show 0 < k + 1 by omega)]
    simp
    ring
  refine ⟨r1, ?_, ?_⟩
  · have e := sums m (-4)
    simp only [← sub_eq_add_neg] at e
    rw [e, o1] at k3
    have tail : m ^ k / k.factorial ≤ 5 / 2 ^ w ∧ 1 ≤ k := by
      rcases k5 with h | h
      · exact ⟨h.2, h.1⟩
      · refine ⟨?_, by omega⟩
        have h1 : m ^ k ≤ 1 := pow_le_one₀ m0 (by linarith)
        have h2 := two_pow_le_factorial k (by omega)
        rw [show k + 1 = w by omega] at h2
        have h2' : (2:ℝ) ^ w ≤ k.factorial := by exact_mod_cast h2
        calc m ^ k / k.factorial ≤ 1 / 2 ^ w := by gcongr
          _ ≤ 5 / 2 ^ w := by gcongr; norm_num
    have := exp_tail_small m0 (by linarith) tail.2 tail.1
    have := mul_le_mul_of_nonneg_right this hP.le
    rw [add_mul, div_mul_cancel₀ _ hP.ne'] at this
    push_cast at k3
    linarith
  · rw [sums M 4, o2] at k4
    have := mul_le_mul_of_nonneg_right (Real.sum_le_exp_of_nonneg (m0.trans hmM) (k + 1)) hP.le
    push_cast at k4
    linarith

/-- `x - y` bounds the growth of the exponential between `y` and `x`. -/
theorem exp_sub_le (x y : ℝ) : Real.exp x - Real.exp y ≤ Real.exp x * (x - y) := by
  have h1 := Real.add_one_le_exp (y - x)
  have h2 : Real.exp y = Real.exp x * Real.exp (y - x) := by rw [← Real.exp_add]; congr 1; ring
  have h3 := Real.exp_pos x
  rw [h2]
  nlinarith

/-- the final shift of the lower end rounds down by less than one unit. -/
theorem scale_lo (x q : ℤ) :
    (((if q < 0 then shr x q.natAbs else shl x q.natAbs : ℤ) : ℤ) : ℝ) ≤ x * 2 ^ q ∧
    (x:ℝ) * 2 ^ q < ((if q < 0 then shr x q.natAbs else shl x q.natAbs : ℤ) : ℝ) + 1 := by
  split
  · next h =>
    have e : (2:ℝ) ^ q = (2 ^ q.natAbs)⁻¹ := by
      rw [← zpow_natCast, ← zpow_neg]; congr 1; omega
    have h1 := shr_le x q.natAbs
    have h2 := lt_shr x q.natAbs
    rw [e, ← div_eq_mul_inv]
    constructor
    · rw [le_div_iff₀ (by positivity)]; exact h1
    · rw [div_lt_iff₀ (by positivity)]; exact h2
  · next h =>
    have e : (2:ℝ) ^ q = 2 ^ q.natAbs := by
      rw [← zpow_natCast]; congr 1; omega
    rw [shl_cast, e]
    exact ⟨le_refl _, by linarith⟩

/-- the final shift of the upper end rounds up by less than one unit. -/
theorem scale_hi (x q : ℤ) :
    (x:ℝ) * 2 ^ q ≤ ((if q < 0 then -shr (-x) q.natAbs else shl x q.natAbs : ℤ) : ℝ) ∧
    ((if q < 0 then -shr (-x) q.natAbs else shl x q.natAbs : ℤ) : ℝ) < x * 2 ^ q + 1 := by
  have h := scale_lo (-x) q
  have e : (if q < 0 then -shr (-x) q.natAbs else shl x q.natAbs) =
      -(if q < 0 then shr (-x) q.natAbs else shl (-x) q.natAbs) := by
    split
    · rfl
    · simp [shl]
  rw [e]
  push_cast at h ⊢
  constructor <;> linarith [h.1, h.2]

set_option maxHeartbeats 1000000 in
/-- everything about `into_exp` that the bounds on its width need, for `lo / 2^n ≤ hi / 2^n`: the ends are
`q * ln 2 + r`, with the rounded `ln 2` of the other side, and the ends of the result are close to `2^q` times
the smaller and the larger of the exponentials of the two remainders. -/
theorem exp_pieces (ln2 : ℕ → DFI) (hln2 : IsLn2 ln2) (a r : DFI) (hle : a.lo ≤ a.hi) (hr : a.exp ln2 = some r) :
    ∃ (w extra : ℕ) (ql qu L H rl ru : ℤ),
      a.log2Denom + 32 ≤ w ∧ (extra:ℝ) ≤ 3 / 2 * max 0 ((a.hi:ℝ) / 2 ^ a.log2Denom) ∧
      rl + ql * H = a.lo * 2 ^ (w - a.log2Denom) ∧ ru + qu * L = a.hi * 2 ^ (w - a.log2Denom) ∧
      (0 ≤ rl ∧ rl < H) ∧ (0 ≤ ru ∧ ru < L) ∧
      (Real.log 2 * 2 ^ w ≤ H ∧ (H:ℝ) ≤ Real.log 2 * 2 ^ w + 8) ∧
      ((L:ℝ) ≤ Real.log 2 * 2 ^ w ∧ Real.log 2 * 2 ^ w ≤ L + 8) ∧
      (ql ≤ extra + 1 ∧ (2:ℝ) ^ ql * 2 ^ a.log2Denom * 2 ^ 31 ≤ 2 ^ w) ∧
      (qu ≤ extra + 1 ∧ (2:ℝ) ^ qu * 2 ^ a.log2Denom * 2 ^ 31 ≤ 2 ^ w) ∧
      (extra:ℝ) + 32 ≤ w ∧
      2 ^ a.log2Denom * 2 ^ ql * Real.exp ((min rl ru : ℤ) / 2 ^ w) - 1 - (150 + 4 * extra) / 2 ^ 31 < r.lo ∧
      (r.hi : ℝ) < 2 ^ a.log2Denom * 2 ^ qu * Real.exp ((max rl ru : ℤ) / 2 ^ w) + 1 + (150 + 4 * extra) / 2 ^ 31 ∧
      (∀ z ∈ [rl, ru], (r.lo : ℝ) ≤ 2 ^ a.log2Denom * 2 ^ ql * Real.exp (z / 2 ^ w)) ∧
      (∀ z ∈ [rl, ru], 2 ^ a.log2Denom * 2 ^ qu * (Real.exp (z / 2 ^ w) - 1 / 2 ^ w) ≤ r.hi) := by
  unfold exp at hr
  dsimp only at hr
  set n := a.log2Denom with hn
  rw [convert_up a (n + 10) (by omega)] at hr
  have hfl : floorLog2U (n + 1) = some (Nat.log 2 (n + 1)) := by simp [floorLog2U, bits]
  simp only [hfl] at hr
  have hkn : n + 1 < 2 ^ (Nat.log 2 (n + 1) + 1) := Nat.lt_pow_succ_log_self (by omega) _
  set k := Nat.log 2 (n + 1)
  rw [← hn] at hr
  rw [show n + 10 - n = 10 by omega] at hr
  obtain ⟨sd, sc, su⟩ := hln2 (n + 10)
  generalize ln2 (n + 10) = short at hr sd sc su
  obtain ⟨s1, s2, s3, s4⟩ := isLn2_bounds sd sc su
  by_cases hs0 : short.lo = 0
  · simp [hs0] at hr
  simp only [hs0, if_false, Option.bind_eq_bind, Option.bind_some] at hr
  set extra := max (max 0 (expExtraBits short.lo (a.lo * 2 ^ 10))) (expExtraBits short.lo (a.hi * 2 ^ 10)) with hextra
  set w := n + 32 + k * 2 + extra with hw
  rw [convert_up _ w (show n + 10 ≤ w by omega)] at hr
  simp only at hr
  obtain ⟨ld, lc, lu⟩ := hln2 w
  generalize ln2 w = l2 at hr ld lc lu
  obtain ⟨l1, l2', l3, l4⟩ := isLn2_bounds ld lc lu
  have hP : (0:ℝ) < 2 ^ w := by positivity
  have hN : (0:ℝ) < 2 ^ n := by positivity
  have hw32 : 32 ≤ w := by omega
  have hw' : (2:ℝ) ^ 32 ≤ 2 ^ w := pow_le_pow_right₀ (by norm_num) hw32
  have g1 := log_two_gt
  have g2 := Real.log_two_lt_d9
  have hLpos : 0 < l2.lo := by
    have : (0:ℝ) < l2.lo := by nlinarith
    exact_mod_cast this
  have hHpos : 0 < l2.hi := by
    have : (0:ℝ) < l2.hi := by nlinarith
    exact_mod_cast this
  rw [if_neg (by omega)] at hr
  simp only [Option.bind_eq_some_iff, Option.pure_def, Option.some.injEq] at hr
  obtain ⟨s, hs, hr⟩ := hr
  set A : Int := a.lo * 2 ^ 10 * 2 ^ (w - (n + 10)) with hA
  set B : Int := a.hi * 2 ^ 10 * 2 ^ (w - (n + 10)) with hB
  have hsp : (2:ℤ) ^ (w - n) = 2 ^ 10 * 2 ^ (w - (n + 10)) := by rw [← pow_add]; congr 1; omega
  have hql : A.fdiv l2.hi ≤ extra + 1 :=
    exp_quotient_bound (by omega) hw ((le_max_right _ _).trans (le_max_left _ _)) s1 s2 (by linarith) hHpos
  have hqu : B.fdiv l2.lo ≤ extra + 1 :=
    exp_quotient_bound (by omega) hw (le_max_right _ _) s1 s2 l2' hLpos
  have hrl0 : 0 ≤ A.fmod l2.hi := Int.fmod_nonneg_of_pos _ hHpos
  have hrl1 : A.fmod l2.hi < l2.hi := Int.fmod_lt_of_pos _ hHpos
  have hru0 : 0 ≤ B.fmod l2.lo := Int.fmod_nonneg_of_pos _ hLpos
  have hru1 : B.fmod l2.lo < l2.lo := Int.fmod_lt_of_pos _ hLpos
  have heA : A.fmod l2.hi + A.fdiv l2.hi * l2.hi = A := Int.fmod_add_fdiv_mul _ _
  have heB : B.fmod l2.lo + B.fdiv l2.lo * l2.lo = B := Int.fmod_add_fdiv_mul _ _
  generalize A.fdiv l2.hi = ql at hr hs heA hql
  generalize B.fdiv l2.lo = qu at hr hs heB hqu
  generalize A.fmod l2.hi = rl at hr hs heA hrl0 hrl1
  generalize B.fmod l2.lo = ru at hr hs heB hru0 hru1
  -- powers of the quotients
  have hzp : ∀ q : ℤ, q ≤ extra + 1 → (2:ℝ) ^ q * 2 ^ n * 2 ^ (31 + 2 * k) ≤ 2 ^ w := by
    intro q hq
    rw [← zpow_natCast 2 n, ← zpow_natCast 2 (31 + 2 * k), ← zpow_natCast 2 w, ← zpow_add₀ (by norm_num),
      ← zpow_add₀ (by norm_num)]
    exact zpow_le_zpow_right₀ (by norm_num) (by push_cast; rw [hw]; push_cast; omega)
  have hzp31 : ∀ q : ℤ, q ≤ extra + 1 → (2:ℝ) ^ q * 2 ^ n * 2 ^ 31 ≤ 2 ^ w := by
    intro q hq
    refine le_trans ?_ (hzp q hq)
    gcongr
    · norm_num
    · omega
  -- the number of extra digits
  have hex : (extra:ℝ) ≤ 3 / 2 * max 0 ((a.hi:ℝ) / 2 ^ n) := by
    have hS : (2:ℝ) / 3 * 2 ^ (n + 10) ≤ short.lo := by
      have : (1024:ℝ) ≤ 2 ^ (n + 10) := by
        have : (2:ℝ) ^ 10 ≤ 2 ^ (n + 10) := pow_le_pow_right₀ (by norm_num) (by omega)
        norm_num at this ⊢; exact this
      nlinarith
    have hSpos : 0 < short.lo := by
      have : (0:ℝ) < short.lo := lt_of_lt_of_le (by positivity) hS
      exact_mod_cast this
    have e1 : extra = (a.hi * 2 ^ 10 / short.lo).toNat := by
      rw [hextra, expExtraBits_eq _ _ hSpos, expExtraBits_eq _ _ hSpos]
      have : a.lo * 2 ^ 10 / short.lo ≤ a.hi * 2 ^ 10 / short.lo := Int.ediv_le_ediv hSpos (by omega)
      omega
    rw [e1]
    by_cases hneg : a.hi * 2 ^ 10 / short.lo ≤ 0
    · rw [Int.toNat_of_nonpos hneg]
      simp
    · push Not at hneg
      have c : ((a.hi * 2 ^ 10 / short.lo).toNat : ℝ) = ((a.hi * 2 ^ 10 / short.lo : ℤ) : ℝ) := by
        have : ((a.hi * 2 ^ 10 / short.lo).toNat : ℤ) = a.hi * 2 ^ 10 / short.lo := Int.toNat_of_nonneg hneg.le
        exact_mod_cast this
      rw [c]
      have hm : ((a.hi * 2 ^ 10 / short.lo : ℤ) : ℝ) * short.lo ≤ a.hi * 2 ^ 10 := by
        have := Int.ediv_mul_le (a.hi * 2 ^ 10) hSpos.ne'
        have : ((a.hi * 2 ^ 10 / short.lo * short.lo : ℤ) : ℝ) ≤ ((a.hi * 2 ^ 10 : ℤ) : ℝ) := by exact_mod_cast this
        rw [Int.cast_mul, Int.cast_mul, Int.cast_pow] at this
        exact_mod_cast this
      have h0 : (0:ℝ) ≤ ((a.hi * 2 ^ 10 / short.lo : ℤ) : ℝ) := by exact_mod_cast hneg.le
      have h1 : ((a.hi * 2 ^ 10 / short.lo : ℤ) : ℝ) * (2 / 3 * 2 ^ (n + 10)) ≤ a.hi * 2 ^ 10 :=
        (mul_le_mul_of_nonneg_left hS h0).trans hm
      have h2 : ((a.hi * 2 ^ 10 / short.lo : ℤ) : ℝ) ≤ 3 / 2 * ((a.hi:ℝ) / 2 ^ n) := by
        rw [← mul_div_assoc, le_div_iff₀ hN]
        rw [pow_add] at h1
        nlinarith
      refine h2.trans ?_
      gcongr
      exact le_max_right _ _
  -- remainders are in range
  have hzr : ∀ z : ℤ, z ∈ [rl, ru] → 0 ≤ (z:ℝ) / 2 ^ w ∧ (z:ℝ) / 2 ^ w ≤ 0.7 := by
    intro z hz
    have : 0 ≤ z ∧ z ≤ l2.hi := by
      have : l2.lo ≤ l2.hi := by
        have : (l2.lo:ℝ) ≤ l2.hi := by linarith
        exact_mod_cast this
      simp only [List.mem_cons, List.not_mem_nil, or_false] at hz
      rcases hz with h | h <;> omega
    have h0 : (0:ℝ) ≤ z := by exact_mod_cast this.1
    have h1 : (z:ℝ) ≤ l2.hi := by exact_mod_cast this.2
    refine ⟨by positivity, ?_⟩
    rw [div_le_iff₀ hP]
    nlinarith
  have hone : (one w).Contains 1 := by
    unfold one fromInt fromDyadicFraction Contains; simp only [shl_cast]; push_cast
    rw [one_mul, div_self hP.ne']; exact ⟨le_refl _, le_refl _⟩
  have honed : (one w).log2Denom = w := rfl
  have hmax : ((max rl ru : ℤ) : ℝ) / 2 ^ w ≤ 0.7 := by
    rcases max_choice rl ru with h | h <;> rw [h]
    · exact (hzr rl (by simp)).2
    · exact (hzr ru (by simp)).2
  obtain ⟨sd1, st1, st2⟩ := expSeries_tight (x := ⟨rl, ru, w⟩) hw32 rfl hrl0 hru0 rfl rfl hmax hs
  have hseries : ∀ z ∈ [rl, ru], (s.lo:ℝ) / 2 ^ w ≤ Real.exp (z / 2 ^ w) ∧
      Real.exp (z / 2 ^ w) ≤ s.hi / 2 ^ w + 1 / 2 ^ w := by
    intro z hz
    have hz' : (z:ℝ) / 2 ^ w = (rl:ℝ) / 2 ^ w ∨ (z:ℝ) / 2 ^ w = (ru:ℝ) / 2 ^ w := by
      simp only [List.mem_cons, List.not_mem_nil, or_false] at hz
      rcases hz with h | h <;> rw [h] <;> simp
    obtain ⟨-, kk, -, cc, tt⟩ := expLoop_spec (x := ⟨rl, ru, w⟩) (z := z / 2 ^ w) rfl hz'
      (w - 1) 1 (one w) (one w) s honed honed (le_refl _) (by simpa using hone) (by simpa using hone) hs
    rw [Contains, sd1] at cc
    refine ⟨cc.1.trans (Real.sum_le_exp_of_nonneg (hzr z hz).1 _), ?_⟩
    refine (exp_tail (hzr z hz).1 (hzr z hz).2 (by omega : 11 ≤ w) (k := kk) ?_).trans ?_
    · rcases tt with h | h
      · exact Or.inl h
      · exact Or.inr (by omega)
    · have := cc.2; linarith
  obtain ⟨lo1, lo2⟩ := scale_lo s.lo ql
  obtain ⟨hi1, hi2⟩ := scale_hi s.hi qu
  rw [sd1] at hr
  generalize (if ql < 0 then shr s.lo ql.natAbs else shl s.lo ql.natAbs) = lo' at hr lo1 lo2
  generalize (if qu < 0 then -shr (-s.hi) qu.natAbs else shl s.hi qu.natAbs) = hi' at hr hi1 hi2
  -- final conversion
  have rlo : (r.lo:ℝ) / 2 ^ n ≤ lo' / 2 ^ w := by rw [← hr]; exact convertFloor_le _ _ _
  have rlo2 : (lo':ℝ) / 2 ^ w < (r.lo + 1) / 2 ^ n := by rw [← hr]; exact lt_convertFloor _ _ _
  have rhi : (hi':ℝ) / 2 ^ w ≤ r.hi / 2 ^ n := by rw [← hr]; exact le_convertCeil _ _ _
  have rhi2 : ((r.hi:ℝ) - 1) / 2 ^ n < hi' / 2 ^ w := by rw [← hr]; exact convertCeil_lt _ _ _
  rw [div_le_div_iff₀ (by positivity) (by positivity)] at rlo rhi
  rw [div_lt_div_iff₀ (by positivity) (by positivity)] at rlo2 rhi2
  -- the accumulated error, in units of the result
  have herr : ∀ q : ℤ, q ≤ extra + 1 → (2:ℝ) ^ q * 2 ^ n * (4 * w + 5) + 2 ^ n ≤
      (150 + 4 * extra) / 2 ^ 31 * 2 ^ w := by
    intro q hq
    have h1 := hzp q hq
    have h4 : (1:ℝ) ≤ 4 ^ k := one_le_pow₀ (by norm_num)
    have hkk : (k:ℝ) + 1 ≤ 2 ^ k := by
      have : k + 1 ≤ 2 ^ k := Nat.lt_pow_self (by norm_num)
      exact_mod_cast this
    have h24 : (2:ℝ) ^ k ≤ 4 ^ k := by gcongr; norm_num
    have hnn : (n:ℝ) + 1 ≤ 2 * 2 ^ k := by
      have : n + 1 ≤ 2 * 2 ^ k := by rw [pow_succ] at hkn; omega
      exact_mod_cast this
    have he0 : (0:ℝ) ≤ extra := by positivity
    have hwr : (w:ℝ) = n + 32 + k * 2 + extra := by rw [hw]; push_cast; ring
    have h5 : 4 * (w:ℝ) + 5 ≤ (149 + 4 * extra) * 4 ^ k := by
      rw [hwr]
      have : (extra:ℝ) ≤ extra * 4 ^ k := by nlinarith
      nlinarith
    have e4 : (2:ℝ) ^ (31 + 2 * k) = 2 ^ 31 * 4 ^ k := by
      rw [pow_add, pow_mul]; norm_num
    rw [e4] at h1
    have h0 : (0:ℝ) < 2 ^ q * 2 ^ n := by positivity
    have h6 : (2:ℝ) ^ q * 2 ^ n * (4 * w + 5) ≤ (149 + 4 * extra) / 2 ^ 31 * 2 ^ w := by
      calc (2:ℝ) ^ q * 2 ^ n * (4 * w + 5) ≤ 2 ^ q * 2 ^ n * ((149 + 4 * extra) * 4 ^ k) := by gcongr
        _ = (149 + 4 * extra) / 2 ^ 31 * (2 ^ q * 2 ^ n * (2 ^ 31 * 4 ^ k)) := by ring
        _ ≤ _ := by gcongr
    have h7 : (2:ℝ) ^ n * 2 ^ 31 ≤ 2 ^ w := by
      rw [← pow_add]; exact pow_le_pow_right₀ (by norm_num) (by omega)
    have h8 : (2:ℝ) ^ n ≤ 1 / 2 ^ 31 * 2 ^ w := by
      rw [div_mul_eq_mul_div, one_mul, le_div_iff₀ (by positivity)]; exact h7
    have : (150 + 4 * (extra:ℝ)) / 2 ^ 31 * 2 ^ w = (149 + 4 * extra) / 2 ^ 31 * 2 ^ w + 1 / 2 ^ 31 * 2 ^ w := by ring
    linarith
  refine ⟨w, extra, ql, qu, l2.lo, l2.hi, rl, ru, by omega, hex, by rw [heA, hA, hsp]; ring,
    by rw [heB, hB, hsp]; ring, ⟨hrl0, hrl1⟩, ⟨hru0, hru1⟩, ⟨l3, l4⟩, ⟨l1, l2'⟩, ⟨hql, hzp31 _ hql⟩,
    ⟨hqu, hzp31 _ hqu⟩, ?_, ?_, ?_, ?_, ?_⟩
  · rw [hw]; push_cast
    have : (0:ℝ) ≤ n := by positivity
    have : (0:ℝ) ≤ k := by positivity
    linarith
  · have he := herr ql hql
    have hq0 : (0:ℝ) < 2 ^ ql := by positivity
    have h1 := mul_le_mul_of_nonneg_right st1 hq0.le
    have h2 : Real.exp ((min rl ru : ℤ) / 2 ^ w) * 2 ^ w * 2 ^ ql * 2 ^ n - 2 ^ ql * 2 ^ n * (4 * w + 5) - 2 ^ n
        < lo' * 2 ^ n := by
      have : (Real.exp ((min rl ru : ℤ) / 2 ^ w) * 2 ^ w - (4 * w + 5)) * 2 ^ ql - 1 < lo' := by
        simp only at h1
        linarith only [h1, lo2]
      have := mul_lt_mul_of_pos_right this hN
      linarith only [this]
    have h3 : (2 ^ n * 2 ^ ql * Real.exp ((min rl ru : ℤ) / 2 ^ w) - (150 + 4 * extra) / 2 ^ 31) * 2 ^ w <
        (r.lo + 1) * 2 ^ w := by
      linarith only [h2, he, rlo2]
    have := lt_of_mul_lt_mul_right h3 hP.le
    linarith only [this]
  · have he := herr qu hqu
    have hq0 : (0:ℝ) < 2 ^ qu := by positivity
    have h1 := mul_le_mul_of_nonneg_right st2 hq0.le
    have h2 : hi' * 2 ^ n < Real.exp ((max rl ru : ℤ) / 2 ^ w) * 2 ^ w * 2 ^ qu * 2 ^ n
        + 2 ^ qu * 2 ^ n * (4 * w + 5) + 2 ^ n := by
      have : hi' < (Real.exp ((max rl ru : ℤ) / 2 ^ w) * 2 ^ w + (4 * w + 5)) * 2 ^ qu + 1 := by
        simp only at h1
        linarith only [h1, hi2, hq0]
      have := mul_lt_mul_of_pos_right this hN
      linarith only [this]
    have h3 : ((r.hi:ℝ) - 1) * 2 ^ w <
        (2 ^ n * 2 ^ qu * Real.exp ((max rl ru : ℤ) / 2 ^ w) + (150 + 4 * extra) / 2 ^ 31) * 2 ^ w := by
      linarith only [h2, he, rhi2]
    have := lt_of_mul_lt_mul_right h3 hP.le
    linarith only [this]
  · intro z hz
    have h1 := (hseries z hz).1
    rw [div_le_iff₀ hP] at h1
    have hq0 : (0:ℝ) < 2 ^ ql := by positivity
    have h2 : (lo':ℝ) ≤ Real.exp (z / 2 ^ w) * 2 ^ w * 2 ^ ql :=
      lo1.trans (mul_le_mul_of_nonneg_right h1 hq0.le)
    have h3 : (r.lo:ℝ) * 2 ^ w ≤ (2 ^ n * 2 ^ ql * Real.exp (z / 2 ^ w)) * 2 ^ w :=
      rlo.trans ((mul_le_mul_of_nonneg_right h2 hN.le).trans_eq (by ring))
    exact le_of_mul_le_mul_right h3 hP
  · intro z hz
    have h1 := (hseries z hz).2
    rw [← add_div, le_div_iff₀ hP] at h1
    have hq0 : (0:ℝ) < 2 ^ qu := by positivity
    have h2 : (Real.exp (z / 2 ^ w) * 2 ^ w - 1) * 2 ^ qu ≤ hi' :=
      (mul_le_mul_of_nonneg_right (by linarith only [h1]) hq0.le).trans hi1
    have h3 : (2 ^ n * 2 ^ qu * (Real.exp (z / 2 ^ w) - 1 / 2 ^ w)) * 2 ^ w ≤ r.hi * 2 ^ w := by
      refine le_trans ?_ ((mul_le_mul_of_nonneg_right h2 hN.le).trans rhi)
      apply le_of_eq
      field_simp
    exact le_of_mul_le_mul_right h3 hP

end DFI
end Algebraics
