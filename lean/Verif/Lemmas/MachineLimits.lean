import Verif.Model.MachineLimits
import Verif.Lemmas.ExpTight
import Verif.Lemmas.PowInterval

/-!
# Lemmas about the limits of machine words
-/

namespace Algebraics

theorem usize_some {x : ℕ} (h : x < 2 ^ 64) : usize x = some x := by
  unfold usize; rw [if_pos h]

theorem usize_none {x : ℕ} (h : 2 ^ 64 ≤ x) : usize x = none := by
  unfold usize; rw [if_neg (not_lt.mpr h)]

namespace DFI

theorem expShiftLower_eq (q lo : ℤ) (h0 : 0 ≤ lo) (h1 : ∀ s : ℕ, 2 ^ 64 ≤ s → lo < 2 ^ s)
    (hq : q < 2 ^ 64) :
    expShiftLower q lo = some (if q < 0 then shr lo q.natAbs else shl lo q.natAbs) := by
  unfold expShiftLower
  by_cases hs : q.natAbs < 2 ^ 64
  · rw [usize_some hs]
  · rw [usize_none (not_lt.mp hs)]
    have hneg : q < 0 := by omega
    simp only [if_pos hneg, Option.some.injEq]
    unfold shr
    rw [Int.ediv_eq_zero_of_lt h0 (h1 _ (not_lt.mp hs))]

theorem expShiftUpper_eq (q hi : ℤ) (h0 : 0 < hi) (h1 : ∀ s : ℕ, 2 ^ 64 ≤ s → hi < 2 ^ s)
    (hq : q < 2 ^ 64) :
    expShiftUpper q hi = some (if q < 0 then -shr (-hi) q.natAbs else shl hi q.natAbs) := by
  unfold expShiftUpper
  by_cases hs : q.natAbs < 2 ^ 64
  · rw [usize_some hs]
  · rw [usize_none (not_lt.mp hs)]
    have hneg : q < 0 := by omega
    simp only [if_pos hneg, Option.some.injEq]
    unfold shr
    have h2 := h1 _ (not_lt.mp hs)
    generalize (2 : ℤ) ^ q.natAbs = P at h2
    have h3 : -hi / P = -1 := by
      rw [Int.ediv_eq_iff_of_pos (by omega)]
      constructor
      · omega
      · linarith
    rw [h3]; norm_num

/-- the ends of the sum in the series loop, roughly -/
theorem expLoop_rough {w : ℕ} {x : DFI} (hx : x.log2Denom = w) (hl : 0 ≤ x.lo) (hh : 0 ≤ x.hi)
    (hl2 : x.lo ≤ 2 ^ w) (hh2 : x.hi ≤ 2 ^ w) :
    ∀ (count i : ℕ) (term ret r : DFI), 1 ≤ i → term.log2Denom = w → ret.log2Denom = w → 0 ≤ term.lo →
    term.lo ≤ term.hi → term.hi ≤ 2 ^ w → 0 ≤ ret.lo → ret.lo ≤ ret.hi →
    expLoop x count i term ret = some r →
    0 ≤ r.lo ∧ r.lo ≤ r.hi ∧ ret.hi ≤ r.hi ∧ r.hi ≤ ret.hi + count * 2 ^ w := by
  have hP : (0 : ℤ) < 2 ^ w := by positivity
  intro count
  induction count with
  | zero =>
    intro i term ret r _ _ _ _ _ _ h6 h7 hr
    simp only [expLoop, Option.some.injEq] at hr
    subst hr
    exact ⟨h6, h7, le_refl _, by simp⟩
  | succ count ih =>
    intro i term ret r h1 h2 h3 h4 h5 h5' h6 h7 hr
    unfold expLoop at hr
    simp only [Option.bind_eq_bind, Option.bind_eq_some_iff] at hr
    obtain ⟨t, ht, hr⟩ := hr
    obtain ⟨t', ht', d1, d2, d3, -⟩ := exp_step hx h2 h4 h5 hl hh i h1
    rw [ht] at ht'
    simp only [Option.some.injEq] at ht'
    subst ht'
    obtain ⟨-, s2⟩ := exp_step_tight hx h2 h4 h5 hl hh i h1 ht
    have hi' : (1 : ℤ) ≤ i := by exact_mod_cast h1
    have ht2 : t.hi ≤ 2 ^ w := by
      by_contra hc
      push Not at hc
      have a1 : term.hi * max x.lo x.hi ≤ 2 ^ w * 2 ^ w :=
        mul_le_mul h5' (max_le hl2 hh2) (hl.trans (le_max_left _ _)) hP.le
      have a2 : (2 : ℤ) ^ w * 2 ^ w ≤ (t.hi - 1) * (i * 2 ^ w) :=
        mul_le_mul (by omega) (by nlinarith) hP.le (by omega)
      omega
    have ha : ret.add t = ⟨ret.lo + t.lo, ret.hi + t.hi, ret.log2Denom⟩ := add_same (by rw [h3, d1])
    by_cases hb : t.hi = 1 ∨ t.hi = 0
    · rw [if_pos hb] at hr
      by_cases h0 : t.lo = 0
      · rw [if_pos h0, Option.some.injEq] at hr
        subst hr
        rw [ha]
        push_cast
        refine ⟨by show 0 ≤ ret.lo + t.lo; omega, by show ret.lo + t.lo ≤ ret.hi + t.hi; omega,
          by show ret.hi ≤ ret.hi + t.hi; omega, ?_⟩
        show ret.hi + t.hi ≤ _
        have : 0 ≤ (count : ℤ) * 2 ^ w := by positivity
        linarith
      · rw [if_neg h0] at hr; simp at hr
    · rw [if_neg hb] at hr
      obtain ⟨q1, q2, q3, q4⟩ := ih (i + 1) t (ret.add t) r (by omega) d1 (by rw [ha]; exact h3) d2 d3 ht2
        (by rw [ha]; show 0 ≤ ret.lo + t.lo; omega)
        (by rw [ha]; show ret.lo + t.lo ≤ ret.hi + t.hi; omega) hr
      rw [ha] at q3 q4
      dsimp only at q3 q4
      refine ⟨q1, q2, by omega, ?_⟩
      push_cast
      linarith

/-- `ln 2` at a precision of at least 10 bits is between one half and one -/
theorem ln2_half (ln2 : ℕ → DFI) (hln2 : IsLn2 ln2) (m : ℕ) (hm : 10 ≤ m) :
    2 ^ m ≤ 2 * (ln2 m).lo ∧ 2 ^ m ≤ 2 * (ln2 m).hi ∧ (ln2 m).lo < 2 ^ m ∧ (ln2 m).hi < 2 ^ m := by
  obtain ⟨sd, sc, su⟩ := hln2 m
  obtain ⟨s1, s2, s3, s4⟩ := isLn2_bounds sd sc su
  have g1 := log_two_gt
  have g2 := log_two_lt
  have : (2 : ℝ) ^ 10 ≤ 2 ^ m := pow_le_pow_right₀ (by norm_num) hm
  norm_num at this
  have h1 : (2 : ℝ) ^ m ≤ 2 * (ln2 m).lo := by nlinarith
  have h2 : (2 : ℝ) ^ m ≤ 2 * (ln2 m).hi := by nlinarith
  have h3 : ((ln2 m).lo : ℝ) < 2 ^ m := by nlinarith
  have h4 : ((ln2 m).hi : ℝ) < 2 ^ m := by nlinarith
  exact ⟨by exact_mod_cast h1, by exact_mod_cast h2, by exact_mod_cast h3, by exact_mod_cast h4⟩

theorem fdiv_small (v d P : ℤ) (hd : 0 < d) (h1 : P ≤ 2 * d) (h2 : v ≤ 2 ^ 61 * P) : v.fdiv d ≤ 2 ^ 62 := by
  rw [Int.fdiv_eq_ediv_of_nonneg _ hd.le]
  apply Int.ediv_le_of_le_mul hd
  nlinarith

theorem expExtraBits_small (v d P : ℤ) (hd : 0 < d) (h1 : P ≤ 2 * d) (h2 : v ≤ 2 ^ 61 * P) :
    expExtraBits d v ≤ 2 ^ 62 := by
  have := fdiv_small v d P hd h1 h2
  unfold expExtraBits
  by_cases h : 0 < v
  · rw [if_pos h]; omega
  · rw [if_neg h]; norm_num

/-- with a moderate precision and upper end the limits are not reached -/
theorem expWords_eq (ln2 : ℕ → DFI) (hln2 : IsLn2 ln2) (a : DFI) (hn : a.log2Denom < 2 ^ 61)
    (hle : a.lo ≤ a.hi) (hhi : a.hi ≤ 2 ^ 61 * 2 ^ a.log2Denom) : a.expWords ln2 = a.exp ln2 := by
  unfold expWords exp
  dsimp only
  set n := a.log2Denom with hnd
  have hlo : a.lo ≤ 2 ^ 61 * 2 ^ n := hle.trans hhi
  rw [usize_some (show n + 10 < 2 ^ 64 by omega), usize_some (show n + 1 < 2 ^ 64 by omega)]
  simp only [Option.bind_eq_bind, Option.bind_some]
  obtain ⟨b1, b2, b3, b4⟩ := ln2_half ln2 hln2 (n + 10) (by omega)
  have hp10 : (0 : ℤ) < 2 ^ (n + 10) := by positivity
  have hs : 0 < (ln2 (n + 10)).lo := by omega
  rw [if_neg hs.ne', if_neg hs.ne', convert_up a (n + 10) (by omega), ← hnd, show n + 10 - n = 10 by omega]
  dsimp only
  have e1 := expExtraBits_small (a.lo * 2 ^ 10) _ _ hs b1 (by rw [pow_add]; nlinarith)
  have e2 := expExtraBits_small (a.hi * 2 ^ 10) _ _ hs b1 (by rw [pow_add]; nlinarith)
  rw [usize_some (show expExtraBits (ln2 (n + 10)).lo (a.lo * 2 ^ 10) < 2 ^ 64 by omega),
    usize_some (show expExtraBits (ln2 (n + 10)).lo (a.hi * 2 ^ 10) < 2 ^ 64 by omega)]
  simp only [Option.bind_some]
  have hfl : floorLog2U (n + 1) = some (Nat.log 2 (n + 1)) := by simp [floorLog2U, bits]
  rw [hfl]
  simp only [Option.bind_some]
  have hk : Nat.log 2 (n + 1) < 64 := Nat.log_lt_of_lt_pow (by omega) (by omega)
  rw [usize_some (show n + 32 + Nat.log 2 (n + 1) * 2 < 2 ^ 64 by omega)]
  simp only [Option.bind_some]
  generalize hex : max (max 0 (expExtraBits (ln2 (n + 10)).lo (a.lo * 2 ^ 10)))
    (expExtraBits (ln2 (n + 10)).lo (a.hi * 2 ^ 10)) = ex
  have hex2 : ex ≤ 2 ^ 62 := by omega
  rw [usize_some (show n + 32 + Nat.log 2 (n + 1) * 2 + ex < 2 ^ 64 by omega)]
  simp only [Option.bind_some]
  generalize hw : n + 32 + Nat.log 2 (n + 1) * 2 + ex = w
  have hw1 : w < 2 ^ 63 := by omega
  have hw2 : n + 32 ≤ w := by omega
  clear e1 e2 hex hfl
  obtain ⟨c1, c2, c3, c4⟩ := ln2_half ln2 hln2 w (by omega)
  have hpw : (0 : ℤ) < 2 ^ w := by positivity
  have hL : 0 < (ln2 w).lo := by omega
  have hH : 0 < (ln2 w).hi := by omega
  rw [if_neg (by omega), if_neg (by omega), convert_up _ w (show n + 10 ≤ w by omega)]
  dsimp only
  have hsplit : ∀ c : ℤ, c * 2 ^ 10 * 2 ^ (w - (n + 10)) = c * 2 ^ (w - n) := fun c => by
    rw [mul_assoc, ← pow_add, show 10 + (w - (n + 10)) = w - n by omega]
  simp only [hsplit]
  have hPw : (2 : ℤ) ^ w = 2 ^ n * 2 ^ (w - n) := by rw [← pow_add]; congr 1; omega
  have hPk : (0 : ℤ) < 2 ^ (w - n) := by positivity
  have q1 := fdiv_small (a.lo * 2 ^ (w - n)) (ln2 w).hi _ hH c2 (by rw [hPw]; nlinarith)
  have q2 := fdiv_small (a.hi * 2 ^ (w - n)) (ln2 w).lo _ hL c1 (by rw [hPw]; nlinarith)
  have f1 := Int.fmod_nonneg_of_pos (a.lo * 2 ^ (w - n)) hH
  have f2 := Int.fmod_nonneg_of_pos (a.hi * 2 ^ (w - n)) hL
  have f3 := Int.fmod_lt_of_pos (a.lo * 2 ^ (w - n)) hH
  have f4 := Int.fmod_lt_of_pos (a.hi * 2 ^ (w - n)) hL
  generalize (a.lo * 2 ^ (w - n)).fdiv (ln2 w).hi = ql at *
  generalize (a.hi * 2 ^ (w - n)).fdiv (ln2 w).lo = qu at *
  generalize (a.lo * 2 ^ (w - n)).fmod (ln2 w).hi = ml at *
  generalize (a.hi * 2 ^ (w - n)).fmod (ln2 w).lo = mu at *
  have hone : one w = ⟨2 ^ w, 2 ^ w, w⟩ := by
    obtain ⟨o1, o2, o3⟩ := one_ends w
    cases h : one w
    rw [h] at o1 o2 o3
    simp only at o1 o2 o3
    rw [o1, o2, o3]
  cases hr : expLoop ⟨ml, mu, w⟩ (w - 1) 1 (one w) (one w) with
  | none => rfl
  | some r =>
    simp only [Option.bind_some]
    rw [hone] at hr
    obtain ⟨r1, r2, r3, r4⟩ := expLoop_rough (w := w) (x := ⟨ml, mu, w⟩) rfl f1 f2 (by dsimp only; omega)
      (by dsimp only; omega) (w - 1) 1 _ _ r (by omega) rfl rfl hpw.le (le_refl _) (le_refl _) hpw.le (le_refl _) hr
    dsimp only at r3 r4
    have hbig : ∀ s : ℕ, 2 ^ 64 ≤ s → r.hi < 2 ^ s := by
      intro s hs
      have a1 : r.hi ≤ w * 2 ^ w := by
        have : ((w - 1 : ℕ) : ℤ) = w - 1 := by omega
        rw [this] at r4
        linarith
      have a2 : (w : ℤ) < 2 ^ w := by exact_mod_cast Nat.lt_two_pow_self
      have a3 : (2 : ℤ) ^ w * 2 ^ w ≤ 2 ^ s := by
        rw [← pow_add]; exact pow_le_pow_right₀ (by norm_num) (by omega)
      have a4 : (w : ℤ) * 2 ^ w < 2 ^ w * 2 ^ w := mul_lt_mul_of_pos_right a2 hpw
      omega
    rw [expShiftLower_eq ql r.lo r1 (fun s hs => lt_of_le_of_lt r2 (hbig s hs)) (by omega),
      expShiftUpper_eq qu r.hi (by omega) hbig (by omega)]
    rfl

theorem expLoop_denom {w : ℕ} {x : DFI} (hx : x.log2Denom = w) (hl : 0 ≤ x.lo) (hh : 0 ≤ x.hi) :
    ∀ (count i : ℕ) (term ret r : DFI), 1 ≤ i → term.log2Denom = w → ret.log2Denom = w → 0 ≤ term.lo →
    term.lo ≤ term.hi → expLoop x count i term ret = some r → r.log2Denom = w := by
  intro count
  induction count with
  | zero =>
    intro i term ret r _ _ h3 _ _ hr
    simp only [expLoop, Option.some.injEq] at hr
    subst hr
    exact h3
  | succ count ih =>
    intro i term ret r h1 h2 h3 h4 h5 hr
    unfold expLoop at hr
    simp only [Option.bind_eq_bind, Option.bind_eq_some_iff] at hr
    obtain ⟨t, ht, hr⟩ := hr
    obtain ⟨t', ht', d1, d2, d3, -⟩ := exp_step hx h2 h4 h5 hl hh i h1
    rw [ht] at ht'
    simp only [Option.some.injEq] at ht'
    subst ht'
    have ha : ret.add t = ⟨ret.lo + t.lo, ret.hi + t.hi, ret.log2Denom⟩ := add_same (by rw [h3, d1])
    by_cases hb : t.hi = 1 ∨ t.hi = 0
    · rw [if_pos hb] at hr
      by_cases h0 : t.lo = 0
      · rw [if_pos h0, Option.some.injEq] at hr
        subst hr
        rw [ha]; exact h3
      · rw [if_neg h0] at hr; simp at hr
    · rw [if_neg hb] at hr
      exact ih (i + 1) t (ret.add t) r (by omega) d1 (by rw [ha]; exact h3) d2 d3 hr

/-- a lower end that is shifted out completely is zero after rounding -/
theorem finish_lower (q lo v : ℤ) (d : ℕ) (h0 : 0 ≤ lo) (h1 : lo < 2 ^ (2 ^ 64 + d))
    (h : expShiftLower q lo = some v) :
    shr v d = shr (if q < 0 then shr lo q.natAbs else shl lo q.natAbs) d := by
  unfold expShiftLower at h
  by_cases hs : q.natAbs < 2 ^ 64
  · rw [usize_some hs] at h
    simp only [Option.some.injEq] at h
    rw [← h]
  · rw [usize_none (not_lt.mp hs)] at h
    by_cases hq : q < 0
    · simp only [if_pos hq, Option.some.injEq] at h
      rw [← h, if_pos hq]
      unfold shr
      rw [Int.zero_ediv, Int.ediv_ediv_of_nonneg (by positivity), ← pow_add]
      refine (Int.ediv_eq_zero_of_lt h0 (lt_of_lt_of_le h1 ?_)).symm
      exact pow_le_pow_right₀ (by norm_num) (by omega)
    · simp [if_neg hq] at h

/-- an upper end that is shifted out completely is one after rounding -/
theorem finish_upper (q hi v : ℤ) (d : ℕ) (h0 : 0 < hi) (h1 : hi < 2 ^ (2 ^ 64 + d))
    (h : expShiftUpper q hi = some v) :
    -shr (-v) d = -shr (-(if q < 0 then -shr (-hi) q.natAbs else shl hi q.natAbs)) d := by
  unfold expShiftUpper at h
  by_cases hs : q.natAbs < 2 ^ 64
  · rw [usize_some hs] at h
    simp only [Option.some.injEq] at h
    rw [← h]
  · rw [usize_none (not_lt.mp hs)] at h
    by_cases hq : q < 0
    · simp only [if_pos hq, Option.some.injEq] at h
      rw [← h, if_pos hq, neg_neg]
      unfold shr
      rw [Int.ediv_ediv_of_nonneg (by positivity), ← pow_add]
      have h2 : hi < 2 ^ (q.natAbs + d) := lt_of_lt_of_le h1 (pow_le_pow_right₀ (by norm_num) (by omega))
      generalize (2 : ℤ) ^ (q.natAbs + d) = P at h2
      have h3 : -hi / P = -1 := by
        rw [Int.ediv_eq_iff_of_pos (by omega)]
        exact ⟨by omega, by linarith⟩
      have hd : (0 : ℤ) < 2 ^ d := by positivity
      generalize (2 : ℤ) ^ d = D at hd
      have h4 : (-1 : ℤ) / D = -1 := by
        rw [Int.ediv_eq_iff_of_pos (by omega)]
        exact ⟨by omega, by linarith⟩
      rw [h3, h4]
    · simp [if_neg hq] at h

/-- a result with the limits is the result without them -/
theorem expWords_some (ln2 : ℕ → DFI) (hln2 : IsLn2 ln2) (a v : DFI) (hv : a.expWords ln2 = some v) :
    a.exp ln2 = some v := by
  unfold expWords at hv
  unfold exp
  dsimp only at hv ⊢
  set n := a.log2Denom with hnd
  simp only [Option.bind_eq_bind, Option.bind_eq_some_iff] at hv
  obtain ⟨n10, hn10, hv⟩ := hv
  have hu : ∀ {x y : ℕ}, usize x = some y → y = x ∧ x < 2 ^ 64 := by
    intro x y h
    unfold usize at h
    by_cases hx : x < 2 ^ 64
    · rw [if_pos hx] at h
      simp only [Option.some.injEq] at h
      exact ⟨h.symm, hx⟩
    · rw [if_neg hx] at h; simp at h
  obtain ⟨rfl, hn⟩ := hu hn10
  obtain ⟨b1, b2, b3, b4⟩ := ln2_half ln2 hln2 (n + 10) (by omega)
  have hp10 : (0 : ℤ) < 2 ^ (n + 10) := by positivity
  have hs : 0 < (ln2 (n + 10)).lo := by omega
  rw [if_neg hs.ne'] at hv ⊢
  simp only [Option.bind_eq_some_iff] at hv
  obtain ⟨e1, h1, e2, h2, n1, h3, k, hk, base, h4, w, h5, hv⟩ := hv
  obtain ⟨rfl, -⟩ := hu h1
  obtain ⟨rfl, -⟩ := hu h2
  obtain ⟨rfl, -⟩ := hu h3
  obtain ⟨rfl, -⟩ := hu h4
  obtain ⟨hw, hw1⟩ := hu h5
  have hfl : floorLog2U (n + 1) = some (Nat.log 2 (n + 1)) := by simp [floorLog2U, bits]
  rw [hfl, Option.some.injEq] at hk
  rw [hfl, hk]
  simp only [Option.bind_eq_bind, Option.bind_some]
  rw [← hw]
  rw [← hw] at hw1
  -- the working precision is far beyond the precision when it is close to the limit
  have hfar : w < 2 ^ 63 ∨ n + 64 ≤ w := by
    by_cases hn2 : n < 2 ^ 62
    · omega
    · right
      have : 62 ≤ Nat.log 2 (n + 1) := by
        apply Nat.le_log_of_pow_le (by norm_num); omega
      omega
  have hw2 : n + 32 ≤ w := by omega
  clear h1 h2 h3 h4 h5 hw hn10 hfl
  obtain ⟨c1, c2, c3, c4⟩ := ln2_half ln2 hln2 w (by omega)
  have hpw : (0 : ℤ) < 2 ^ w := by positivity
  have hL : 0 < (ln2 w).lo := by omega
  have hH : 0 < (ln2 w).hi := by omega
  rw [if_neg (by omega)] at hv ⊢
  generalize (a.convertLog2Denom (n + 10)).convertLog2Denom w = a' at hv ⊢
  have f1 := Int.fmod_nonneg_of_pos a'.lo hH
  have f2 := Int.fmod_nonneg_of_pos a'.hi hL
  have f3 := Int.fmod_lt_of_pos a'.lo hH
  have f4 := Int.fmod_lt_of_pos a'.hi hL
  generalize a'.lo.fdiv (ln2 w).hi = ql at *
  generalize a'.hi.fdiv (ln2 w).lo = qu at *
  generalize a'.lo.fmod (ln2 w).hi = ml at *
  generalize a'.hi.fmod (ln2 w).lo = mu at *
  simp only [Option.bind_eq_some_iff] at hv
  obtain ⟨r, hr, lo, hlo, hi, hhi, hv⟩ := hv
  rw [hr, Option.bind_some]
  have hone : one w = ⟨2 ^ w, 2 ^ w, w⟩ := by
    obtain ⟨o1, o2, o3⟩ := one_ends w
    cases h : one w
    rw [h] at o1 o2 o3
    simp only at o1 o2 o3
    rw [o1, o2, o3]
  rw [hone] at hr
  obtain ⟨r1, r2, r3, r4⟩ := expLoop_rough (w := w) (x := ⟨ml, mu, w⟩) rfl f1 f2 (by dsimp only; omega)
    (by dsimp only; omega) (w - 1) 1 _ _ r (by omega) rfl rfl hpw.le (le_refl _) (le_refl _) hpw.le (le_refl _) hr
  have r5 := expLoop_denom (w := w) (x := ⟨ml, mu, w⟩) rfl f1 f2 (w - 1) 1 _ _ r (by omega) rfl rfl hpw.le
    (le_refl _) hr
  dsimp only at r3 r4
  have hbig : r.hi < 2 ^ (2 ^ 64 + (w - n)) := by
    have a1 : r.hi ≤ w * 2 ^ w := by
      have : ((w - 1 : ℕ) : ℤ) = w - 1 := by omega
      rw [this] at r4
      linarith
    rcases hfar with hf | hf
    · have a2 : (w : ℤ) < 2 ^ w := by exact_mod_cast Nat.lt_two_pow_self
      have a3 : (2 : ℤ) ^ w * 2 ^ w ≤ 2 ^ (2 ^ 64 + (w - n)) := by
        rw [← pow_add]; exact pow_le_pow_right₀ (by norm_num) (by omega)
      have a4 : (w : ℤ) * 2 ^ w < 2 ^ w * 2 ^ w := mul_lt_mul_of_pos_right a2 hpw
      exact lt_of_le_of_lt a1 (lt_of_lt_of_le a4 a3)
    · have a2 : (w : ℤ) < 2 ^ 64 := by exact_mod_cast hw1
      have a3 : (2 : ℤ) ^ 64 * 2 ^ w ≤ 2 ^ (2 ^ 64 + (w - n)) := by
        rw [← pow_add]; exact pow_le_pow_right₀ (by norm_num) (by omega)
      have a4 : (w : ℤ) * 2 ^ w < 2 ^ 64 * 2 ^ w := mul_lt_mul_of_pos_right a2 hpw
      exact lt_of_le_of_lt a1 (lt_of_lt_of_le a4 a3)
  have g1 := finish_lower ql r.lo lo (w - n) r1 (lt_of_le_of_lt r2 hbig) hlo
  have g2 := finish_upper qu r.hi hi (w - n) (lt_of_lt_of_le hpw r3) hbig hhi
  rw [← hv]
  unfold convertLog2Denom convertLog2DenomFloor convertLog2DenomCeil
  have hnw : ¬ n ≥ w := by omega
  simp only [r5, if_neg hnw]
  rw [g1, g2]

/-- an upper end from `2^64` on is too big -/
theorem expWords_none (ln2 : ℕ → DFI) (hln2 : IsLn2 ln2) (a : DFI) (hhi : 2 ^ 64 * 2 ^ a.log2Denom ≤ a.hi) :
    a.expWords ln2 = none := by
  unfold expWords
  dsimp only
  set n := a.log2Denom with hnd
  by_cases hn : n + 10 < 2 ^ 64
  · rw [usize_some hn]
    simp only [Option.bind_eq_bind, Option.bind_some]
    obtain ⟨b1, b2, b3, b4⟩ := ln2_half ln2 hln2 (n + 10) (by omega)
    have hp10 : (0 : ℤ) < 2 ^ (n + 10) := by positivity
    have hs : 0 < (ln2 (n + 10)).lo := by omega
    rw [if_neg hs.ne', convert_up a (n + 10) (by omega), ← hnd, show n + 10 - n = 10 by omega]
    dsimp only
    have hpn : (0 : ℤ) < 2 ^ n := by positivity
    have hbig : 2 ^ 64 ≤ expExtraBits (ln2 (n + 10)).lo (a.hi * 2 ^ 10) := by
      unfold expExtraBits
      rw [if_pos (by nlinarith), Int.fdiv_eq_ediv_of_nonneg _ hs.le]
      have : (2 : ℤ) ^ 64 ≤ a.hi * 2 ^ 10 / (ln2 (n + 10)).lo := by
        apply Int.le_ediv_of_mul_le hs
        rw [pow_add] at b3
        nlinarith
      omega
    rw [usize_none hbig]
    cases usize (expExtraBits (ln2 (n + 10)).lo (a.lo * 2 ^ 10)) <;> rfl
  · rw [usize_none (by omega)]; rfl

end DFI
end Algebraics
