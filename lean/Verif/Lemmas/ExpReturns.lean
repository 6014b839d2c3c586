import Verif.Lemmas.Exp
import Mathlib.NumberTheory.Padics.PadicVal.Basic

namespace Algebraics
namespace DFI

/-- a factorial times a power of two is an `m`-th power only for `m ≤ 2`. -/
theorem factorial_pow {m s k : ℕ} (h : s ^ m = m.factorial * 2 ^ k) : m ≤ 2 := by
  by_contra hm
  push Not at hm
  haveI : Fact (Nat.Prime 3) := ⟨by norm_num⟩
  have hs : s ≠ 0 := by
    rintro rfl
    rw [zero_pow (by omega)] at h
    have : 0 < m.factorial * 2 ^ k := by positivity
    omega
  have h1 : m * padicValNat 3 s = padicValNat 3 m.factorial := by
    have := congrArg (padicValNat 3) h
    rw [padicValNat.pow, padicValNat.mul (Nat.factorial_ne_zero m) (by positivity),
      padicValNat.pow] at this
    rw [this, padicValNat.eq_zero_of_not_dvd (p := 3) (n := 2) (by norm_num)]
    omega
  have h2 := sub_one_mul_padicValNat_factorial (p := 3) m
  have h3 : 0 < padicValNat 3 m.factorial := by
    apply Nat.pos_of_ne_zero
    rw [← dvd_iff_padicValNat_ne_zero (Nat.factorial_ne_zero m)]
    exact Nat.dvd_factorial (by norm_num) (by omega)
  have h4 : 0 < padicValNat 3 s := by
    rcases Nat.eq_zero_or_pos (padicValNat 3 s) with h | h
    · rw [h] at h1; omega
    · exact h
  have h5 : m ≤ m * padicValNat 3 s := Nat.le_mul_of_pos_right _ h4
  omega

/-- one turn of the series loop: the ends, and the value when it is exact. -/
theorem exp_step {w : ℕ} {x term : DFI} (hx : x.log2Denom = w) (ht : term.log2Denom = w)
    (h0 : 0 ≤ term.lo) (h1 : term.lo ≤ term.hi) (hl : 0 ≤ x.lo) (hh : 0 ≤ x.hi) (i : ℕ) (hi : 1 ≤ i) :
    ∃ t', (term.mul x).divInt i = some t' ∧ t'.log2Denom = w ∧ 0 ≤ t'.lo ∧ t'.lo ≤ t'.hi ∧
      t'.lo * (i * 2 ^ w) ≤ term.lo * x.lo ∧ t'.lo * (i * 2 ^ w) ≤ term.lo * x.hi ∧
      term.hi * x.lo ≤ t'.hi * (i * 2 ^ w) ∧ term.hi * x.hi ≤ t'.hi * (i * 2 ^ w) ∧
      ∀ d : ℤ, term.lo = term.hi → x.lo = x.hi → term.lo * x.lo = d * (i * 2 ^ w) →
        t'.lo = d ∧ t'.hi = d := by
  have hiz : (i : ℤ) ≠ 0 := by omega
  have hi' : (0 : ℚ) < i := by exact_mod_cast hi
  have hp : (0 : ℤ) < 2 ^ w := by positivity
  unfold divInt
  rw [if_neg hiz]
  refine ⟨_, rfl, ?_⟩
  obtain ⟨mn, mx, e1, e2, ⟨p1, p2, p3, p4⟩, ⟨q1, q2, q3, q4⟩, m1, m2⟩ :=
    mulOp_bounds term.lo term.hi x.lo x.hi w
  have hneg : ¬ ((1 : ℚ) / (i : ℤ) < 0) := by
    have : (0 : ℚ) < 1 / (i : ℤ) := by push_cast; positivity
    linarith
  rw [mul_same_lo (by rw [hx, ht])]
  unfold mulRatio
  rw [if_neg hneg]
  simp only [hx, e1, e2, shr]
  simp only [List.mem_cons, List.not_mem_nil, or_false] at m1 m2
  have hmn : 0 ≤ mn := by
    have a1 := mul_nonneg h0 hl
    have a2 := mul_nonneg h0 hh
    have a3 := mul_nonneg (h0.trans h1) hl
    have a4 := mul_nonneg (h0.trans h1) hh
    rcases m1 with h | h | h | h <;> rw [h] <;> assumption
  have hfl : ∀ A : ℤ, ⌊(1 : ℚ) / (i : ℤ) * (A : ℚ)⌋ = A / i := fun A => by
    rw [one_div_mul_eq_div]
    exact_mod_cast Rat.floor_intCast_div_natCast A i
  have hce : ∀ A : ℤ, ⌈(1 : ℚ) / (i : ℤ) * (A : ℚ)⌉ = -(-A / i) := fun A => by
    rw [← hfl (-A), ← Int.ceil_neg]
    congr 1
    push_cast
    ring
  rw [hfl, hce, neg_neg]
  have hipos : (0 : ℤ) < i := by omega
  have hm : (0 : ℤ) < 2 ^ w * i := by positivity
  rw [Int.ediv_ediv_of_nonneg hp.le, Int.ediv_ediv_of_nonneg hp.le, mul_comm (i : ℤ) (2 ^ w)]
  have hmnx : mn ≤ mx := p1.trans q1
  have k1 : mn / (2 ^ w * i) * (2 ^ w * i) ≤ mn := Int.ediv_mul_le _ hm.ne'
  have k2 : -mx / (2 ^ w * i) * (2 ^ w * i) ≤ -mx := Int.ediv_mul_le _ hm.ne'
  refine ⟨trivial, Int.ediv_nonneg hmn hm.le, ?_, k1.trans p1, k1.trans p2, ?_, ?_, ?_⟩
  · by_contra hc
    push Not at hc
    have : (-(-mx / (2 ^ w * i)) + 1) * (2 ^ w * i) ≤ mn / (2 ^ w * i) * (2 ^ w * i) := by
      apply mul_le_mul_of_nonneg_right _ hm.le; omega
    nlinarith
  · linarith
  · linarith
  · intro d ha hb hd
    rw [← ha, ← hb, hd] at m1 m2
    simp only [or_self] at m1 m2
    rw [m1, m2, ← neg_mul, Int.mul_ediv_cancel _ hm.ne',
      Int.mul_ediv_cancel _ hm.ne', neg_neg]
    exact ⟨rfl, rfl⟩

theorem expLoop_none {w : ℕ} {x : DFI} (hx : x.log2Denom = w) (hl : 0 ≤ x.lo) (hh : 0 ≤ x.hi) :
    ∀ (count i : ℕ) (term ret : DFI), 1 ≤ i → term.log2Denom = w → 0 ≤ term.lo → term.lo ≤ term.hi →
    expLoop x count i term ret = none →
    x.lo = x.hi ∧ term.lo = term.hi ∧ ∃ m ≥ i,
      term.lo * x.lo ^ (m + 1 - i) * (i - 1).factorial = m.factorial * 2 ^ (w * (m + 1 - i)) := by
  have hp : (0 : ℤ) < 2 ^ w := by positivity
  intro count
  induction count with
  | zero => intro i term ret _ _ _ _ h; simp [expLoop] at h
  | succ count ih =>
    intro i term ret hi ht h0 h1 h
    obtain ⟨t', e, g1, g2, g3, g4, g5, g6, g7, -⟩ := exp_step hx ht h0 h1 hl hh i hi
    unfold expLoop at h
    rw [e] at h
    simp only [Option.bind_eq_bind, Option.bind_some] at h
    have hI : (0 : ℤ) < i * 2 ^ w := by positivity
    obtain ⟨j, rfl⟩ : ∃ j, i = j + 1 := ⟨i - 1, by omega⟩
    -- equal positive ends of the new term force equal ends before
    have back : t'.lo = t'.hi → 0 < t'.lo → term.lo = term.hi ∧
        (x.lo = x.hi → term.lo * x.lo = t'.lo * ((j + 1 : ℕ) * 2 ^ w)) := by
      intro he hpos
      have hP := mul_pos hpos hI
      have hxl : 0 < x.lo := by
        rcases hl.lt_or_eq with h | h
        · exact h
        · rw [← h, mul_zero] at g4; linarith
      have a1 : term.hi * x.lo ≤ term.lo * x.lo := by rw [he] at g4; linarith
      have a2 : term.hi ≤ term.lo := le_of_mul_le_mul_right a1 hxl
      have a3 : term.lo = term.hi := le_antisymm h1 a2
      refine ⟨a3, fun hxe => le_antisymm ?_ g4⟩
      rw [a3, he]; exact g6
    by_cases hb : t'.hi = 1 ∨ t'.hi = 0
    · rw [if_pos hb] at h
      by_cases hz : t'.lo = 0
      · rw [if_pos hz] at h; simp at h
      · have t1 : t'.lo = 1 := by omega
        have t2 : t'.hi = 1 := by omega
        obtain ⟨b1, b2⟩ := back (by omega) (by omega)
        have c1 : term.lo * x.lo = term.lo * x.hi := by
          rw [t1] at g4 g5; rw [t2, ← b1] at g6 g7
          linarith
        have hpos : term.lo ≠ 0 := by
          intro hc
          rw [hc, zero_mul, t1] at g4; linarith
        have hxe : x.lo = x.hi := mul_left_cancel₀ hpos c1
        refine ⟨hxe, b1, j + 1, le_refl _, ?_⟩
        have := b2 hxe
        rw [Nat.add_sub_cancel_left, pow_one, this, t1, Nat.add_sub_cancel, Nat.factorial_succ]
        push_cast
        ring
    · rw [if_neg hb] at h
      obtain ⟨b1, b2, m, hm, b3⟩ := ih (j + 1 + 1) t' _ (by omega) g1 g2 g3 h
      have hpos : 0 < t'.lo := by omega
      obtain ⟨b4, b5⟩ := back b2 hpos
      have b6 := b5 b1
      refine ⟨b1, b4, m, by omega, ?_⟩
      have hs1 : m + 1 - (j + 1) = (m + 1 - (j + 1 + 1)) + 1 := by omega
      rw [hs1, pow_succ, mul_add, pow_add, mul_one]
      rw [show j + 1 + 1 - 1 = j + 1 by omega, Nat.factorial_succ] at b3
      rw [Nat.add_sub_cancel]
      push_cast at b3 b6
      calc term.lo * (x.lo ^ (m + 1 - (j + 1 + 1)) * x.lo) * (j.factorial : ℤ)
          = (term.lo * x.lo) * (x.lo ^ (m + 1 - (j + 1 + 1)) * (j.factorial : ℤ)) := by ring
        _ = (t'.lo * x.lo ^ (m + 1 - (j + 1 + 1)) * (((j : ℤ) + 1) * (j.factorial : ℤ))) * 2 ^ w := by
          rw [b6]; ring
        _ = _ := by rw [show m + 1 - (j + 1 + 1) = m - (j + 1) by omega] at *; rw [b3]; ring

theorem one_ends (w : ℕ) : (one w).lo = 2 ^ w ∧ (one w).hi = 2 ^ w ∧ (one w).log2Denom = w := by
  unfold one fromInt fromDyadicFraction shl
  simp

/-- the series loop panics in exactly two cases. -/
theorem expLoop_none_iff {w : ℕ} {x : DFI} (hx : x.log2Denom = w) (hl : 0 ≤ x.lo) (hh : 0 ≤ x.hi)
    (hw : 3 ≤ w) : expLoop x (w - 1) 1 (one w) (one w) = none ↔
      x.lo = x.hi ∧ (x.lo = 1 ∨ x.lo * x.lo = 2 ^ (w + 1)) := by
  have hp : (0 : ℤ) < 2 ^ w := by positivity
  obtain ⟨o1, o2, o3⟩ := one_ends w
  constructor
  · intro h
    obtain ⟨h1, -, m, hm, h3⟩ := expLoop_none hx hl hh (w - 1) 1 (one w) (one w) (le_refl _) o3
      (by rw [o1]; exact hp.le) (by rw [o1, o2]) h
    refine ⟨h1, ?_⟩
    obtain ⟨s, hs⟩ := Int.eq_ofNat_of_zero_le hl
    obtain ⟨m, rfl⟩ : ∃ k, m = k + 1 := ⟨m - 1, by omega⟩
    rw [o1, hs, Nat.add_sub_cancel, Nat.sub_self, Nat.factorial_zero, mul_add, mul_one] at h3
    have h4 : s ^ (m + 1) = (m + 1).factorial * 2 ^ (w * m) := by
      have h5 : (s : ℤ) ^ (m + 1) = (m + 1).factorial * 2 ^ (w * m) := by
        apply mul_left_cancel₀ hp.ne'
        rw [pow_add (2 : ℤ)] at h3
        linear_combination h3
      exact_mod_cast h5
    have h5 := factorial_pow h4
    rw [hs]
    obtain rfl | rfl : m = 0 ∨ m = 1 := by omega
    · left
      simp at h4
      rw [h4]; rfl
    · right
      have hf : (1 + 1).factorial = 2 := rfl
      rw [mul_one, hf, pow_two] at h4
      rw [pow_succ]
      have : (s : ℤ) * s = 2 * 2 ^ w := by exact_mod_cast h4
      linarith
  · rintro ⟨h1, h2⟩
    have first := exp_step hx o3 (by rw [o1]; exact hp.le) (by rw [o1, o2]) hl hh 1 (le_refl _)
    obtain ⟨t', e, g1, g2, g3, -, -, -, -, g8⟩ := first
    obtain ⟨k1, k2⟩ := g8 x.lo (by rw [o1, o2]) h1 (by rw [o1]; push_cast; ring)
    obtain ⟨c, hc⟩ : ∃ c, w - 1 = c + 1 + 1 := ⟨w - 3, by omega⟩
    rw [hc]
    unfold expLoop
    rw [e]
    simp only [Option.bind_eq_bind, Option.bind_some]
    rcases h2 with h2 | h2
    · rw [if_pos (by rw [k2, h2]; exact Or.inl rfl), if_neg (by rw [k1, h2]; decide)]
    · have hlt : (2 : ℤ) ^ 1 < 2 ^ (w + 1) := pow_lt_pow_right₀ (by norm_num) (by omega)
      have hne : ¬ (t'.hi = 1 ∨ t'.hi = 0) := by
        rw [k2]
        rintro (h | h) <;> rw [h] at h2 <;> omega
      rw [if_neg hne]
      obtain ⟨t'', e', -, -, -, -, -, -, -, l8⟩ := exp_step hx g1 g2 g3 hl hh (1 + 1) (by omega)
      obtain ⟨n1, n2⟩ := l8 1 (by rw [k1, k2]) h1 (by rw [k1, h2, pow_succ]; push_cast; ring)
      unfold expLoop
      rw [e']
      simp only [Option.bind_eq_bind, Option.bind_some]
      rw [if_pos (Or.inl n2), if_neg (by rw [n1]; decide)]

theorem expExtraBits_eq (L v : ℤ) (hL : 0 < L) : expExtraBits L v = (v / L).toNat := by
  unfold expExtraBits
  split
  · rw [Int.fdiv_eq_ediv_of_nonneg _ hL.le]
  · next h =>
    have : v / L ≤ 0 := Int.ediv_nonpos_of_nonpos_of_neg (by omega) hL
    omega

theorem exp_none_iff (ln2 : ℕ → DFI) (hln2 : IsLn2 ln2) (a : DFI) (w : ℕ) (hw : w = expPrecision ln2 a) :
    a.exp ln2 = none ↔
      (a.lo * 2 ^ (w - a.log2Denom)) % (ln2 w).hi = (a.hi * 2 ^ (w - a.log2Denom)) % (ln2 w).lo ∧
      ((a.lo * 2 ^ (w - a.log2Denom)) % (ln2 w).hi = 1 ∨
        ((a.lo * 2 ^ (w - a.log2Denom)) % (ln2 w).hi) ^ 2 = 2 ^ (w + 1)) := by
  unfold expPrecision at hw
  unfold exp
  dsimp only
  set n := a.log2Denom with hn
  have g1 := log_two_gt
  have pos : ∀ m, 10 ≤ m → 0 < (ln2 m).lo ∧ 0 < (ln2 m).hi := by
    intro m hm
    obtain ⟨sd, sc, su⟩ := hln2 m
    obtain ⟨s1, s2, s3, s4⟩ := isLn2_bounds sd sc su
    have : (2 : ℝ) ^ 10 ≤ 2 ^ m := pow_le_pow_right₀ (by norm_num) hm
    norm_num at this
    have h1 : (0 : ℝ) < (ln2 m).lo := by nlinarith
    have h2 : (0 : ℝ) < (ln2 m).hi := by nlinarith
    exact ⟨by exact_mod_cast h1, by exact_mod_cast h2⟩
  have hs := (pos (n + 10) (by omega)).1
  rw [convert_up a (n + 10) (by omega)]
  have hfl : floorLog2U (n + 1) = some (Nat.log 2 (n + 1)) := by simp [floorLog2U, bits]
  simp only [hfl]
  rw [← hn, show n + 10 - n = 10 by omega, if_neg hs.ne', expExtraBits_eq _ _ hs, expExtraBits_eq _ _ hs,
    Nat.zero_max]
  simp only [Option.bind_eq_bind, Option.bind_some]
  have hwe : n + 32 + Nat.log 2 (n + 1) * 2 + max (a.lo * 2 ^ 10 / (ln2 (n + 10)).lo).toNat
      (a.hi * 2 ^ 10 / (ln2 (n + 10)).lo).toNat = w := by rw [hw]; ring
  rw [hwe]
  have hwn : n + 32 ≤ w := by rw [hw]; omega
  rw [convert_up _ w (show n + 10 ≤ w by omega)]
  obtain ⟨hLpos, hHpos⟩ := pos w (by omega)
  rw [if_neg (by omega)]
  have hsplit : ∀ c : ℤ, c * 2 ^ 10 * 2 ^ (w - (n + 10)) = c * 2 ^ (w - n) := fun c => by
    rw [mul_assoc, ← pow_add, show 10 + (w - (n + 10)) = w - n by omega]
  simp only [hsplit, Int.fmod_eq_emod_of_nonneg _ hLpos.le, Int.fmod_eq_emod_of_nonneg _ hHpos.le]
  have key := expLoop_none_iff (w := w) (x := ⟨a.lo * 2 ^ (w - n) % (ln2 w).hi,
    a.hi * 2 ^ (w - n) % (ln2 w).lo, w⟩) rfl (Int.emod_nonneg _ hHpos.ne') (Int.emod_nonneg _ hLpos.ne')
    (by omega)
  simp only at key
  rw [pow_two, ← key]
  cases expLoop ⟨a.lo * 2 ^ (w - n) % (ln2 w).hi, a.hi * 2 ^ (w - n) % (ln2 w).lo, w⟩ (w - 1) 1 (one w)
    (one w) <;> simp

/-- the ends of the reduced interval cannot meet when the interval is narrow, not too far from zero and
not a point. -/
theorem exp_narrow (ln2 : ℕ → DFI) (hln2 : IsLn2 ln2) (a : DFI) (h1 : a.lo < a.hi)
    (h2 : 2 * (a.hi - a.lo) ≤ 2 ^ a.log2Denom) (h3 : |a.lo| ≤ 2 ^ 25 * 2 ^ a.log2Denom) :
    ∃ r, a.exp ln2 = some r := by
  by_contra hc
  push Not at hc
  have hnone : a.exp ln2 = none := by
    cases h : a.exp ln2 with
    | none => rfl
    | some r => exact absurd h (hc r)
  obtain ⟨w, hw⟩ : ∃ w, w = expPrecision ln2 a := ⟨_, rfl⟩
  obtain ⟨e, -⟩ := (exp_none_iff ln2 hln2 a w hw).mp hnone
  have hwn : a.log2Denom + 32 ≤ w := by rw [hw]; unfold expPrecision; omega
  set n := a.log2Denom
  obtain ⟨k, rfl⟩ : ∃ k, w = n + k := ⟨w - n, by omega⟩
  rw [show n + k - n = k by omega] at e
  have hk : 32 ≤ k := by omega
  obtain ⟨sd, sc, su⟩ := hln2 (n + k)
  obtain ⟨s1, s2, s3, s4⟩ := isLn2_bounds sd sc su
  generalize (ln2 (n + k)) = l at *
  have g1 := log_two_gt
  have hP : (2 : ℝ) ^ 32 ≤ 2 ^ k := pow_le_pow_right₀ (by norm_num) hk
  have hN : (1 : ℝ) ≤ 2 ^ n := one_le_pow₀ (by norm_num)
  have hPz : (2 : ℤ) ^ 32 ≤ 2 ^ k := pow_le_pow_right₀ (by norm_num) hk
  have hNz : (1 : ℤ) ≤ 2 ^ n := one_le_pow₀ (by norm_num)
  set q := a.lo * 2 ^ k / l.hi with hq
  set q' := a.hi * 2 ^ k / l.lo with hq'
  have ea : a.lo * 2 ^ k % l.hi + l.hi * q = a.lo * 2 ^ k := Int.emod_add_mul_ediv _ _
  have eb : a.hi * 2 ^ k % l.lo + l.lo * q' = a.hi * 2 ^ k := Int.emod_add_mul_ediv _ _
  -- width
  have hwid : (a.hi - a.lo) * 2 ^ k = (q' - q) * l.lo - q * (l.hi - l.lo) := by
    linear_combination -eb + ea - e
  have hL : (68 : ℤ) * (2 ^ n * 2 ^ k) ≤ 100 * l.lo := by
    have : (68 : ℝ) * (2 ^ n * 2 ^ k) ≤ 100 * l.lo := by
      rw [pow_add] at s2
      have : (2 : ℝ) ^ 32 ≤ 2 ^ n * 2 ^ k := by nlinarith
      norm_num at this
      nlinarith
    exact_mod_cast this
  have hU : 0 ≤ l.hi - l.lo := by
    have : (l.lo : ℝ) ≤ l.hi := by linarith
    have : l.lo ≤ l.hi := by exact_mod_cast this
    omega
  unfold ulps at su
  have hM : (0 : ℤ) < 2 ^ n * 2 ^ k := by positivity
  have hLpos : 0 < l.lo := by nlinarith
  have hHpos : 0 < l.hi := by omega
  -- the quotient is moderate
  have hqb : |q| < 2 ^ 26 := by
    have r0 := Int.emod_nonneg (a.lo * 2 ^ k) hHpos.ne'
    have r1 := Int.emod_lt_of_pos (a.lo * 2 ^ k) hHpos
    obtain ⟨b1, b2⟩ := abs_le.mp h3
    have c1 : a.lo * 2 ^ k ≤ 2 ^ 25 * 2 ^ n * 2 ^ k := mul_le_mul_of_nonneg_right b2 (by positivity)
    have c2 : -(2 ^ 25 * 2 ^ n) * 2 ^ k ≤ a.lo * 2 ^ k := mul_le_mul_of_nonneg_right b1 (by positivity)
    rcases abs_cases q with ⟨hqa, hq0⟩ | ⟨hqa, hq0⟩
    · rw [hqa]
      by_contra hcc
      push Not at hcc
      have : (2 ^ 26 : ℤ) * l.hi ≤ q * l.hi := mul_le_mul_of_nonneg_right (by omega) hHpos.le
      nlinarith
    · rw [hqa]
      by_contra hcc
      push Not at hcc
      have : (2 ^ 26 - 1 : ℤ) * l.hi ≤ (-q - 1) * l.hi := mul_le_mul_of_nonneg_right (by omega) hHpos.le
      nlinarith
  have hqs : |q * (l.hi - l.lo)| < 2 ^ 29 := by
    rw [abs_mul, abs_of_nonneg hU]
    have := abs_nonneg q
    have : |q| * (l.hi - l.lo) ≤ |q| * 8 := mul_le_mul_of_nonneg_left su this
    omega
  obtain ⟨v1, v2⟩ := abs_lt.mp hqs
  have hd1 : 1 * 2 ^ k ≤ (a.hi - a.lo) * 2 ^ k := mul_le_mul_of_nonneg_right (by omega) (by positivity)
  have hd2 : 2 * (a.hi - a.lo) * 2 ^ k ≤ 2 ^ n * 2 ^ k := mul_le_mul_of_nonneg_right h2 (by positivity)
  have hM32 : (2 : ℤ) ^ 32 ≤ 2 ^ n * 2 ^ k := by nlinarith
  rcases lt_trichotomy q' q with hlt | heq | hgt
  · have : (q' - q) * l.lo ≤ (-1) * l.lo := mul_le_mul_of_nonneg_right (by omega) hLpos.le
    omega
  · rw [heq, sub_self, zero_mul] at hwid
    omega
  · have : 1 * l.lo ≤ (q' - q) * l.lo := mul_le_mul_of_nonneg_right (by omega) hLpos.le
    rw [mul_assoc] at hd2
    omega

end DFI
end Algebraics
