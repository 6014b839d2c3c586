import Verif.Props.AlgNumPowIrr

/-!
# C47: integer powers of negative irrational numbers, without assumptions on `log` and `exp`

The size of the power is found with the absolute value of the base, and the sign is put on afterwards. If no conjugate
of the base has another real power of the same sign, what `checked_pow` returns is exact whatever `log` and `exp`
compute.
-/

namespace Algebraics

open Polynomial

namespace RealAlg

/-- the power with the exponent `n` stands alone on its side of zero: no conjugate of `x` has another real power that is
zero or of the same sign -/
def PowerAloneOfSign (x : ℝ) (n : ℕ) : Prop :=
  ∀ w : ℂ, aeval w (minpoly ℚ x) = 0 → ∀ t : ℝ, 0 ≤ t * x ^ n → w ^ n = t → t = x ^ n

/-- for positive numbers this is the condition of the theorems for positive numbers -/
theorem powerAloneOfSign_iff {x : ℝ} (hx : 0 < x) (n : ℕ) : PowerAloneOfSign x n ↔ PowerAlone x n := by
  have : 0 < x ^ n := by positivity
  unfold PowerAloneOfSign PowerAlone
  simp only [mul_nonneg_iff_of_pos_right this]

theorem PowerAloneOfSign.inv {x : ℝ} {n : ℕ} (hx : x ≠ 0) (hint : IsIntegral ℚ x)
    (h : PowerAloneOfSign x n) : PowerAloneOfSign x⁻¹ n := by
  intro w hw t ht hwt
  obtain ⟨h1, h2⟩ := conj_inv hx hint hw
  have h3 := h w⁻¹ h2 t⁻¹ (by
    have : t⁻¹ * x ^ n = (t * x⁻¹ ^ n)⁻¹ := by rw [mul_inv, inv_pow, inv_inv]
    rw [this]
    exact inv_nonneg.mpr ht) (by rw [inv_pow, hwt]; push_cast; rfl)
  rw [inv_pow, ← h3, inv_inv]

/-- two negative numbers with the same power are equal -/
theorem pow_inj_neg {x y : ℝ} (hx : x < 0) (hy : y < 0) {n : ℕ} (hn : n ≠ 0) (h : y ^ n = x ^ n) : y = x := by
  have h1 : |y| ^ n = |x| ^ n := by rw [← abs_pow, ← abs_pow, h]
  have h2 := (pow_left_inj₀ (abs_nonneg y) (abs_nonneg x) hn).mp h1
  rw [abs_of_neg hx, abs_of_neg hy] at h2
  linarith

/-- for such a number the reciprocal taken for a negative exponent is right -/
theorem powBase_alone_neg (a : RealAlg) (x : ℝ) (h : a.Represents x) (hx : x < 0) (e : ℚ)
    (he : e ≠ 0) (hal : PowerAloneOfSign x e.num.natAbs) :
    ∀ fuel b, powBase fuel a e = .ok b → b.Represents (if e < 0 then x⁻¹ else x) := by
  have hn : e.num.natAbs ≠ 0 := by
    have : e.num ≠ 0 := by simpa using he
    omega
  unfold powBase
  by_cases h0 : e < 0
  · simp only [if_pos h0]
    have key : ∃ N, ∀ fuel ≥ N, ∃ b, a.checkedRecip fuel = .ok (some b) ∧ b.Represents x⁻¹ := by
      rcases h.rat_or_irr with ⟨q, hq, -⟩ | ⟨-, hirr⟩
      · subst hq
        refine ⟨0, fun fuel _ => ?_⟩
        exact (C40_recip_rational a q h fuel).2 (by intro h; rw [h] at hx; simp at hx)
      · refine C40_recip_one_sign_partial a x h hirr fun y hy hxy => ?_
        have hy0 : y < 0 := by nlinarith
        have h1 := hal y ((h.conj_iff _).mp ((aeval_realCast _ _).mpr hy)) (y ^ e.num.natAbs) (by
          rw [← mul_pow]
          exact pow_nonneg (by nlinarith) _) (by push_cast; rfl)
        exact pow_inj_neg hx hy0 hn h1
    obtain ⟨N, hN⟩ := key
    intro fuel b hb
    unfold RealAlg.recip at hb
    cases hc : a.checkedRecip fuel with
    | error s => rw [hc] at hb; cases hb
    | ok o =>
      rw [hc] at hb
      obtain ⟨b', h1, h2⟩ := hN (max N fuel) (le_max_left _ _)
      rw [checkedRecip_mono a fuel _ hc _ (le_max_right _ _)] at h1
      cases h1
      cases hb
      exact h2
  · simp only [if_neg h0]
    exact fun fuel b hb => by cases hb; exact h

/-- the interval with the sign put on -/
theorem powInterval_negated (ln2 : ℕ → DFI) (e : ℚ) (s : Shrinker) :
    powInterval ln2 e true s = (powInterval ln2 e false s).map DFI.neg := by
  unfold powInterval
  dsimp only
  generalize s.interval.abs = A
  by_cases hhi : A.hi = 0
  · rw [if_pos hhi, if_pos hhi]
    by_cases hlo : A.lo = 0
    · obtain ⟨l, h, n⟩ := A
      simp only at hhi hlo
      subst hhi hlo
      rfl
    · simp [hlo]
  · rw [if_neg hhi, if_neg hhi]
    simp only [if_true, Bool.false_eq_true, if_false, Option.bind_eq_bind, Option.pure_def]
    generalize (if decide (A.lo = 0) = true then A.setToUpperBound else A) = B
    cases B.log ln2 with
    | none => rfl
    | some L =>
      simp only [Option.bind_some]
      cases (L.mulRatio e).exp ln2 with
      | none => rfl
      | some E =>
        simp only [Option.bind_some]
        by_cases hlo : decide (A.lo = 0) = true
        · rw [if_pos hlo, if_pos hlo]
          cases E.setLowerBoundToZero <;> rfl
        · rw [if_neg hlo, if_neg hlo]
          rfl

/-- the interval lies on the side of zero of the power -/
theorem powInterval_sign (ln2 : ℕ → DFI) (hln2 : IsLn2 ln2) (e : ℚ) (s : Shrinker) (x : ℝ)
    (hx : s.interval.Contains x) (neg : Bool) (i : DFI) (h : powInterval ln2 e neg s = some i) :
    i.lo ≤ i.hi ∧ ∀ t : ℝ, i.Contains t → if neg then t ≤ 0 else 0 ≤ t := by
  have hpos : ∀ i : DFI, 0 ≤ i.lo → ∀ t : ℝ, i.Contains t → 0 ≤ t := fun i hi t ht => by
    have h3 : (0 : ℝ) ≤ i.lo := by exact_mod_cast hi
    exact le_trans (by positivity) ht.1
  cases neg
  · obtain ⟨h1, h2⟩ := powInterval_nonneg ln2 hln2 e s x hx i h
    exact ⟨h2, fun t ht => by simpa using hpos i h1 t ht⟩
  · rw [powInterval_negated, Option.map_eq_some_iff] at h
    obtain ⟨j, hj, rfl⟩ := h
    obtain ⟨h1, h2⟩ := powInterval_nonneg ln2 hln2 e s x hx j hj
    refine ⟨by simp only [DFI.neg]; omega, fun t ht => ?_⟩
    have h3 := hpos j h1 (-t) (by
      have := (C02_neg j.neg t).mp ht
      simpa [DFI.neg] using this)
    simpa using h3

/-- the resultant has one root on the side of zero of the power -/
theorem powRoot_alone_neg {b : RealAlg} {y : ℝ} (h : b.Represents y) (hy : y < 0) (e : ℚ) (he : e ≠ 0)
    (hd : e.den = 1) (hal : PowerAloneOfSign y e.num.natAbs) {R : Poly ℤ}
    (hR : ∀ z : ℂ, aeval z R.toPoly = 0 ↔ ∃ w : ℂ, aeval w b.poly.toPoly = 0 ∧
      z ^ e.den = w ^ e.num.natAbs) :
    (∀ t : ℝ, (if decide (e.num % 2 ≠ 0) then t ≤ 0 else 0 ≤ t) → aeval t R.toPoly = 0 → t = powValue y |e|) ∧
    aeval (powValue y |e|) R.toPoly = 0 := by
  have hv := powValue_pow y |e| (abs_pos.mpr he) (Or.inr ((abs_num_den e).1.trans hd))
  rw [(abs_num_den e).1, (abs_num_den e).2, hd, pow_one] at hv
  rw [hd] at hR
  constructor
  · intro t ht h0
    obtain ⟨w, h1, h2⟩ := (hR t).mp ((aeval_realCast _ _).mpr h0)
    rw [pow_one] at h2
    rw [hv]
    refine hal w ((h.conj_iff w).mp h1) t ?_ h2.symm
    by_cases hodd : e.num % 2 = 0
    · have hev : Even e.num.natAbs := Int.natAbs_even.mpr (Int.even_iff.mpr hodd)
      simp only [hodd, ne_eq, not_true, decide_false, Bool.false_eq_true, if_false] at ht
      exact mul_nonneg ht (hev.pow_nonneg y)
    · have hod : Odd e.num.natAbs := Int.natAbs_odd.mpr (Int.odd_iff.mpr (by omega))
      simp only [hodd, ne_eq, not_false_eq_true, decide_true, if_true] at ht
      exact mul_nonneg_of_nonpos_of_nonpos ht (hod.pow_neg hy).le
  · rw [← aeval_realCast, hR, hv]
    exact ⟨y, (aeval_realCast _ _).mpr h.root, by push_cast; rw [pow_one]⟩

/-- C47, in part: whatever `checked_pow` returns for an integer power of a negative number represents the power, if the
power stands alone on its side of zero; for any state of the cache of `log 2` and any fuel, and no assumption on what
`log` and `exp` compute. Missing: numbers with other conjugates; and the factoring of the resultant is assumed to be
right. -/
theorem _root_.Algebraics.C47_negative_sound_partial (ln2 : ℕ → ℕ → DFI) (hln2 : ∀ t, IsLn2 (ln2 t)) (F : FactorCall)
    (fuel : ℕ) (a : RealAlg) (x : ℝ) (h : a.Represents x) (hx : x < 0) (k : ℤ)
    (hal : PowerAloneOfSign x k.natAbs)
    (hF : ∀ b R, powBase fuel a k = .ok b → powResultant b.poly k.natAbs 1 = some R → FactorsRight F R)
    (c : RealAlg) (hc : a.checkedPow ln2 F fuel k = .ok (some c)) : c.Represents (x ^ k) := by
  classical
  rw [← powValue_int]
  have hden : (k : ℚ).den = 1 := by simp
  have hnum : (k : ℚ).num.natAbs = k.natAbs := by simp
  have hF' : ∀ b R, powBase fuel a k = .ok b → powResultant b.poly (k : ℚ).num.natAbs (k : ℚ).den = some R →
      FactorsRight F R := by rw [hden, hnum]; exact hF
  rw [← hnum] at hal
  clear hF
  generalize (k : ℚ) = e at *
  rcases checkedPow_cases ln2 F fuel a x h hx.ne e (Or.inr hden) with
    ⟨c', h1, h2⟩ | ⟨h1, -, h2⟩ | ⟨h0, -, h2⟩
  · rw [hc] at h1; cases h1; exact h2
  · have h3 := powBase_alone_neg a x h hx e (by rw [h1]; norm_num) hal fuel c (by
      unfold powBase RealAlg.recip
      rw [if_pos (by rw [h1]; norm_num), ← h2, hc]
      rfl)
    rw [if_pos (by rw [h1]; norm_num)] at h3
    rw [h1, show (-1 : ℚ) = ((-1 : ℤ) : ℚ) by simp, powValue_int, zpow_neg_one]
    exact h3
  · cases hb : powBase fuel a e with
    | error s =>
      exfalso
      rw [h2] at hc
      unfold powGeneral at hc
      unfold powBase at hb
      by_cases h3 : e < 0
      · rw [if_pos h3] at hb
        simp only [h3, decide_true, if_true, hb] at hc
        cases hc
      · rw [if_neg h3] at hb; cases hb
    | ok b =>
      have hbr := powBase_alone_neg a x h hx e h0 hal fuel b hb
      have hneg : (if e < 0 then x⁻¹ else x) < 0 := by split <;> [exact inv_lt_zero.mpr hx; exact hx]
      have hal' : PowerAloneOfSign (if e < 0 then x⁻¹ else x) e.num.natAbs := by
        split
        · exact hal.inv hx.ne h.isIntegral
        · exact hal
      rw [powValue_abs _ _ (Or.inr hden)]
      generalize (if e < 0 then x⁻¹ else x) = y at hbr hneg hal' ⊢
      obtain ⟨R, s, r1, r2, r3, r4, r5, r6⟩ := powGeneral_eq ln2 F fuel a b y e h0 hb hbr
        (decide (x < 0) && decide (e.num % 2 ≠ 0))
      rw [show decide (x < 0) = true by simp [hx], Bool.true_and] at h2 r6
      rw [h2, r6] at hc
      obtain ⟨r, hr1, hr2⟩ := hF' b R hb r1
      obtain ⟨hun, -⟩ := powRoot_alone_neg hbr hneg e h0 hden hal' r5
      cases hsel : selectRoot (powGetInterval ln2 |e| (decide (e.num % 2 ≠ 0))) powShrink F fuel (s, 0) R with
      | error x => rw [hsel] at hc; cases hc
      | ok c' =>
        rw [hsel] at hc
        cases hc
        have hin := powInterval_sign (ln2 0) (hln2 0) |e| s y r4.rep.mem (decide (e.num % 2 ≠ 0))
        exact selectRoot_sound F R r hr1 hr2 (s, 0) (fun i hi => (hin i hi).1)
          (fun i hi t ht ht0 => hun t ((hin i hi).2 t ht) ht0) fuel c hsel

/-- C47, in part: the same, and `checked_pow` returns in the first turn if the first interval that `log` and `exp`
compute holds the power. -/
theorem _root_.Algebraics.C47_negative_partial (ln2 : ℕ → ℕ → DFI) (hln2 : ∀ t, IsLn2 (ln2 t)) (F : FactorCall)
    (fuel : ℕ) (a b : RealAlg) (x : ℝ) (h : a.Represents x) (hx : x < 0) (k : ℤ)
    (hal : PowerAloneOfSign x k.natAbs) (hb : powBase (fuel + 1) a k = .ok b)
    (hF : ∀ R, powResultant b.poly k.natAbs 1 = some R → FactorsRight F R)
    (hi : ∀ s, b.intervalShrinker = .ok s →
      ∃ i, powInterval (ln2 0) |(k : ℚ)| (decide (k % 2 ≠ 0)) s = some i ∧ i.Contains (x ^ k)) :
    ∃ c, a.checkedPow ln2 F (fuel + 1) k = .ok (some c) ∧ c.Represents (x ^ k) := by
  classical
  rw [← powValue_int] at hi ⊢
  have hden : (k : ℚ).den = 1 := by simp
  have hnum : (k : ℚ).num.natAbs = k.natAbs := by simp
  have hF' : ∀ R, powResultant b.poly (k : ℚ).num.natAbs (k : ℚ).den = some R → FactorsRight F R := by
    rw [hden, hnum]; exact hF
  have hk : (k : ℚ).num = k := by simp
  rw [← hnum] at hal
  rw [show k % 2 = (k : ℚ).num % 2 by rw [hk]] at hi
  clear hF hk hnum
  generalize (k : ℚ) = e at *
  rcases checkedPow_cases ln2 F (fuel + 1) a x h hx.ne e (Or.inr hden) with
    h1 | ⟨h1, -, h2⟩ | ⟨h0, -, h2⟩
  · exact h1
  · have h3 := powBase_alone_neg a x h hx e (by rw [h1]; norm_num) hal _ b hb
    rw [if_pos (by rw [h1]; norm_num)] at h3
    have h4 : powValue x e = x⁻¹ := by
      rw [h1, show (-1 : ℚ) = ((-1 : ℤ) : ℚ) by simp, powValue_int, zpow_neg_one]
    rw [h4, h2]
    refine ⟨b, ?_, h3⟩
    unfold powBase at hb
    rw [if_pos (by rw [h1]; norm_num), (C40_recip_method a _).1] at hb
    exact hb
  · have hbr := powBase_alone_neg a x h hx e h0 hal _ b hb
    have hneg : (if e < 0 then x⁻¹ else x) < 0 := by split <;> [exact inv_lt_zero.mpr hx; exact hx]
    have hal' : PowerAloneOfSign (if e < 0 then x⁻¹ else x) e.num.natAbs := by
      split
      · exact hal.inv hx.ne h.isIntegral
      · exact hal
    rw [powValue_abs _ _ (Or.inr hden)] at hi ⊢
    generalize (if e < 0 then x⁻¹ else x) = y at hbr hneg hal' hi ⊢
    obtain ⟨R, s, r1, r2, r3, r4, r5, r6⟩ := powGeneral_eq ln2 F (fuel + 1) a b y e h0 hb hbr
      (decide (x < 0) && decide (e.num % 2 ≠ 0))
    rw [show decide (x < 0) = true by simp [hx], Bool.true_and] at h2 r6
    rw [h2, r6]
    obtain ⟨r, hr1, hr2⟩ := hF' R r1
    obtain ⟨hun, hv⟩ := powRoot_alone_neg hbr hneg e h0 hden hal' r5
    obtain ⟨i, hi1, hi2⟩ := hi s r3
    have hin := powInterval_sign (ln2 0) (hln2 0) |e| s y r4.rep.mem (decide (e.num % 2 ≠ 0)) i hi1
    obtain ⟨c, h3, h4⟩ := selectRoot_single (getInterval := powGetInterval ln2 |e| (decide (e.num % 2 ≠ 0)))
      (shrinkInterval := powShrink) F R r2 r hr1 hr2 hv (s, 0) hi1 hi2
      (fun t ht ht0 => hun t (hin.2 t ht) ht0) fuel
    rw [h3]
    exact ⟨c, rfl, h4⟩

theorem abs_of_lo_nonneg (l h : ℤ) (n : ℕ) (h0 : 0 ≤ l) (hlh : l ≤ h) : (⟨l, h, n⟩ : DFI).abs = ⟨l, h, n⟩ := by
  have e1 : (if l < 0 then -l else l) = l := if_neg (by omega)
  have e2 : (if h < 0 then -h else h) = h := if_neg (by omega)
  unfold DFI.abs DFI.containsZero
  dsimp only
  rw [e1, e2, if_neg (by omega : ¬ l > h)]
  by_cases hl : l = 0
  · subst hl; simp
  · simp [show 0 < l by omega]

theorem abs_of_hi_nonpos (l h : ℤ) (n : ℕ) (hlh : l ≤ h) (h0 : h ≤ 0) : (⟨l, h, n⟩ : DFI).abs = ⟨-h, -l, n⟩ := by
  have e1 : (if l < 0 then -l else l) = -l := by split_ifs <;> omega
  have e2 : (if h < 0 then -h else h) = -h := by split_ifs <;> omega
  unfold DFI.abs DFI.containsZero
  dsimp only
  rw [e1, e2]
  by_cases hl : h = 0
  · subst hl
    by_cases hl : l = 0
    · subst hl; simp
    · simp [show l < 0 by omega, show ¬ 0 < l by omega]
  · by_cases hl : l = h
    · subst hl; simp [show l < 0 by omega]
    · simp [show l < h by omega, show h < 0 by omega]

/-- the interval of a negative base with integer ends -/
theorem powInterval_int_neg (ln2 : ℕ → DFI) (hln2 : IsLn2 ln2) (k : ℕ) (hk : 0 < k) (s : Shrinker) (x : ℝ)
    (hx0 : x < 0) (hx : s.interval.Contains x) (hd : s.interval.log2Denom = 0) (hhi : s.interval.hi ≤ 0)
    (hM : (k : ℚ) * (Nat.log 2 (-s.interval.lo).toNat + 2) ≤ 16) :
    ∃ i, powInterval ln2 k (decide (k % 2 ≠ 0)) s = some i ∧ i.Contains (x ^ k) := by
  have ho : s.interval.lo ≤ s.interval.hi := hx.ordered
  have hneg : s.interval.neg.Contains (-x) := (C02_neg _ x).mp hx
  have habs : s.interval.neg.abs = s.interval.abs := by
    clear hneg hx hd hM
    generalize s.interval = i at *
    obtain ⟨l, h, n⟩ := i
    simp only at ho hhi
    rw [abs_of_hi_nonpos l h n ho hhi]
    exact abs_of_lo_nonneg (-h) (-l) n (by omega) (by omega)
  obtain ⟨i, h1, h2⟩ := powInterval_int ln2 hln2 k (by exact_mod_cast hk) { s with interval := s.interval.neg } (-x)
    (by linarith) hneg hd (by simp only [DFI.neg]; omega) hM
  have h3 : powInterval ln2 k false s = some i := by
    rw [← h1]
    unfold powInterval
    simp only [habs]
  rw [Rat.cast_natCast, Real.rpow_natCast] at h2
  by_cases hp : k % 2 = 0
  · simp only [hp, ne_eq, not_true, decide_false]
    refine ⟨i, h3, ?_⟩
    rwa [(Nat.even_iff.mpr hp).neg_pow] at h2
  · simp only [hp, ne_eq, not_false_eq_true, decide_true]
    refine ⟨i.neg, by rw [powInterval_negated, h3]; rfl, ?_⟩
    rw [(Nat.odd_iff.mpr (by omega)).neg_pow] at h2
    have := (C02_neg i _).mp h2
    rwa [neg_neg] at this

/-- C47, in part: positive integer powers of a negative number that is held with an interval with integer ends, for
`k * (log2 of the size of the lower end + 2) ≤ 16`, with the code's own factoring and fair random numbers, for numbers
that are algebraic integers, or nearly so. The power has to stand alone on its side of zero. `m` is the degree, the
coefficients have `g` bits. -/
theorem _root_.Algebraics.C47_negative_total_partial (ln2 : ℕ → ℕ → DFI) (hln2 : ∀ t, IsLn2 (ln2 t))
    (choose : ℕ → List ℕ → ℕ) (hc : Poly.HeapOrder choose) (rng : ℕ → ℕ) (hfair : Fair rng)
    (a : RealAlg) (x : ℝ) (h : a.Represents x) (hx : x < 0) (k : ℕ) (hk : 0 < k)
    (hal : PowerAloneOfSign x k) (hd : a.interval.log2Denom = 0) (hhi : a.interval.hi ≤ 0)
    (hM : k * (Nat.log 2 (-a.interval.lo).toNat + 2) ≤ 16)
    (hlead : |a.poly.toPoly.leadingCoeff| ^ k ≤ 4)
    (m g : ℕ) (hm : a.poly.toPoly.natDegree = m) (hg : ∀ i, |a.poly.toPoly.coeff i| < 2 ^ g)
    (hsize : m * (7 * m + k * (m + g) + 1) < 2 ^ 29) :
    ∃ M, ∀ ffuel ≥ M, ∀ fuel ≥ 1, ∃ c,
      a.checkedPow ln2 (factorCall choose rng ffuel) fuel k = .ok (some c) ∧ c.Represents (x ^ k) := by
  subst hm
  obtain ⟨M, hMM⟩ := factorCall_returns_option choose hc rng hfair
    (powResultant a.poly k 1) (fun R hR _ =>
      powResultant_moderate a.poly R k 1 g hk h.ne_zero hg (by rw [mul_one]; convert hsize using 2; ring) hR)
  refine ⟨M, fun ffuel hf fuel hfu => ?_⟩
  obtain ⟨n, rfl⟩ : ∃ n, fuel = n + 1 := ⟨fuel - 1, by omega⟩
  have key := C47_negative_partial ln2 hln2 (factorCall choose rng ffuel) n a a x h hx (k : ℤ)
    (by rw [Int.natAbs_natCast]; exact hal)
    (by unfold powBase; rw [if_neg (by simp)])
    (fun R hR => by
      rw [Int.natAbs_natCast] at hR
      refine factorCall_right choose hc rng ffuel R ?_
        (hMM ffuel hf R hR (powResultant_ne_zero _ R _ _ hk one_pos h.ne_zero hR))
      rw [powResultant_leading _ R _ _ hk one_pos h.ne_zero hR, abs_pow]
      exact hlead)
    (fun s hs => by
      obtain ⟨s', h3, -, h4⟩ := h.intervalShrinker
      rw [h3] at hs
      cases hs
      rw [Int.cast_natCast, abs_of_nonneg (by positivity), zpow_natCast,
        show decide ((k : ℤ) % 2 ≠ 0) = decide (k % 2 ≠ 0) by simp only [decide_eq_decide]; omega]
      exact powInterval_int_neg (ln2 0) (hln2 0) k hk s x hx (by rw [h4]; exact h.mem) (by rw [h4]; exact hd)
        (by rw [h4]; exact hhi) (by rw [h4]; exact_mod_cast hM))
  rw [Int.cast_natCast, zpow_natCast] at key
  exact key

/-! ## The theorems apply: `(-√2)^3` -/

/-- the powers of the negative roots of rational numbers -/
theorem PowerAloneOfSign.of_neg_root {x : ℝ} (hx : x < 0) (k : ℕ) (hk : 0 < k) (q : ℚ) (hq : x ^ k = q) (n : ℕ) :
    PowerAloneOfSign x n := by
  intro w hw t ht hwt
  have h1 : aeval x (X ^ k - C q) = 0 := by simp [hq]
  obtain ⟨g, hg⟩ := minpoly.dvd ℚ x h1
  have h2 : aeval w (X ^ k - C q) = 0 := by rw [hg, map_mul, hw, zero_mul]
  have h3 : w ^ k = q := by
    simp only [map_sub, map_pow, aeval_X, aeval_C, eq_ratCast] at h2
    exact sub_eq_zero.mp h2
  have h4 : (t : ℂ) ^ k = (x ^ n) ^ k := by
    rw [← hwt, ← pow_mul, mul_comm, pow_mul, h3, ← pow_mul, mul_comm n, pow_mul]
    rw [show ((x : ℂ) ^ k) = ((x ^ k : ℝ) : ℂ) by push_cast; rfl, hq]
    simp
  have h5 : t ^ k = (x ^ n) ^ k := by exact_mod_cast h4
  have h6 : |t| ^ k = |x ^ n| ^ k := by rw [← abs_pow, ← abs_pow, h5]
  have h7 := (pow_left_inj₀ (abs_nonneg t) (abs_nonneg _) hk.ne').mp h6
  have h8 : x ^ n ≠ 0 := pow_ne_zero _ hx.ne
  rcases abs_eq_abs.mp h7 with h9 | h9
  · exact h9
  · rw [h9] at ht
    have := mul_self_pos.mpr h8
    linarith

/-- `-√2`, with the isolating interval `[-2, -1]` -/
def negSqrtTwo : RealAlg := ⟨Poly.ofCoeffs [-2, 0, 1], ⟨-2, -1, 0⟩⟩

theorem negSqrtTwo_poly : negSqrtTwo.poly.toPoly = X ^ 2 + C 0 * X + C (-2) := toPoly_quadratic 0 (-2)

theorem negSqrtTwo_represents : negSqrtTwo.Represents (-√2) := by
  have hs : √2 ^ 2 = (2 : ℝ) := Real.sq_sqrt (by norm_num)
  have h0 : 0 ≤ √2 := Real.sqrt_nonneg 2
  have hp := negSqrtTwo_poly
  refine ⟨?_, ?_, ?_, ?_, ?_⟩
  · rw [hp]
    apply quadratic_irreducible
    intro n hn
    have h2 : n < 2 := by nlinarith
    have h3 : -2 < n := by nlinarith
    interval_cases n <;> omega
  · rw [hp, quadratic_natDegree]; omega
  · rw [hp, quadratic_aeval]; push_cast; nlinarith
  · simp only [DFI.Contains, negSqrtTwo]
    constructor <;> norm_num
  · intro y hy h1
    rw [hp, quadratic_aeval] at h1
    simp only [DFI.Contains, negSqrtTwo] at hy
    norm_num at hy h1
    nlinarith

example (ln2 : ℕ → ℕ → DFI) (hln2 : ∀ t, IsLn2 (ln2 t)) (rng : ℕ → ℕ) (hfair : Fair rng) :
    ∃ M, ∀ ffuel ≥ M, ∀ fuel ≥ 1, ∃ c,
      negSqrtTwo.checkedPow ln2 (factorCall firstSmallest rng ffuel) fuel (3 : ℕ) = .ok (some c) ∧
      c.Represents (-(2 * √2)) := by
  have hs : √2 ^ 2 = (2 : ℝ) := Real.sq_sqrt (by norm_num)
  have h0 : -√2 < 0 := neg_lt_zero.mpr (Real.sqrt_pos.mpr (by norm_num))
  have h := C47_negative_total_partial ln2 hln2 firstSmallest firstSmallest_order rng hfair negSqrtTwo
    _ negSqrtTwo_represents h0 3 (by norm_num)
    (PowerAloneOfSign.of_neg_root h0 2 (by norm_num) 2 (by rw [neg_sq, hs]; norm_num) _) rfl
    (by norm_num [negSqrtTwo])
    (by rw [show Nat.log 2 (-negSqrtTwo.interval.lo).toNat = 1 by decide +kernel]; norm_num)
    (by
      rw [show negSqrtTwo.poly.toPoly.leadingCoeff = 1 by
        rw [negSqrtTwo_poly]; unfold leadingCoeff; rw [quadratic_natDegree]; simp]
      simp) 2 2
    (by rw [negSqrtTwo_poly, quadratic_natDegree])
    (fun i => by
      rw [negSqrtTwo_poly]
      simp only [coeff_add, coeff_C_mul, coeff_X_pow, coeff_X, coeff_C]
      split_ifs <;> norm_num)
    (by norm_num)
  rw [show (-√2) ^ 3 = -(2 * √2) by
    have h3 : √2 ^ 3 = 2 * √2 := by rw [pow_succ, hs]
    rw [Odd.neg_pow (by decide), h3]] at h
  exact h

end RealAlg

end Algebraics
