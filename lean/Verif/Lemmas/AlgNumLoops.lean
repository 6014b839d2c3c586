import Verif.Lemmas.AlgNumBasic
import Verif.Props.Interval
import Verif.Lemmas.Traits
import Mathlib.Algebra.Polynomial.Reverse
import Mathlib.Analysis.SpecificLimits.Basic
import Mathlib.Analysis.SpecialFunctions.Log.Base

/-!
# Lemmas for algebraic numbers: the loops that shrink an interval
-/

namespace Algebraics

open Polynomial

theorem exists_pow_small (w δ : ℝ) (hδ : 0 < δ) : ∃ n : ℕ, (17 / 32 : ℝ) ^ n * w < δ := by
  rcases le_or_gt w 0 with h | h
  · exact ⟨0, by simp; linarith⟩
  · obtain ⟨n, hn⟩ := exists_pow_lt_of_lt_one (div_pos hδ h) (show (17 / 32 : ℝ) < 1 by norm_num)
    exact ⟨n, by rwa [lt_div_iff₀ h] at hn⟩

namespace Shrinker

/-- a loop that stops on small intervals ends, and what holds for its turns holds for it -/
theorem Valid.loop {p : Poly ℤ} {x : ℝ} {motive : Shrinker → ℕ → Prop} {δ : ℝ} (hδ : 0 < δ)
    (hsmall : ∀ s : Shrinker, s.Valid p x → (s.interval.width : ℝ) < δ → ∀ fuel, motive s (fuel + 1))
    (hstep : ∀ (s : Shrinker) (fuel : ℕ), s.Valid p x →
      (∀ t r, s.shrink = some (t, r) → Step p x s t → motive t fuel) → motive s (fuel + 1))
    (s : Shrinker) (hs : s.Valid p x) : ∃ N, ∀ fuel ≥ N, motive s fuel := by
  have key : ∀ n : ℕ, ∀ s : Shrinker, s.Valid p x →
      (17 / 32 : ℝ) ^ n * (s.interval.width : ℝ) < δ → ∀ fuel ≥ n + 1, motive s fuel := by
    intro n
    induction n with
    | zero =>
      intro s hs hw fuel hf
      obtain ⟨k, rfl⟩ : ∃ k, fuel = k + 1 := ⟨fuel - 1, by omega⟩
      exact hsmall s hs (by simpa using hw) k
    | succ n ih =>
      intro s hs hw fuel hf
      obtain ⟨k, rfl⟩ : ∃ k, fuel = k + 1 := ⟨fuel - 1, by omega⟩
      refine hstep s k hs fun t r _ ht => ih t ht.valid ?_ k (by omega)
      have h1 : (t.interval.width : ℝ) ≤ 17 / 32 * (s.interval.width : ℝ) := by
        have h2 : ((t.interval.width : ℚ) : ℝ) ≤ ((17 / 32 * s.interval.width : ℚ) : ℝ) :=
          Rat.cast_le.mpr ht.width
        push_cast at h2
        exact h2
      refine lt_of_le_of_lt ?_ hw
      rw [pow_succ, mul_assoc]
      exact mul_le_mul_of_nonneg_left h1 (by positivity)
  obtain ⟨n, hn⟩ := exists_pow_small (s.interval.width : ℝ) δ hδ
  exact ⟨n + 1, key n s hs hn⟩

end Shrinker

theorem DFI.width_real (a : DFI) : (a.width : ℝ) = a.upperBound - a.lowerBound := by
  rw [DFI.width_eq]; push_cast; rfl

namespace RealAlg

variable {a : RealAlg} {x : ℝ}

theorem Represents.intervalShrinker (h : a.Represents x) :
    ∃ s, a.intervalShrinker = .ok s ∧ s.Valid a.poly x ∧ s.interval = a.interval := by
  obtain ⟨l, h1, -⟩ := sturm_counts a.poly h.ne_zero
  unfold RealAlg.intervalShrinker Shrinker.new
  rw [h1]
  exact ⟨⟨l, a.interval, none, none⟩, rfl,
    ⟨h1, h, fun c hc => by simp at hc, fun c hc => by simp at hc⟩, rfl⟩

/-! ## Floor -/

theorem floor_ends (i : DFI) :
    (i.floor 0).lo = ⌊(i.lowerBound : ℝ)⌋ ∧ (i.floor 0).hi = ⌊(i.upperBound : ℝ)⌋ := by
  obtain ⟨h1, h2, -⟩ := C10_floor_ceil_tight i 0
  rw [DFI.lowerBound_real, DFI.upperBound_real]
  simp only [pow_zero, div_one] at h1 h2
  exact ⟨by exact_mod_cast h1, by exact_mod_cast h2⟩

theorem floorLoop_spec {p : Poly ℤ} (hx : Irrational x) (s : Shrinker) (hs : s.Valid p x) :
    ∃ N, ∀ fuel ≥ N, ∃ t, floorLoop fuel s = .ok (⌊x⌋, t) ∧ t.Valid p x ∧
      s.interval.lowerBound ≤ t.interval.lowerBound ∧
      t.interval.upperBound ≤ s.interval.upperBound := by
  have hfl : ((⌊x⌋ : ℤ) : ℝ) < x := lt_of_le_of_ne (Int.floor_le x) fun e => hx ⟨⌊x⌋, by
    push_cast; exact e⟩
  have hfu : x < ⌊x⌋ + 1 := Int.lt_floor_add_one x
  refine Shrinker.Valid.loop (p := p) (x := x) (δ := min (x - ⌊x⌋) (⌊x⌋ + 1 - x))
    (motive := fun s fuel => ∃ t, floorLoop fuel s = .ok (⌊x⌋, t) ∧ t.Valid p x ∧
      s.interval.lowerBound ≤ t.interval.lowerBound ∧
      t.interval.upperBound ≤ s.interval.upperBound)
    (lt_min (by linarith) (by linarith)) ?_ ?_ s hs
  · intro s hs hw fuel
    have h1 := hs.rep.lower_le
    have h2 := hs.rep.le_upper
    simp only at h1 h2
    rw [DFI.width_real] at hw
    have h3 := lt_of_lt_of_le hw (min_le_left _ _)
    have h4 := lt_of_lt_of_le hw (min_le_right _ _)
    unfold floorLoop
    simp only
    have e1 : (s.interval.floor 0).lo = ⌊x⌋ := by
      rw [(floor_ends _).1, Int.floor_eq_iff]
      constructor <;> linarith
    have e2 : (s.interval.floor 0).hi = ⌊x⌋ := by
      rw [(floor_ends _).2, Int.floor_eq_iff]
      constructor <;> linarith
    rw [if_pos (by rw [e1, e2]), e1]
    exact ⟨s, rfl, hs, le_rfl, le_rfl⟩
  · intro s fuel hs ih
    unfold floorLoop
    simp only
    by_cases hst : (s.interval.floor 0).lo = (s.interval.floor 0).hi
    · rw [if_pos hst]
      have h1 := Int.floor_le_floor hs.rep.lower_le
      have h2 := Int.floor_le_floor hs.rep.le_upper
      simp only at h1 h2
      rw [← (floor_ends _).1] at h1
      rw [← (floor_ends _).2] at h2
      have : (s.interval.floor 0).lo = ⌊x⌋ := by omega
      rw [this]
      exact ⟨s, rfl, hs, le_rfl, le_rfl⟩
    · rw [if_neg hst]
      obtain ⟨t, r, h1, h2⟩ := hs.shrink
      obtain ⟨u, h3, h4, h5, h6⟩ := ih t r h1 h2
      rw [h1]
      exact ⟨u, h3, h4, h2.lower.trans h5, h6.trans h2.upper⟩

theorem Represents.integerFloor (h : a.Represents x) :
    ∃ N, ∀ fuel ≥ N, a.integerFloor fuel = .ok ⌊x⌋ := by
  rcases h.rat_or_irr with ⟨q, rfl, -⟩ | ⟨hd, hx⟩
  · refine ⟨0, fun fuel _ => ?_⟩
    unfold RealAlg.integerFloor
    rw [h.toRational_rat]
    simp [bind, Except.bind, pure, Except.pure]
  · obtain ⟨s, h1, h2, -⟩ := h.intervalShrinker
    obtain ⟨N, hN⟩ := floorLoop_spec hx s h2
    refine ⟨N, fun fuel hf => ?_⟩
    obtain ⟨t, h3, -⟩ := hN fuel hf
    unfold RealAlg.integerFloor
    rw [h.toRational_irr hx, h1]
    simp [bind, Except.bind, pure, Except.pure, h3]

theorem Represents.floor (h : a.Represents x) :
    ∃ N, ∀ fuel ≥ N, ∃ b, a.floor fuel = .ok b ∧ b.Represents ⌊x⌋ := by
  obtain ⟨N, hN⟩ := h.integerFloor
  refine ⟨N, fun fuel hf => ⟨ofInt ⌊x⌋, ?_, ofInt_represents _⟩⟩
  unfold RealAlg.floor
  rw [hN fuel hf]
  rfl

theorem Represents.integerCeil (h : a.Represents x) :
    ∃ N, ∀ fuel ≥ N, a.integerCeil fuel = .ok ⌈x⌉ := by
  obtain ⟨b, h1, h2, -⟩ := h.neg
  obtain ⟨N, hN⟩ := h2.integerFloor
  refine ⟨N, fun fuel hf => ?_⟩
  unfold RealAlg.integerCeil
  rw [h1]
  simp only [bind, Except.bind, pure, Except.pure]
  rw [hN fuel hf, Int.floor_neg]
  simp

theorem Represents.ceil (h : a.Represents x) :
    ∃ N, ∀ fuel ≥ N, ∃ b, a.ceil fuel = .ok b ∧ b.Represents ⌈x⌉ := by
  obtain ⟨b, h1, h2, -⟩ := h.neg
  obtain ⟨N, hN⟩ := h2.floor
  refine ⟨N, fun fuel hf => ?_⟩
  obtain ⟨c, h3, h4⟩ := hN fuel hf
  obtain ⟨d, h5, h6, -⟩ := h4.neg
  refine ⟨d, ?_, by simpa [Int.floor_neg] using h6⟩
  unfold RealAlg.ceil
  rw [h1]
  simp only [bind, Except.bind]
  rw [h3]
  exact h5

/-- truncation towards zero -/
theorem Represents.integerTrunc (h : a.Represents x) :
    ∃ N, ∀ fuel ≥ N, a.integerTrunc fuel = .ok (if 0 ≤ x then ⌊x⌋ else ⌈x⌉) := by
  obtain ⟨N, hN⟩ := h.integerFloor
  obtain ⟨M, hM⟩ := h.integerCeil
  refine ⟨max N M, fun fuel hf => ?_⟩
  unfold RealAlg.integerTrunc
  rcases h.cmpWithZero with ⟨h1, h2⟩ | ⟨h1, h2⟩ | ⟨h1, h2⟩
  · rw [h1, if_neg (not_le.mpr h2)]
    exact hM fuel (le_trans (le_max_right _ _) hf)
  · rw [h1, h2, if_pos le_rfl]
    simp [bind, Except.bind, pure, Except.pure]
  · rw [h1, if_pos h2.le]
    exact hN fuel (le_trans (le_max_left _ _) hf)

theorem Represents.trunc (h : a.Represents x) :
    ∃ N, ∀ fuel ≥ N, ∃ b, a.trunc fuel = .ok b ∧
      b.Represents ((if 0 ≤ x then ⌊x⌋ else ⌈x⌉ : ℤ) : ℝ) := by
  obtain ⟨N, hN⟩ := h.integerTrunc
  refine ⟨N, fun fuel hf => ⟨ofInt _, ?_, ofInt_represents _⟩⟩
  unfold RealAlg.trunc
  rw [hN fuel hf]
  rfl

/-! ## Removing zero from the interval -/

theorem removeZeroLoop_spec {p : Poly ℤ} (hx : x ≠ 0) (s : Shrinker) (hs : s.Valid p x) :
    ∃ N, ∀ fuel ≥ N, ∃ t, removeZeroLoop fuel s = .ok t ∧ t.Valid p x ∧
      t.interval.containsZero = false ∧ s.interval.lowerBound ≤ t.interval.lowerBound ∧
      t.interval.upperBound ≤ s.interval.upperBound := by
  refine Shrinker.Valid.loop (p := p) (x := x) (δ := |x|)
    (motive := fun s fuel => ∃ t, removeZeroLoop fuel s = .ok t ∧ t.Valid p x ∧
      t.interval.containsZero = false ∧ s.interval.lowerBound ≤ t.interval.lowerBound ∧
      t.interval.upperBound ≤ s.interval.upperBound) (abs_pos.mpr hx) ?_ ?_ s hs
  · intro s hs hw fuel
    have h1 := hs.rep.lower_le
    have h2 := hs.rep.le_upper
    simp only at h1 h2
    rw [DFI.width_real] at hw
    have hz : s.interval.containsZero = false := by
      rw [Bool.eq_false_iff, Ne, DFI.containsZero_iff, DFI.contains_iff_bounds]
      rintro ⟨h3, h4⟩
      rcases abs_cases x with ⟨h5, -⟩ | ⟨h5, -⟩ <;> linarith
    unfold removeZeroLoop
    rw [if_neg (by rw [hz]; simp)]
    exact ⟨s, rfl, hs, hz, le_rfl, le_rfl⟩
  · intro s fuel hs ih
    unfold removeZeroLoop
    by_cases hz : s.interval.containsZero = true
    · rw [if_pos hz]
      obtain ⟨t, r, h1, h2⟩ := hs.shrink
      obtain ⟨u, h3, h4, h5, h6, h7⟩ := ih t r h1 h2
      rw [h1]
      exact ⟨u, h3, h4, h5, h2.lower.trans h6, h7.trans h2.upper⟩
    · rw [if_neg hz]
      exact ⟨s, rfl, hs, by simpa using hz, le_rfl, le_rfl⟩

theorem DFI.lo_neg_of {i : DFI} (h : i.Contains x) (hx : x < 0) : i.lo < 0 := by
  by_contra h0
  have : (0 : ℝ) ≤ i.lo := by exact_mod_cast not_lt.mp h0
  have := h.1
  have : (0 : ℝ) ≤ (i.lo : ℝ) / 2 ^ i.log2Denom := by positivity
  linarith

theorem DFI.hi_pos_of {i : DFI} (h : i.Contains x) (hx : 0 < x) : 0 < i.hi := by
  by_contra h0
  have h1 : (i.hi : ℝ) ≤ 0 := by exact_mod_cast not_lt.mp h0
  have h2 := h.2
  have : (i.hi : ℝ) / 2 ^ i.log2Denom ≤ 0 := div_nonpos_of_nonpos_of_nonneg h1 (by positivity)
  linarith

theorem clipToSign_spec {i : DFI} (h : i.Contains x) (hx : x ≠ 0) :
    ∃ j, clipToSign (decide (x < 0)) i = some j ∧ j.Contains x ∧ j.Within i := by
  unfold clipToSign
  rcases lt_or_gt_of_ne hx with h0 | h0
  · simp only [h0, decide_true, if_true]
    by_cases hh : 0 < i.hi
    · rw [if_pos hh]
      unfold DFI.setUpperBoundToZero
      rw [if_pos (DFI.lo_neg_of h h0).le]
      refine ⟨_, rfl, ⟨h.1, by simpa using h0.le⟩, ?_⟩
      intro y hy
      refine ⟨hy.1, le_trans hy.2 ?_⟩
      have : (0 : ℝ) < i.hi := by exact_mod_cast hh
      simp only [Int.cast_zero, zero_div]
      positivity
    · rw [if_neg hh]
      exact ⟨i, rfl, h, fun y hy => hy⟩
  · simp only [not_lt.mpr h0.le, decide_false, Bool.false_eq_true, if_false]
    by_cases hl : i.lo < 0
    · rw [if_pos hl]
      unfold DFI.setLowerBoundToZero
      rw [if_pos (DFI.hi_pos_of h h0).le]
      refine ⟨_, rfl, ⟨by simpa using h0.le, h.2⟩, ?_⟩
      intro y hy
      refine ⟨le_trans ?_ hy.1, hy.2⟩
      have : (i.lo : ℝ) < 0 := by exact_mod_cast hl
      simp only [Int.cast_zero, zero_div]
      exact div_nonpos_of_nonpos_of_nonneg this.le (by positivity)
    · rw [if_neg hl]
      exact ⟨i, rfl, h, fun y hy => hy⟩

theorem Represents.removeZero (h : a.Represents x) (hx : x ≠ 0) :
    ∃ N, ∀ fuel ≥ N, ∃ s, a.removeZeroFromInterval fuel = .ok (some s) ∧ s.Valid a.poly x ∧
      s.interval.containsZero = false := by
  obtain ⟨j, h1, h2, h3⟩ := clipToSign_spec h.mem hx
  have hr := h.within h3 h2
  obtain ⟨s, h4, h5, -⟩ := hr.intervalShrinker
  obtain ⟨N, hN⟩ := removeZeroLoop_spec hx s h5
  refine ⟨N, fun fuel hf => ?_⟩
  obtain ⟨t, h6, h7, h8, -⟩ := hN fuel hf
  refine ⟨t, ?_, h7, h8⟩
  unfold RealAlg.removeZeroFromInterval
  rcases h.cmpWithZero with ⟨e1, e2⟩ | ⟨e1, e2⟩ | ⟨e1, e2⟩
  · rw [e1]
    simp only [e2, decide_true] at h1
    simp [bind, Except.bind, pure, Except.pure, h1, orPanic, h4, h6]
  · exact absurd e2 hx
  · rw [e1]
    simp only [not_lt.mpr e2.le, decide_false] at h1
    simp [bind, Except.bind, pure, Except.pure, h1, orPanic, h4, h6]

/-! ## Reciprocal -/

theorem reverse_reverse_of_ne {p : ℤ[X]} (h0 : p.coeff 0 ≠ 0) : p.reverse.reverse = p := by
  have h1 : p.natTrailingDegree = 0 := natTrailingDegree_eq_zero.mpr (Or.inr h0)
  have h2 : p.reverse.natDegree = p.natDegree := by rw [reverse_natDegree, h1, Nat.sub_zero]
  rw [reverse, h2, reverse, reflect_reflect]

theorem reverse_irreducible {p : ℤ[X]} (hp : Irreducible p) (h0 : p.coeff 0 ≠ 0) :
    Irreducible p.reverse := by
  have hlead : p.reverse.coeff 0 ≠ 0 := by
    rw [coeff_zero_reverse]; exact leadingCoeff_ne_zero.mpr hp.ne_zero
  have hunit : ∀ f : ℤ[X], f.coeff 0 ≠ 0 → IsUnit f.reverse → IsUnit f := by
    intro f hf hu
    obtain ⟨c, hc, hc'⟩ := isUnit_iff.mp hu
    rw [← reverse_reverse_of_ne hf, ← hc', reverse_C]
    exact isUnit_C.mpr hc
  refine ⟨fun hu => hp.not_isUnit (hunit p h0 hu), fun f g hfg => ?_⟩
  have hf : f.coeff 0 ≠ 0 := by
    intro e; apply hlead; rw [hfg, mul_coeff_zero, e, zero_mul]
  have hg : g.coeff 0 ≠ 0 := by
    intro e; apply hlead; rw [hfg, mul_coeff_zero, e, mul_zero]
  have h1 : p = f.reverse * g.reverse := by
    rw [← reverse_mul_of_domain, ← hfg, reverse_reverse_of_ne h0]
  rcases hp.isUnit_or_isUnit h1 with h | h
  · exact Or.inl (hunit f hf h)
  · exact Or.inr (hunit g hg h)

theorem toPoly_reverse (p : Poly ℤ) (hp : p.toPoly ≠ 0) :
    (Poly.ofCoeffs p.coeffs.reverse : Poly ℤ).toPoly = p.toPoly.reverse := by
  have hl : p.coeffs.length = p.toPoly.natDegree + 1 := by
    rw [← Poly.len_eq, Poly.len_of_ne p hp]
  ext i
  rw [Poly.toPoly_ofCoeffs, listPoly_coeff, coeff_reverse]
  rcases le_or_gt i p.toPoly.natDegree with h | h
  · rw [revAt_le h]
    conv_rhs => rw [Poly.toPoly, listPoly_coeff]
    rw [List.getD_eq_getElem?_getD, List.getElem?_reverse (by omega), hl,
      List.getD_eq_getElem?_getD]
    congr 2
  · rw [revAt_eq_self_of_lt h, coeff_eq_zero_of_natDegree_lt h, List.getD_eq_getElem?_getD,
      List.getElem?_eq_none (by simp; omega)]
    rfl

theorem aeval_reverse {p : ℤ[X]} {y : ℝ} (hy : y ≠ 0) :
    aeval y⁻¹ p.reverse = 0 ↔ aeval y p = 0 := by
  let _ := invertibleOfNonzero hy
  have := eval₂_reverse_eq_zero_iff (algebraMap ℤ ℝ) y p
  rw [invOf_eq_inv] at this
  exact this

theorem recip_sign {i r : DFI} (hr : i.checkedRecip = some r) (ho : i.lo ≤ i.hi) :
    (0 < i.lo → 0 ≤ r.lo) ∧ (i.hi < 0 → r.hi ≤ 0) := by
  unfold DFI.checkedRecip at hr
  split at hr
  · simp at hr
  · simp only [Option.some.injEq] at hr
    subst hr
    have hd : (0:Int) ≤ shl 1 (2 * i.log2Denom) := by unfold shl; positivity
    refine ⟨fun h => ?_, fun h => ?_⟩
    · simp only; exact Int.fdiv_nonneg hd (by omega)
    · have h1 := DFI.divCeil_lt_real (shl 1 (2 * i.log2Denom)) i.lo (by omega)
      have h2 : ((shl 1 (2 * i.log2Denom) : Int) : ℝ) / i.lo ≤ 0 :=
        div_nonpos_of_nonneg_of_nonpos (by exact_mod_cast hd) (by exact_mod_cast (by omega : i.lo ≤ 0))
      have h3 : ((DFI.divCeil (shl 1 (2 * i.log2Denom)) i.lo : Int) : ℝ) < 1 := by linarith
      have h4 : DFI.divCeil (shl 1 (2 * i.log2Denom)) i.lo < 1 := by exact_mod_cast h3
      simp only; omega

/-- everything about the reciprocal of an irrational number except that the rounded interval
isolates it -/
theorem Represents.checkedRecip_irr (h : a.Represents x) (hx : Irrational x) :
    ∃ N, ∀ fuel ≥ N, ∃ b, a.checkedRecip fuel = .ok (some b) ∧ Irreducible b.poly.toPoly ∧
      b.poly.toPoly = a.poly.toPoly.reverse ∧
      b.poly.toPoly.natDegree = a.poly.toPoly.natDegree ∧ aeval x⁻¹ b.poly.toPoly = 0 ∧
      b.interval.Contains x⁻¹ ∧ (0 < x → 0 ≤ b.interval.lo) ∧ (x < 0 → b.interval.hi ≤ 0) := by
  have hx0 : x ≠ 0 := fun e => hx ⟨0, by simp [e]⟩
  obtain ⟨N, hN⟩ := h.removeZero hx0
  rcases h.rat_or_irr with ⟨q, hq, -⟩ | ⟨hd, -⟩
  · exact absurd ⟨q, hq⟩ hx
  have h0 : a.poly.toPoly.coeff 0 ≠ 0 := by
    intro e
    apply h.no_rat_root hd 0
    rw [aeval_def, eval₂_at_zero, e]; simp
  refine ⟨N, fun fuel hf => ?_⟩
  obtain ⟨s, h1, h2, h3⟩ := hN fuel hf
  obtain ⟨r, hr⟩ : ∃ r, s.interval.checkedRecip = some r := by
    cases hr : s.interval.checkedRecip with
    | none =>
      rw [DFI.checkedRecip_eq_none_iff, ← DFI.containsZero_iff, h3] at hr
      simp at hr
    | some r => exact ⟨r, rfl⟩
  have hz : ¬ (s.interval.lo ≤ 0 ∧ 0 ≤ s.interval.hi) := by
    unfold DFI.containsZero at h3
    rintro ⟨e1, e2⟩
    simp [not_lt.mpr e1, not_lt.mpr e2] at h3
  refine ⟨⟨Poly.ofCoeffs a.poly.coeffs.reverse, r⟩, ?_, ?_, ?_, ?_, ?_, ?_, ?_, ?_⟩
  · unfold RealAlg.checkedRecip
    rw [h.toRational_irr hx]
    simp [bind, Except.bind, pure, Except.pure, h1, orPanic, hr]
  · rw [toPoly_reverse _ h.ne_zero]
    exact reverse_irreducible h.irreducible h0
  · exact toPoly_reverse _ h.ne_zero
  · rw [toPoly_reverse _ h.ne_zero, reverse_natDegree, natTrailingDegree_eq_zero.mpr (Or.inr h0),
      Nat.sub_zero]
  · rw [toPoly_reverse _ h.ne_zero, aeval_reverse hx0]
    exact h.root
  · have := DFI.contains_recip h2.rep.mem hr
    simpa using this
  · intro hp
    have := DFI.hi_pos_of h2.rep.mem hp
    simp only at this
    exact (recip_sign hr h2.rep.lo_le_hi).1 (by omega)
  · intro hp
    have := DFI.lo_neg_of h2.rep.mem hp
    simp only at this
    exact (recip_sign hr h2.rep.lo_le_hi).2 (by omega)

theorem Represents.checkedRecip_rat {q : ℚ} (h : a.Represents q) (fuel : ℕ) :
    a.checkedRecip fuel = .ok (if q = 0 then none else some (ofRat q⁻¹)) := by
  unfold RealAlg.checkedRecip
  rw [h.toRational_rat]
  rfl

/-! ## Binary logarithm -/

theorem zpow_two_unique {y : ℝ} {k l : ℤ} (h1 : (2 : ℝ) ^ k ≤ y) (h2 : y < 2 ^ (k + 1))
    (h3 : (2 : ℝ) ^ l ≤ y) (h4 : y < 2 ^ (l + 1)) : k = l := by
  have a1 : (2 : ℝ) ^ k < 2 ^ (l + 1) := lt_of_le_of_lt h1 h4
  have a2 : (2 : ℝ) ^ l < 2 ^ (k + 1) := lt_of_le_of_lt h3 h2
  rw [zpow_lt_zpow_iff_right₀ (by norm_num)] at a1 a2
  omega

theorem zpow_two_unique' {y : ℝ} {k l : ℤ} (h1 : (2 : ℝ) ^ (k - 1) < y) (h2 : y ≤ 2 ^ k)
    (h3 : (2 : ℝ) ^ (l - 1) < y) (h4 : y ≤ 2 ^ l) : k = l := by
  have a1 : (2 : ℝ) ^ (k - 1) < 2 ^ l := lt_of_lt_of_le h1 h4
  have a2 : (2 : ℝ) ^ (l - 1) < 2 ^ k := lt_of_lt_of_le h3 h2
  rw [zpow_lt_zpow_iff_right₀ (by norm_num)] at a1 a2
  omega

theorem lowerBound_pos_iff (i : DFI) : 0 < i.lowerBound ↔ 0 < i.lo := by
  unfold DFI.lowerBound
  have h : (0 : ℚ) < (shl 1 i.log2Denom : ℤ) := by simp [shl]
  rw [div_pos_iff_of_pos_right h]
  exact_mod_cast Iff.rfl

/-- the loop for both logarithms: `good l y` says that `l` is the answer for `y` -/
theorem log2Loop_spec {p : Poly ℤ} {bounds : DFI → Option (ℤ × ℤ)} {good : ℤ → ℝ → Prop}
    (hb : ∀ i : DFI, 0 < i.lo → i.lo ≤ i.hi → ∃ l h, bounds i = some (l, h) ∧
      good l i.lowerBound ∧ good h i.upperBound)
    (hu : ∀ k l y, good k y → good l y → k = l)
    (hconv : ∀ k (y z w : ℝ), good k y → good k w → y ≤ z → z ≤ w → good k z)
    {k : ℤ} {δ : ℝ} (hδ : 0 < δ) (hk : ∀ y : ℝ, |y - x| < δ → good k y)
    (s : Shrinker) (hs : s.Valid p x) :
    ∃ N, ∀ fuel ≥ N, 0 < s.interval.lo → ∃ r, log2Loop bounds fuel s = .ok r ∧ good r x := by
  refine Shrinker.Valid.loop (p := p) (x := x) (δ := δ)
    (motive := fun s fuel => 0 < s.interval.lo → ∃ r, log2Loop bounds fuel s = .ok r ∧ good r x)
    hδ ?_ ?_ s hs
  · intro s hs hw fuel hpos
    obtain ⟨l, h, h1, h2, h3⟩ := hb s.interval hpos hs.rep.lo_le_hi
    have a1 := hs.rep.lower_le
    have a2 := hs.rep.le_upper
    simp only at a1 a2
    rw [DFI.width_real] at hw
    have e1 : l = k := hu _ _ _ h2 (hk _ (by rw [abs_lt]; constructor <;> linarith))
    have e2 : h = k := hu _ _ _ h3 (hk _ (by rw [abs_lt]; constructor <;> linarith))
    unfold log2Loop
    rw [h1]
    simp only
    rw [if_pos (by rw [e1, e2])]
    exact ⟨l, rfl, hconv l _ _ _ h2 (by rw [e1, ← e2]; exact h3) a1 a2⟩
  · intro s fuel hs ih hpos
    obtain ⟨l, h, h1, h2, h3⟩ := hb s.interval hpos hs.rep.lo_le_hi
    have a1 := hs.rep.lower_le
    have a2 := hs.rep.le_upper
    unfold log2Loop
    rw [h1]
    simp only
    by_cases hlh : l = h
    · rw [if_pos hlh]
      exact ⟨l, rfl, hconv l _ _ _ h2 (by rw [hlh]; exact h3) a1 a2⟩
    · rw [if_neg hlh]
      obtain ⟨t, r, h4, h5⟩ := hs.shrink
      rw [h4]
      refine ih t r h4 h5 ?_
      rw [← lowerBound_pos_iff] at hpos ⊢
      exact lt_of_lt_of_le hpos h5.lower

/-- `to_integer_log2`: the exponent of a power of two, `None` for all other positive numbers -/
theorem Represents.toIntegerLog2 (h : a.Represents x) (hx : 0 < x) :
    (∃ k : ℤ, a.toIntegerLog2 = .ok (some k) ∧ x = 2 ^ k) ∨
      (a.toIntegerLog2 = .ok none ∧ ∀ k : ℤ, x ≠ 2 ^ k) := by
  have hpow : ∀ (n : ℤ) (r c : ℕ), floorLog2 n = some r → ceilLog2 n = some c →
      (r = c ↔ ∃ k : ℕ, n = 2 ^ k) ∧ (r = c → n = 2 ^ r) := by
    intro n r c hr hc
    rw [floorLog2_spec] at hr
    rw [ceilLog2_spec] at hc
    have h1 : r = c → n = 2 ^ r := by
      rintro rfl
      exact le_antisymm hc.2.1 hr.1
    refine ⟨⟨fun e => ⟨r, h1 e⟩, ?_⟩, h1⟩
    rintro ⟨k, rfl⟩
    have e1 : c ≤ k := hc.2.2 k le_rfl
    have e2 : (2 : ℤ) ^ k ≤ 2 ^ c := hc.2.1
    have e3 := hr.1
    have e4 := hr.2
    rw [pow_le_pow_iff_right₀ (by norm_num)] at e2 e3
    rw [pow_lt_pow_iff_right₀ (by norm_num)] at e4
    omega
  have hsome : ∀ n : ℤ, 0 < n → ∃ r c : ℕ, floorLog2 n = some r ∧ ceilLog2 n = some c := by
    intro n hn
    unfold floorLog2 ceilLog2
    rw [if_pos hn, if_pos hn]
    exact ⟨_, _, rfl, rfl⟩
  rcases h.rat_or_irr with ⟨q, rfl, -⟩ | ⟨hd, hirr⟩
  · have hq : 0 < q := by exact_mod_cast hx
    have hn : 0 < q.num := Rat.num_pos.mpr hq
    unfold RealAlg.toIntegerLog2
    rw [h.toRationalRaw_rat]
    simp only [bind, Except.bind, pure, Except.pure]
    have hqe : (q : ℝ) = q.num / q.den := by exact_mod_cast (Rat.num_div_den q).symm
    -- a rational power of two has numerator or denominator one
    have hkey : ∀ k : ℤ, (q : ℝ) = 2 ^ k →
        (∃ m : ℕ, q.num = 2 ^ m ∧ q.den = 1) ∨ (∃ m : ℕ, q.num = 1 ∧ q.den = 2 ^ m) := by
      intro k hk
      rcases Int.eq_nat_or_neg k with ⟨m, rfl | rfl⟩
      · left
        have e : q = ((2 ^ m : ℤ) : ℚ) := by
          have : (q : ℝ) = (((2 ^ m : ℤ) : ℚ) : ℝ) := by rw [hk]; simp
          exact_mod_cast this
        exact ⟨m, by rw [e, Rat.num_intCast], by rw [e, Rat.den_intCast]⟩
      · right
        have e : q = ((2 ^ m : ℕ) : ℚ)⁻¹ := by
          have : (q : ℝ) = ((((2 ^ m : ℕ) : ℚ)⁻¹ : ℚ) : ℝ) := by rw [hk]; simp
          exact_mod_cast this
        refine ⟨m, ?_, ?_⟩
        · rw [e, Rat.inv_natCast_num_of_pos (by positivity)]
        · rw [e, Rat.inv_natCast_den_of_pos (by positivity)]
    by_cases hden : (q.den : ℤ) = 1
    · rw [if_pos hden]
      obtain ⟨r, c, hr, hc⟩ := hsome _ hn
      obtain ⟨hp1, hp2⟩ := hpow _ r c hr hc
      rw [hr, hc]
      simp only [orPanic]
      have hden' : (q.den : ℝ) = 1 := by exact_mod_cast hden
      by_cases hrc : r = c
      · rw [if_pos hrc]
        left
        refine ⟨r, rfl, ?_⟩
        rw [hqe, hden', hp2 hrc]
        simp
      · rw [if_neg hrc]
        right
        refine ⟨rfl, fun k hk => hrc (hp1.mpr ?_)⟩
        rcases hkey k hk with ⟨m, hm, -⟩ | ⟨m, hm, -⟩
        · exact ⟨m, hm⟩
        · exact ⟨0, by simpa using hm⟩
    · rw [if_neg hden]
      by_cases hnum : q.num = 1
      · rw [if_pos hnum]
        obtain ⟨r, c, hr, hc⟩ := hsome (q.den : ℤ) (by exact_mod_cast q.den_pos)
        obtain ⟨hp1, hp2⟩ := hpow _ r c hr hc
        rw [hr, hc]
        simp only [orPanic]
        by_cases hrc : r = c
        · rw [if_pos hrc]
          left
          refine ⟨-r, rfl, ?_⟩
          have e := hp2 hrc
          have e' : (q.den : ℝ) = 2 ^ r := by exact_mod_cast e
          rw [hqe, hnum, e']
          simp
        · rw [if_neg hrc]
          right
          refine ⟨rfl, fun k hk => hrc (hp1.mpr ?_)⟩
          rcases hkey k hk with ⟨m, -, hm⟩ | ⟨m, -, hm⟩
          · exact absurd (by exact_mod_cast hm) hden
          · exact ⟨m, by exact_mod_cast hm⟩
      · rw [if_neg hnum]
        right
        refine ⟨rfl, fun k hk => ?_⟩
        rcases hkey k hk with ⟨m, -, hm⟩ | ⟨m, hm, -⟩
        · exact hden (by exact_mod_cast hm)
        · exact hnum hm
  · right
    unfold RealAlg.toIntegerLog2
    rw [h.toRationalRaw_irr hirr]
    refine ⟨rfl, fun k hk => hirr ⟨2 ^ k, ?_⟩⟩
    rw [hk]; simp

theorem Represents.checkedFloorCeilLog2 {bounds : DFI → Option (ℤ × ℤ)} {good : ℤ → ℝ → Prop}
    (hb : ∀ i : DFI, 0 < i.lo → i.lo ≤ i.hi → ∃ l h, bounds i = some (l, h) ∧
      good l i.lowerBound ∧ good h i.upperBound)
    (hu : ∀ k l y, good k y → good l y → k = l)
    (hconv : ∀ k (y z w : ℝ), good k y → good k w → y ≤ z → z ≤ w → good k z)
    (hpow : ∀ k : ℤ, good k (2 ^ k))
    (hnear : ∀ y : ℝ, 0 < y → (∀ k : ℤ, y ≠ 2 ^ k) → ∃ k, ∃ δ > 0, ∀ z : ℝ, |z - y| < δ → good k z)
    (h : a.Represents x) :
    (x ≤ 0 → ∀ fuel, a.checkedFloorCeilLog2 bounds fuel = .ok none) ∧
    (0 < x → ∃ N, ∀ fuel ≥ N, ∃ r, a.checkedFloorCeilLog2 bounds fuel = .ok (some r) ∧ good r x) := by
  classical
  constructor
  · intro hx fuel
    unfold RealAlg.checkedFloorCeilLog2
    rw [h.isPositive_eq]
    simp [bind, Except.bind, pure, Except.pure, not_lt.mpr hx]
  · intro hx
    rcases h.toIntegerLog2 hx with ⟨k, h1, h2⟩ | ⟨h1, h2⟩
    · refine ⟨0, fun fuel _ => ⟨k, ?_, by rw [h2]; exact hpow k⟩⟩
      unfold RealAlg.checkedFloorCeilLog2
      rw [h.isPositive_eq, h1]
      simp [bind, Except.bind, pure, Except.pure, hx]
    · obtain ⟨k, δ, hδ, hk⟩ := hnear x hx h2
      have key := fun s hs => log2Loop_spec (p := a.poly) (x := x) hb hu hconv hδ hk s hs
      obtain ⟨M, hM⟩ := h.removeZero hx.ne'
      -- the shrinker that is left does not depend on the fuel, once there is enough
      obtain ⟨s, h3, h4, h5⟩ := hM M le_rfl
      obtain ⟨K, hK⟩ := key s h4
      have hlo : 0 < s.interval.lo := by
        unfold DFI.containsZero at h5
        have hh := DFI.hi_pos_of h4.rep.mem hx
        simp only at hh
        by_contra hn
        simp [hn, not_lt.mpr hh.le] at h5
      refine ⟨max M K, fun fuel hf => ?_⟩
      have hmono : a.removeZeroFromInterval fuel = .ok (some s) := by
        have : ∀ (n : ℕ) (u v : Shrinker), removeZeroLoop n u = .ok v → ∀ m ≥ n,
            removeZeroLoop m u = .ok v := by
          intro n
          induction n with
          | zero => intro u v huv; simp [removeZeroLoop] at huv
          | succ n ih =>
            intro u v huv m hm
            obtain ⟨m', rfl⟩ : ∃ m', m = m' + 1 := ⟨m - 1, by omega⟩
            unfold removeZeroLoop at huv ⊢
            by_cases hz : u.interval.containsZero = true
            · rw [if_pos hz] at huv ⊢
              cases hsh : u.shrink with
              | none => rw [hsh] at huv; simp at huv
              | some tr =>
                obtain ⟨t, r⟩ := tr
                rw [hsh] at huv
                exact ih t v huv m' (by omega)
            · rw [if_neg hz] at huv ⊢
              exact huv
        unfold RealAlg.removeZeroFromInterval at h3 ⊢
        rcases h.cmpWithZero with ⟨e1, e2⟩ | ⟨e1, e2⟩ | ⟨e1, e2⟩
        · exact absurd hx e2.not_gt
        · exact absurd e2 hx.ne'
        · rw [e1] at h3 ⊢
          simp only [bind, Except.bind, pure, Except.pure] at h3 ⊢
          cases hc : orPanic (clipToSign (decide (Ordering.gt = Ordering.lt)) a.interval) with
          | error e => rw [hc] at h3; simp at h3
          | ok i =>
            rw [hc] at h3
            simp only at h3 ⊢
            cases hi : RealAlg.intervalShrinker ⟨a.poly, i⟩ with
            | error e => rw [hi] at h3; simp at h3
            | ok u =>
              rw [hi] at h3
              simp only at h3 ⊢
              cases hr : removeZeroLoop M u with
              | error e => rw [hr] at h3; simp at h3
              | ok v =>
                rw [hr] at h3
                simp only [Except.ok.injEq, Option.some.injEq] at h3
                subst h3
                rw [this M u v hr fuel (le_trans (le_max_left _ _) hf)]
      obtain ⟨r, h6, h7⟩ := hK fuel (le_trans (le_max_right _ _) hf) hlo
      refine ⟨r, ?_, h7⟩
      unfold RealAlg.checkedFloorCeilLog2
      rw [h.isPositive_eq, h1, hmono]
      simp [bind, Except.bind, pure, Except.pure, hx, orPanic, h6]

theorem floor_logb_iff {y : ℝ} (hy : 0 < y) (k : ℤ) :
    ⌊Real.logb 2 y⌋ = k ↔ (2 : ℝ) ^ k ≤ y ∧ y < 2 ^ (k + 1) := by
  rw [Int.floor_eq_iff, Real.le_logb_iff_rpow_le (by norm_num) hy, Real.rpow_intCast,
    Real.logb_lt_iff_lt_rpow (by norm_num) hy]
  have : (2 : ℝ) ^ ((k : ℝ) + 1) = 2 ^ (k + 1) := by
    rw [← Real.rpow_intCast]; push_cast; rfl
  rw [this]

theorem ceil_logb_iff {y : ℝ} (hy : 0 < y) (k : ℤ) :
    ⌈Real.logb 2 y⌉ = k ↔ (2 : ℝ) ^ (k - 1) < y ∧ y ≤ 2 ^ k := by
  rw [Int.ceil_eq_iff, Real.lt_logb_iff_rpow_lt (by norm_num) hy, Real.logb_le_iff_le_rpow (by norm_num) hy,
    Real.rpow_intCast]
  have : (2 : ℝ) ^ ((k : ℝ) - 1) = 2 ^ (k - 1) := by
    rw [← Real.rpow_intCast]; push_cast; rfl
  rw [this]

/-- a positive number that is no power of two lies strictly between two consecutive ones, with all
numbers close to it -/
theorem between_powers {y : ℝ} (hy : 0 < y) (h : ∀ k : ℤ, y ≠ 2 ^ k) :
    ∃ k : ℤ, ∃ δ > 0, ∀ z : ℝ, |z - y| < δ → (2 : ℝ) ^ k < z ∧ z < 2 ^ (k + 1) := by
  obtain ⟨h1, h2⟩ := (floor_logb_iff hy ⌊Real.logb 2 y⌋).mp rfl
  set k := ⌊Real.logb 2 y⌋
  have h1' : (2 : ℝ) ^ k < y := lt_of_le_of_ne h1 (h k).symm
  refine ⟨k, min (y - 2 ^ k) (2 ^ (k + 1) - y), lt_min (by linarith) (by linarith), fun z hz => ?_⟩
  have a1 := lt_of_lt_of_le hz (min_le_left _ _)
  have a2 := lt_of_lt_of_le hz (min_le_right _ _)
  rw [abs_lt] at a1 a2
  exact ⟨by linarith [a1.1], by linarith [a2.2]⟩

theorem Represents.checkedFloorLog2 (h : a.Represents x) :
    (x ≤ 0 → ∀ fuel, a.checkedFloorLog2 fuel = .ok none) ∧
    (0 < x → ∃ N, ∀ fuel ≥ N, a.checkedFloorLog2 fuel = .ok (some ⌊Real.logb 2 x⌋)) := by
  have key := h.checkedFloorCeilLog2 (bounds := DFI.floorLog2)
    (good := fun k y => (2 : ℝ) ^ k ≤ y ∧ y < 2 ^ (k + 1)) ?_ ?_ ?_ ?_ ?_
  · refine ⟨key.1, fun hx => ?_⟩
    obtain ⟨N, hN⟩ := key.2 hx
    refine ⟨N, fun fuel hf => ?_⟩
    obtain ⟨r, h1, h2⟩ := hN fuel hf
    rw [(floor_logb_iff hx r).mpr h2]
    exact h1
  · intro i hi ho
    obtain ⟨h1, h2⟩ := C10_floor_log2 i ho
    cases hb : i.floorLog2 with
    | none => exact absurd (h1.mp hb) (not_le.mpr hi)
    | some lh =>
      obtain ⟨h3, h4, -⟩ := h2 lh.1 lh.2 hb
      rw [DFI.lowerBound_real, DFI.upperBound_real]
      exact ⟨lh.1, lh.2, rfl, h3, h4⟩
  · intro k l y h1 h2
    exact zpow_two_unique h1.1 h1.2 h2.1 h2.2
  · intro k y z w h1 h2 h3 h4
    exact ⟨h1.1.trans h3, lt_of_le_of_lt h4 h2.2⟩
  · intro k
    exact ⟨le_rfl, zpow_lt_zpow_right₀ (by norm_num) (by omega)⟩
  · intro y hy hp
    obtain ⟨k, δ, hδ, hk⟩ := between_powers hy hp
    exact ⟨k, δ, hδ, fun z hz => ⟨(hk z hz).1.le, (hk z hz).2⟩⟩

theorem Represents.checkedCeilLog2 (h : a.Represents x) :
    (x ≤ 0 → ∀ fuel, a.checkedCeilLog2 fuel = .ok none) ∧
    (0 < x → ∃ N, ∀ fuel ≥ N, a.checkedCeilLog2 fuel = .ok (some ⌈Real.logb 2 x⌉)) := by
  have key := h.checkedFloorCeilLog2 (bounds := DFI.ceilLog2)
    (good := fun k y => (2 : ℝ) ^ (k - 1) < y ∧ y ≤ 2 ^ k) ?_ ?_ ?_ ?_ ?_
  · refine ⟨key.1, fun hx => ?_⟩
    obtain ⟨N, hN⟩ := key.2 hx
    refine ⟨N, fun fuel hf => ?_⟩
    obtain ⟨r, h1, h2⟩ := hN fuel hf
    rw [(ceil_logb_iff hx r).mpr h2]
    exact h1
  · intro i hi ho
    obtain ⟨h1, h2⟩ := C10_ceil_log2 i ho
    cases hb : i.ceilLog2 with
    | none => exact absurd (h1.mp hb) (not_le.mpr hi)
    | some lh =>
      obtain ⟨h3, h4, -⟩ := h2 lh.1 lh.2 hb
      rw [DFI.lowerBound_real, DFI.upperBound_real]
      exact ⟨lh.1, lh.2, rfl, h3, h4⟩
  · intro k l y h1 h2
    exact zpow_two_unique' h1.1 h1.2 h2.1 h2.2
  · intro k y z w h1 h2 h3 h4
    exact ⟨lt_of_lt_of_le h1.1 h3, h4.trans h2.2⟩
  · intro k
    exact ⟨zpow_lt_zpow_right₀ (by norm_num) (by omega), le_rfl⟩
  · intro y hy hp
    obtain ⟨k, δ, hδ, hk⟩ := between_powers hy hp
    refine ⟨k + 1, δ, hδ, fun z hz => ⟨?_, (hk z hz).2.le⟩⟩
    rw [add_sub_cancel_right]
    exact (hk z hz).1

end RealAlg

end Algebraics
