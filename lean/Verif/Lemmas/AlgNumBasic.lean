import Verif.Lemmas.AlgNum

/-!
# Lemmas for algebraic numbers: conversions, negation, sign
-/

namespace Algebraics

open Polynomial

/-! ## Conversions -/

theorem toPoly_linear (c0 c1 : ℤ) :
    (Poly.ofCoeffs [c0, c1] : Poly ℤ).toPoly = C c1 * X + C c0 := by
  rw [Poly.toPoly_ofCoeffs]
  simp only [listPoly]
  ring

theorem linear_irreducible (q : ℚ) : Irreducible (C (q.den : ℤ) * X + C (-q.num)) := by
  have hd : (q.den : ℤ) ≠ 0 := by exact_mod_cast q.den_nz
  apply irreducible_of_degree_eq_one_of_isRelPrime_coeff
  · exact degree_linear hd
  · have h := q.reduced
    simp only [coeff_add, coeff_C_mul, coeff_X_zero, mul_zero, coeff_C_zero, zero_add, coeff_X_one,
      mul_one, coeff_C_succ, add_zero]
    rw [isRelPrime_iff_isCoprime, Int.isCoprime_iff_nat_coprime]
    simpa using h

theorem linear_represents (q : ℚ) (i : DFI) (hi : i.Contains q) :
    (⟨Poly.ofCoeffs [-q.num, (q.den : ℤ)], i⟩ : RealAlg).Represents q := by
  have hd : (q.den : ℤ) ≠ 0 := by exact_mod_cast q.den_nz
  have hd' : (q.den : ℝ) ≠ 0 := by exact_mod_cast q.den_nz
  have hq : (q : ℝ) = q.num / q.den := by exact_mod_cast (Rat.num_div_den q).symm
  refine ⟨?_, ?_, ?_, hi, ?_⟩
  · simp only [toPoly_linear]; exact linear_irreducible q
  · intro _
    simp only [toPoly_linear]
    rw [leadingCoeff_linear hd]
    exact_mod_cast q.den_pos
  · simp only [toPoly_linear]
    rw [hq]
    simp
    field_simp
    ring
  · intro y _ hy
    simp only [toPoly_linear] at hy
    simp at hy
    rw [hq, eq_div_iff hd']
    linarith

theorem ofInt_represents (n : ℤ) : (RealAlg.ofInt n).Represents n := by
  have := linear_represents (n : ℚ) (DFI.fromInt n 0) (by
    simp [DFI.Contains, DFI.fromInt, DFI.fromDyadicFraction, shl])
  simpa [RealAlg.ofInt] using this

theorem ofRat_represents (q : ℚ) : (RealAlg.ofRat q).Represents q := by
  unfold RealAlg.ofRat
  by_cases h : q.den = 1
  · rw [if_pos h]
    have hq : (q : ℝ) = (q.num : ℝ) := by
      have := Rat.coe_int_num_of_den_eq_one h
      exact_mod_cast this.symm
    rw [hq]
    exact ofInt_represents _
  · rw [if_neg h]
    exact linear_represents q _ (DFI.contains_fromRatio q 0)

namespace RealAlg.Represents

variable {a : RealAlg} {x : ℝ}

theorem degree_eq (h : a.Represents x) : a.degree = .ok a.poly.toPoly.natDegree := by
  unfold RealAlg.degree
  rw [Poly.degree_eq, if_neg h.ne_zero]
  rfl

theorem isRational_eq (h : a.Represents x) :
    a.isRational = .ok (decide (a.poly.toPoly.natDegree ≤ 1)) := by
  unfold RealAlg.isRational
  rw [h.degree_eq]
  rfl

theorem linear (h : a.Represents x) (hd : a.poly.toPoly.natDegree = 1) :
    ∃ q : ℚ, (q : ℝ) = x ∧ a.poly.toPoly.coeff 0 = -q.num ∧ a.poly.toPoly.coeff 1 = q.den := by
  set p := a.poly.toPoly with hp
  have hpos : 0 < p.coeff 1 := by
    have := h.positive hd
    rwa [leadingCoeff, hd] at this
  have hprim : p.IsPrimitive := h.irreducible.isPrimitive (by rw [← hp]; omega)
  have heq : p = C (p.coeff 1) * X + C (p.coeff 0) :=
    eq_X_add_C_of_natDegree_le_one hd.le
  have hcop : Nat.Coprime (-p.coeff 0).natAbs (p.coeff 1).natAbs := by
    rw [Int.natAbs_neg]
    have hu : IsUnit ((Int.gcd (p.coeff 0) (p.coeff 1) : ℕ) : ℤ) := by
      apply hprim
      rw [C_dvd_iff_dvd_coeff]
      intro i
      match i with
      | 0 => exact Int.gcd_dvd_left ..
      | 1 => exact Int.gcd_dvd_right ..
      | i + 2 =>
        have h0 : p.coeff (i + 2) = 0 := coeff_eq_zero_of_natDegree_lt (by rw [hd]; omega)
        rw [h0]
        exact dvd_zero _
    have := Int.isUnit_iff_natAbs_eq.mp hu
    simpa [Int.gcd_eq_natAbs] using this
  refine ⟨((-p.coeff 0 : ℤ) : ℚ) / (p.coeff 1 : ℤ), ?_, ?_, ?_⟩
  · have hr := h.root
    rw [← hp, heq] at hr
    simp at hr
    have hne : (p.coeff 1 : ℝ) ≠ 0 := by exact_mod_cast hpos.ne'
    push_cast
    rw [div_eq_iff hne]
    linarith
  · rw [Rat.num_div_eq_of_coprime hpos hcop, neg_neg]
  · rw [Rat.den_div_eq_of_coprime hpos hcop]

theorem rat_or_irr (h : a.Represents x) :
    (∃ q : ℚ, (q : ℝ) = x ∧ a.poly.toPoly.natDegree = 1 ∧ a.poly.toPoly.coeff 0 = -q.num ∧
      a.poly.toPoly.coeff 1 = q.den) ∨ (2 ≤ a.poly.toPoly.natDegree ∧ Irrational x) := by
  have := h.natDegree_pos
  by_cases hd : a.poly.toPoly.natDegree = 1
  · obtain ⟨q, h1, h2, h3⟩ := h.linear hd
    exact Or.inl ⟨q, h1, hd, h2, h3⟩
  · exact Or.inr ⟨by omega, h.irrational (by omega)⟩

theorem toRationalRaw_rat {q : ℚ} (h : a.Represents q) :
    a.toRationalRaw = .ok (some (q.num, (q.den : ℤ))) := by
  rcases h.rat_or_irr with ⟨q', h1, h2, h3, h4⟩ | ⟨-, h2⟩
  · obtain rfl : q' = q := by exact_mod_cast h1
    unfold RealAlg.toRationalRaw
    rw [h.isRational_eq, h2]
    simp [h3, h4, bind, Except.bind, pure, Except.pure]
  · exact absurd ⟨q, rfl⟩ h2

theorem toRationalRaw_irr (h : a.Represents x) (hx : Irrational x) :
    a.toRationalRaw = .ok none := by
  rcases h.rat_or_irr with ⟨q', h1, -⟩ | ⟨h1, -⟩
  · exact absurd ⟨q', h1⟩ hx
  · unfold RealAlg.toRationalRaw
    rw [h.isRational_eq]
    have : ¬ a.poly.toPoly.natDegree ≤ 1 := by omega
    simp [this, bind, Except.bind, pure, Except.pure]

theorem toRational_rat {q : ℚ} (h : a.Represents q) : a.toRational = .ok (some q) := by
  unfold RealAlg.toRational
  rw [h.toRationalRaw_rat]
  have := Rat.num_div_den q
  simp [bind, Except.bind, pure, Except.pure, this]

theorem toRational_irr (h : a.Represents x) (hx : Irrational x) : a.toRational = .ok none := by
  unfold RealAlg.toRational
  rw [h.toRationalRaw_irr hx]
  rfl

theorem isInteger_eq (h : a.Represents x) [Decidable (∃ n : ℤ, (n : ℝ) = x)] :
    a.isInteger = .ok (decide (∃ n : ℤ, (n : ℝ) = x)) := by
  unfold RealAlg.isInteger
  rw [h.isRational_eq]
  rcases h.rat_or_irr with ⟨q, h1, h2, h3, h4⟩ | ⟨h1, h2⟩
  · have hiff : (∃ n : ℤ, (n : ℝ) = x) ↔ q.den = 1 := by
      constructor
      · rintro ⟨n, hn⟩
        obtain rfl : q = (n : ℚ) := by rw [← h1] at hn; exact_mod_cast hn.symm
        simp
      · intro hq
        refine ⟨q.num, ?_⟩
        rw [← h1]
        exact_mod_cast Rat.coe_int_num_of_den_eq_one hq
    have h5 : a.poly.coefficient 1 = 1 ↔ q.den = 1 := by
      rw [Poly.coefficient_eq, h4]; exact_mod_cast Iff.rfl
    have h6 : decide (a.poly.coefficient 1 = 1) = decide (∃ n : ℤ, (n : ℝ) = x) :=
      decide_eq_decide.mpr (h5.trans hiff.symm)
    rw [h2]
    simp only [bind, Except.bind, pure, Except.pure, h6, le_refl, decide_true, Bool.true_and]
  · have h3 : ¬ a.poly.toPoly.natDegree ≤ 1 := by omega
    have h4 : ¬ ∃ n : ℤ, (n : ℝ) = x := by
      rintro ⟨n, rfl⟩
      exact h2 ⟨n, by simp⟩
    simp [bind, Except.bind, pure, Except.pure, h3, h4]

theorem toInteger_int {n : ℤ} (h : a.Represents n) : a.toInteger = .ok (some n) := by
  classical
  unfold RealAlg.toInteger
  rw [h.isInteger_eq]
  have h1 : ∃ m : ℤ, (m : ℝ) = (n : ℝ) := ⟨n, rfl⟩
  have h2 : a.poly.toPoly.coeff 0 = -n := by
    rcases h.rat_or_irr with ⟨q, h1, h2, h3, h4⟩ | ⟨h1, h2⟩
    · obtain rfl : q = (n : ℚ) := by exact_mod_cast h1
      simpa using h3
    · exact absurd ⟨n, by simp⟩ h2
  simp [bind, Except.bind, pure, Except.pure, h2]

theorem toInteger_none (h : a.Represents x) (hx : ¬ ∃ n : ℤ, (n : ℝ) = x) :
    a.toInteger = .ok none := by
  classical
  unfold RealAlg.toInteger
  rw [h.isInteger_eq]
  simp [bind, Except.bind, pure, Except.pure, hx]

/-! ## Comparing with a constant -/

theorem poly_eq_ofInt_iff (h : a.Represents x) (n : ℤ) : a.poly = (ofInt n).poly ↔ x = n := by
  constructor
  · intro he
    have hr := h.root
    rw [he] at hr
    simp only [RealAlg.ofInt, toPoly_linear] at hr
    simp at hr
    linarith
  · rintro rfl
    rcases h.rat_or_irr with ⟨q, h1, h2, h3, h4⟩ | ⟨h1, h2⟩
    · obtain rfl : q = (n : ℚ) := by exact_mod_cast h1
      apply Poly.toPoly_injective
      simp only [RealAlg.ofInt, toPoly_linear]
      rw [eq_X_add_C_of_natDegree_le_one h2.le, h3, h4]
      simp
    · exact absurd ⟨n, by simp⟩ h2

theorem isZero_iff (h : a.Represents x) : a.isZero = true ↔ x = 0 := by
  unfold RealAlg.isZero RealAlg.zero
  rw [decide_eq_true_iff, h.poly_eq_ofInt_iff]
  simp

theorem isOne_iff (h : a.Represents x) : a.isOne = true ↔ x = 1 := by
  unfold RealAlg.isOne RealAlg.one
  rw [decide_eq_true_iff, h.poly_eq_ofInt_iff]
  simp

theorem isNegativeOne_iff (h : a.Represents x) : a.isNegativeOne = true ↔ x = -1 := by
  unfold RealAlg.isNegativeOne RealAlg.negativeOne
  rw [decide_eq_true_iff, h.poly_eq_ofInt_iff]
  simp

/-! ## Negation -/

theorem comp_neg_X_coeff (p : ℤ[X]) (i : ℕ) : (p.comp (-X)).coeff i = (-1) ^ i * p.coeff i := by
  rw [← neg_one_mul, ← C_1, ← C_neg, Polynomial.comp_C_mul_X_coeff, mul_comm]

theorem toPoly_negCoeffs (p : Poly ℤ) (d : ℕ) :
    (Poly.ofCoeffs (p.coeffs.mapIdx fun index c => if index % 2 = d % 2 then c else -c) :
      Poly ℤ).toPoly = C ((-1) ^ d) * p.toPoly.comp (-X) := by
  ext i
  rw [Poly.toPoly_ofCoeffs, listPoly_coeff, coeff_C_mul, comp_neg_X_coeff]
  rw [Poly.toPoly, listPoly_coeff]
  rw [List.getD_eq_getElem?_getD, List.getElem?_mapIdx, List.getD_eq_getElem?_getD]
  cases p.coeffs[i]? with
  | none => simp
  | some c =>
    simp only [Option.map_some, Option.getD_some]
    by_cases h : i % 2 = d % 2
    · rw [if_pos h, ← mul_assoc, ← pow_add, Even.neg_one_pow, one_mul]
      rw [Nat.even_iff]; omega
    · rw [if_neg h, ← mul_assoc, ← pow_add, Odd.neg_one_pow]
      · ring
      · rw [Nat.odd_iff]; omega

theorem neg (h : a.Represents x) : ∃ b, a.neg = .ok b ∧ b.Represents (-x) ∧
    b.poly.toPoly = C ((-1) ^ a.poly.toPoly.natDegree) * a.poly.toPoly.comp (-X) ∧
    b.interval = a.interval.neg := by
  unfold RealAlg.neg
  rw [h.degree_eq]
  refine ⟨_, rfl, ?_, toPoly_negCoeffs _ _, rfl⟩
  set d := a.poly.toPoly.natDegree with hd
  have hp : (⟨Poly.ofCoeffs (a.poly.coeffs.mapIdx fun index c => if index % 2 = d % 2 then c else -c),
      a.interval.neg⟩ : RealAlg).poly.toPoly = C ((-1) ^ d) * a.poly.toPoly.comp (-X) :=
    toPoly_negCoeffs _ _
  have hu : IsUnit (C ((-1) ^ d : ℤ)) := (isUnit_C).mpr ((isUnit_one.neg).pow d)
  have hc : Irreducible (a.poly.toPoly.comp (-X)) := by
    have := (MulEquiv.irreducible_iff (algEquivAevalNegX (R := ℤ)) (x := a.poly.toPoly)).mpr
      h.irreducible
    simpa [comp_eq_aeval] using this
  have hev : ∀ y : ℝ, aeval y (C ((-1) ^ d : ℤ) * a.poly.toPoly.comp (-X)) = 0 ↔
      aeval (-y) a.poly.toPoly = 0 := by
    intro y
    rw [map_mul, aeval_comp]
    simp
  refine ⟨?_, ?_, ?_, DFI.contains_neg h.mem, ?_⟩
  · rw [hp]
    exact (irreducible_isUnit_mul hu).mpr hc
  · rw [hp]
    intro hdeg
    have h1 : (C ((-1) ^ d : ℤ) * a.poly.toPoly.comp (-X)).natDegree = d := by
      rw [natDegree_C_mul (by simp), natDegree_comp]
      simp [← hd]
    rw [h1] at hdeg
    have h2 := h.positive hdeg
    rw [leadingCoeff, h1, hdeg, coeff_C_mul, comp_neg_X_coeff]
    rw [leadingCoeff, ← hd, hdeg] at h2
    simpa using h2
  · rw [hp, hev, neg_neg]; exact h.root
  · intro y hy hr
    rw [hp, hev] at hr
    have h1 : a.interval.Contains (-y) := by
      have := DFI.contains_neg hy
      simpa [DFI.neg] using this
    have := h.isolated _ h1 hr
    linarith

/-! ## Sign -/

theorem cmpWithZeroSturm (h : a.Represents x) (hx : Irrational x) (hd : 2 ≤ a.poly.toPoly.natDegree)
    (hl : a.interval.lo ≤ 0) (hh : 0 ≤ a.interval.hi) :
    (a.cmpWithZeroSturm = .ok .lt ∧ x < 0) ∨ (a.cmpWithZeroSturm = .ok .gt ∧ 0 < x) := by
  obtain ⟨l, h1, -, h3, h4⟩ := sturm_counts a.poly h.ne_zero
  unfold RealAlg.cmpWithZeroSturm
  rw [h1]
  simp only [orPanic, bind, Except.bind, pure, Except.pure]
  have hr : ∀ at_, (signChangesAt l at_).isRoot = false := fun at_ => by
    rw [Bool.eq_false_iff]; intro e; exact h.no_rat_root hd _ ((h3 at_).mp e)
  rw [hr, hr, hr]
  simp only [Bool.or_self, Bool.false_eq_true, if_false]
  have hlb : a.interval.lowerBound ≤ 0 := by
    unfold DFI.lowerBound
    apply div_nonpos_of_nonpos_of_nonneg
    · exact_mod_cast hl
    · simp [shl]
  have hub : 0 ≤ a.interval.upperBound := by
    unfold DFI.upperBound
    apply div_nonneg
    · exact_mod_cast hh
    · simp [shl]
  have hc1 := h4 (.value a.interval.lowerBound) .zero hlb (h.no_rat_root hd _) (h.no_rat_root hd _)
  have hc2 := h4 .zero (.value a.interval.upperBound) hub (h.no_rat_root hd _) (h.no_rat_root hd _)
  have hv : Shrinker.Valid a.poly x ⟨l, a.interval, none, none⟩ :=
    ⟨h1, h, fun c hc => by simp at hc, fun c hc => by simp at hc⟩
  have hn1 := hv.ncard_roots (a := a.interval.lowerBound) (b := 0) le_rfl hub
  have hn2 := hv.ncard_roots (a := 0) (b := a.interval.upperBound) hlb le_rfl
  simp only [atVal] at hc1 hc2
  rw [hn1] at hc1
  rw [hn2] at hc2
  simp only [Rat.cast_zero] at hc1 hc2
  have hxl : (a.interval.lowerBound : ℝ) < x := lt_of_le_of_ne h.lower_le fun e => hx ⟨_, e⟩
  have hxu : x < (a.interval.upperBound : ℝ) := lt_of_le_of_ne h.le_upper fun e => hx ⟨_, e.symm⟩
  rcases lt_or_gt_of_ne (show x ≠ 0 from fun e => hx ⟨0, by simp [e]⟩) with hx0 | hx0
  · left
    rw [if_pos ⟨hxl, hx0⟩] at hc1
    rw [if_neg (fun e => lt_asymm e.1 hx0)] at hc2
    rw [if_neg (by omega), if_pos (by omega)]
    exact ⟨rfl, hx0⟩
  · right
    rw [if_neg (fun e => lt_asymm e.2 hx0)] at hc1
    rw [if_pos (by omega)]
    exact ⟨rfl, hx0⟩

theorem cmpWithZero (h : a.Represents x) :
    (a.cmpWithZero = .ok .lt ∧ x < 0) ∨ (a.cmpWithZero = .ok .eq ∧ x = 0) ∨
      (a.cmpWithZero = .ok .gt ∧ 0 < x) := by
  unfold RealAlg.cmpWithZero
  by_cases h0 : a.isZero = true
  · rw [if_pos h0]
    exact Or.inr (Or.inl ⟨rfl, h.isZero_iff.mp h0⟩)
  · rw [if_neg h0]
    by_cases hl : 0 < a.interval.lo
    · rw [if_pos hl]
      refine Or.inr (Or.inr ⟨rfl, lt_of_lt_of_le ?_ h.mem.1⟩)
      have : (0 : ℝ) < a.interval.lo := by exact_mod_cast hl
      positivity
    · rw [if_neg hl]
      by_cases hh : a.interval.hi < 0
      · rw [if_pos hh]
        refine Or.inl ⟨rfl, lt_of_le_of_lt h.mem.2 ?_⟩
        have : (a.interval.hi : ℝ) < 0 := by exact_mod_cast hh
        exact div_neg_of_neg_of_pos this (by positivity)
      · rw [if_neg hh]
        rcases h.rat_or_irr with ⟨q, rfl, -⟩ | ⟨hd, hx⟩
        · rw [h.toRational_rat]
          simp only [bind, Except.bind, pure, Except.pure]
          rcases lt_trichotomy q 0 with hq | hq | hq
          · left
            rw [compare_lt_iff_lt.mpr hq]
            exact ⟨rfl, by exact_mod_cast hq⟩
          · right; left
            rw [compare_eq_iff_eq.mpr hq]
            exact ⟨rfl, by exact_mod_cast hq⟩
          · right; right
            rw [compare_gt_iff_gt.mpr hq]
            exact ⟨rfl, by exact_mod_cast hq⟩
        · rw [h.toRational_irr hx]
          simp only [bind, Except.bind]
          rcases h.cmpWithZeroSturm hx hd (by omega) (by omega) with h1 | h1
          · exact Or.inl h1
          · exact Or.inr (Or.inr h1)

theorem isPositive_eq (h : a.Represents x) [Decidable (0 < x)] :
    a.isPositive = .ok (decide (0 < x)) := by
  unfold RealAlg.isPositive
  rcases h.cmpWithZero with ⟨h1, h2⟩ | ⟨h1, h2⟩ | ⟨h1, h2⟩
  · rw [h1]; simp [bind, Except.bind, pure, Except.pure, h2.le]
  · rw [h1]; simp [bind, Except.bind, pure, Except.pure, h2]
  · rw [h1]; simp [bind, Except.bind, pure, Except.pure, h2]

theorem isNegative_eq (h : a.Represents x) [Decidable (x < 0)] :
    a.isNegative = .ok (decide (x < 0)) := by
  unfold RealAlg.isNegative
  rcases h.cmpWithZero with ⟨h1, h2⟩ | ⟨h1, h2⟩ | ⟨h1, h2⟩
  · rw [h1]; simp [bind, Except.bind, pure, Except.pure, h2]
  · rw [h1]; simp [bind, Except.bind, pure, Except.pure, h2]
  · rw [h1]; simp [bind, Except.bind, pure, Except.pure, h2.le]

theorem abs (h : a.Represents x) : ∃ b, a.abs = .ok b ∧ b.Represents |x| := by
  classical
  unfold RealAlg.abs
  rw [h.isNegative_eq]
  by_cases hx : x < 0
  · obtain ⟨b, h1, h2, -⟩ := h.neg
    refine ⟨b, ?_, by rwa [abs_of_neg hx]⟩
    simp [bind, Except.bind, hx, h1]
  · refine ⟨a, ?_, by rwa [abs_of_nonneg (not_lt.mp hx)]⟩
    simp [bind, Except.bind, hx, pure, Except.pure]

theorem signum (h : a.Represents x) :
    ∃ b, a.signum = .ok b ∧ b.Represents (SignType.sign x : ℤ) := by
  unfold RealAlg.signum
  rcases h.cmpWithZero with ⟨h1, h2⟩ | ⟨h1, h2⟩ | ⟨h1, h2⟩
  · rw [h1]
    obtain ⟨b, h3, h4, -⟩ := (ofInt_represents 1).neg
    refine ⟨b, h3, ?_⟩
    rw [sign_neg h2]
    simpa using h4
  · rw [h1]
    refine ⟨_, rfl, ?_⟩
    rw [h2, sign_zero]
    simpa [RealAlg.zero] using ofInt_represents 0
  · rw [h1]
    refine ⟨_, rfl, ?_⟩
    rw [sign_pos h2]
    simpa [RealAlg.one] using ofInt_represents 1

end RealAlg.Represents

end Algebraics
