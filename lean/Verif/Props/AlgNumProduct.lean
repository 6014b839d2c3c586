import Verif.Props.AlgNumConsistent

/-!
# C45: products that are rational numbers
-/

namespace Algebraics

open Polynomial RealAlg

namespace RealAlg

/-- a rational multiple of a root that is a root again -/
theorem root_scale {p : ℤ[X]} (hp : Irreducible p) (hd : 0 < p.natDegree) {w : ℂ} (hw0 : w ≠ 0)
    (hw : aeval w p = 0) {c : ℚ} (hc : aeval ((c : ℂ) * w) p = 0) (hc0 : c ≠ 0) : c = 1 ∨ c = -1 := by
  have e : ∀ z : ℂ, aeval z ((p.map (Int.castRingHom ℚ)).comp (C c * X)) = aeval ((c : ℂ) * z) p := by
    intro z
    rw [aeval_comp, ← aeval_map_int]
    simp
  have hroot : ∀ k : ℕ, aeval ((c : ℂ) ^ k * w) p = 0 := by
    intro k
    induction k with
    | zero => simpa using hw
    | succ k ih =>
      have := root_transfer hp hd hw ih ((p.map (Int.castRingHom ℚ)).comp (C c * X)) (by rw [e]; exact hc)
      rw [e] at this
      rwa [pow_succ', mul_assoc]
  by_contra hne
  push Not at hne
  have hfin : (Set.range fun k : ℕ => (c : ℂ) ^ k * w).Finite := by
    refine (p.rootSet_finite ℂ).subset ?_
    rintro _ ⟨k, rfl⟩
    rw [mem_rootSet]
    exact ⟨hp.ne_zero, hroot k⟩
  refine Set.infinite_range_of_injective ?_ hfin
  intro k l hkl
  have h1 : (c : ℂ) ^ k = c ^ l := mul_right_cancel₀ hw0 hkl
  have h2 : c ^ k = c ^ l := by exact_mod_cast h1
  have h3 : |c| ^ k = |c| ^ l := by rw [← abs_pow, ← abs_pow, h2]
  refine pow_right_injective₀ (abs_pos.mpr hc0) ?_ h3
  intro h
  rcases (abs_eq (zero_le_one' ℚ)).mp h with h | h
  · exact hne.1 h
  · exact hne.2 h

/-- rational products of roots of two irreducible polynomials differ at most in the sign -/
theorem rat_prod_unique {p q : ℤ[X]} (hp : Irreducible p) (hq : Irreducible q) (hdp : 0 < p.natDegree)
    (hdq : 0 < q.natDegree) {u u' v v' : ℂ} (hu : aeval u p = 0) (hu' : aeval u' p = 0)
    (hv : aeval v q = 0) (hv' : aeval v' q = 0) {r r' : ℚ} (h : (r : ℂ) = u * v)
    (h' : (r' : ℂ) = u' * v') (hr : r ≠ 0) (hr' : r' ≠ 0) : r' = r ∨ r' = -r := by
  have hrc : (r : ℂ) ≠ 0 := by exact_mod_cast hr
  have hrc' : (r' : ℂ) ≠ 0 := by exact_mod_cast hr'
  have hu0 : u ≠ 0 := by rintro rfl; rw [zero_mul] at h; exact hrc h
  have hu0' : u' ≠ 0 := by rintro rfl; rw [zero_mul] at h'; exact hrc' h'
  have hv0' : v' ≠ 0 := by rintro rfl; rw [mul_zero] at h'; exact hrc' h'
  have h1 := prod_rat_transfer hp hdp hu hv hu' hu0 h
  have h2 : (r : ℂ) / u' = ((r / r' : ℚ) : ℂ) * v' := by
    push_cast
    rw [h']
    field_simp
  rw [h2] at h1
  rcases root_scale hq hdq hv0' hv' h1 (div_ne_zero hr hr') with h3 | h3
  · left; rw [div_eq_one_iff_eq hr'] at h3; exact h3.symm
  · right; rw [div_eq_iff hr'] at h3; linarith

end RealAlg

/-- C45, in part: if the product of two irrational numbers is rational, then multiplication returns it or
its negation, and the negation only if it lies in the product of the two intervals. -/
theorem C45_rational_product_partial (F : FactorCall) (a b : RealAlg) (x y : ℝ) (v : ℚ)
    (ha : a.Represents x) (hb : b.Represents y) (hv : x * y = v)
    (hF : ∀ R, mulResultant a.poly b.poly = some R → R.toPoly ≠ 0 → FactorsRight F R) :
    ∃ N, ∀ fuel ≥ N, ∃ c, a.mul F fuel b = .ok c ∧
      (c.Represents v ∨ (c = ofRat (-v) ∧ (a.interval.mul b.interval).Contains (-v : ℝ))) := by
  by_cases h0 : x = 0 ∨ y = 0
  · obtain ⟨N, hN⟩ := C45_mul_rational F a b x y ha hb (h0.imp (by rintro rfl; simp) (by rintro rfl; simp)) hF
    refine ⟨N, fun fuel hf => ?_⟩
    obtain ⟨c, h1, h2⟩ := hN fuel hf
    exact ⟨c, h1, Or.inl (by rwa [← hv])⟩
  push Not at h0
  obtain ⟨N, hN⟩ := C45_mul_partial F a b x y ha hb hF
  refine ⟨N, fun fuel hf => ?_⟩
  obtain ⟨c, h1, h2 | ⟨q, h2, h3, h4, x', y', h5, h6, h7⟩⟩ := hN fuel hf
  · exact ⟨c, h1, Or.inl (by rwa [← hv])⟩
  · refine ⟨c, h1, Or.inr ?_⟩
    have hx := (aeval_realCast _ _).mpr ha.root
    have hy := (aeval_realCast _ _).mpr hb.root
    have hv0 : v ≠ 0 := by
      rintro rfl
      rw [Rat.cast_zero] at hv
      exact (mul_ne_zero h0.1 h0.2) hv
    have hvc : (v : ℂ) = (x : ℂ) * y := by exact_mod_cast hv.symm
    have hq0 : q ≠ 0 := by
      rintro rfl
      rw [Rat.cast_zero] at h7
      rcases mul_eq_zero.mp h7.symm with rfl | rfl
      · have := root_transfer ha.irreducible ha.natDegree_pos h5 hx X (by simp)
        simp at this
        exact h0.1 this
      · have := root_transfer hb.irreducible hb.natDegree_pos h6 hy X (by simp)
        simp at this
        exact h0.2 this
    rcases rat_prod_unique ha.irreducible hb.irreducible ha.natDegree_pos hb.natDegree_pos hx h5 hy h6 hvc
      h7 hv0 hq0 with rfl | rfl
    · exact absurd hv.symm h3
    · exact ⟨h2, by simpa using h4⟩

/-- C45: a rational product of two numbers held in intervals without zero is exact. -/
theorem C45_rational_product_signed (F : FactorCall) (a b : RealAlg) (x y : ℝ) (v : ℚ)
    (ha : a.Represents x) (hb : b.Represents y) (hv : x * y = v)
    (hza : ¬ a.interval.Contains 0) (hzb : ¬ b.interval.Contains 0)
    (hF : ∀ R, mulResultant a.poly b.poly = some R → R.toPoly ≠ 0 → FactorsRight F R) :
    ∃ N, ∀ fuel ≥ N, ∃ c, a.mul F fuel b = .ok c ∧ c.Represents v := by
  obtain ⟨N, hN⟩ := C45_rational_product_partial F a b x y v ha hb hv hF
  refine ⟨N, fun fuel hf => ?_⟩
  obtain ⟨c, h1, h2 | ⟨h2, h3⟩⟩ := hN fuel hf
  · exact ⟨c, h1, h2⟩
  · exfalso
    have key : ∀ (i : DFI) (z X : ℝ), ¬ i.Contains 0 → i.Contains z →
        (X = i.lowerBound ∨ X = i.upperBound) → 0 < z * X := by
      intro i z X hz hi hX
      have hc : i.Contains X := by
        obtain ⟨e1, e2⟩ := (DFI.contains_iff_bounds _ _).mp hi
        rw [DFI.contains_iff_bounds]
        rcases hX with rfl | rfl
        · exact ⟨le_rfl, e1.trans e2⟩
        · exact ⟨e1.trans e2, le_rfl⟩
      obtain ⟨s1, s2, s3, s4⟩ := same_sign hz hi hc
      rcases lt_or_gt_of_ne s1 with h | h
      · exact mul_pos_of_neg_of_neg h (s3.mp h)
      · exact mul_pos h (s4.mp h)
    obtain ⟨X, Y, X', Y', hX, hY, hX', hY', e1, e2⟩ := mul_ends a.interval b.interval
    have p1 := mul_pos (key _ x X hza ha.mem hX) (key _ y Y hzb hb.mem hY)
    have p2 := mul_pos (key _ x X' hza ha.mem hX') (key _ y Y' hzb hb.mem hY')
    rw [show x * X * (y * Y) = v * (X * Y) by rw [← hv]; ring] at p1
    rw [show x * X' * (y * Y') = v * (X' * Y') by rw [← hv]; ring] at p2
    rw [DFI.contains_iff_bounds] at h3
    have hP : (0 : ℝ) < 2 ^ (a.interval.mul b.interval).log2Denom := by positivity
    rcases lt_trichotomy (v : ℝ) 0 with h | h | h
    · have q2 : X' * Y' < 0 := by
        by_contra hc
        exact absurd p2 (not_lt.mpr (mul_nonpos_of_nonpos_of_nonneg h.le (not_lt.mp hc)))
      have := h3.2
      rw [DFI.upperBound_real, e2, le_div_iff₀ hP] at this
      have hc : (⌈X' * Y' * 2 ^ (a.interval.mul b.interval).log2Denom⌉ : ℝ) ≤ 0 := by
        have := Int.ceil_le.mpr (show X' * Y' * 2 ^ (a.interval.mul b.interval).log2Denom ≤ (0 : ℤ) by
          rw [Int.cast_zero]; exact (mul_neg_of_neg_of_pos q2 hP).le)
        exact_mod_cast (Int.cast_le (R := ℝ)).mpr this
      have := mul_pos (neg_pos.mpr h) hP
      linarith
    · rw [h, zero_mul] at p1
      exact lt_irrefl _ p1
    · have q1 : 0 < X * Y := (mul_pos_iff_of_pos_left h).mp p1
      have := h3.1
      rw [DFI.lowerBound_real, e1, div_le_iff₀ hP] at this
      have hc : (0 : ℝ) ≤ ⌊X * Y * 2 ^ (a.interval.mul b.interval).log2Denom⌋ := by
        have := Int.le_floor.mpr (show ((0 : ℤ) : ℝ) ≤ X * Y * 2 ^ (a.interval.mul b.interval).log2Denom by
          rw [Int.cast_zero]; exact (mul_pos q1 hP).le)
        exact_mod_cast (Int.cast_le (R := ℝ)).mpr this
      have := mul_pos h hP
      linarith

namespace RealAlg

/-- `√2` with the isolating interval `[-1, 2]` -/
def signlessSqrtTwo : RealAlg := ⟨Poly.ofCoeffs [-2, 0, 1], ⟨-1, 2, 0⟩⟩

theorem signlessSqrtTwo_represents : signlessSqrtTwo.Represents (√2) := by
  have hs : √2 ^ 2 = (2 : ℝ) := Real.sq_sqrt (by norm_num)
  have h0 : 0 ≤ √2 := Real.sqrt_nonneg 2
  have hp : signlessSqrtTwo.poly.toPoly = X ^ 2 + C 0 * X + C (-2) := toPoly_quadratic 0 (-2)
  refine ⟨sqrtTwo_represents.irreducible, ?_, sqrtTwo_represents.root, ?_, ?_⟩
  · rw [hp, quadratic_natDegree]; omega
  · simp only [DFI.Contains, signlessSqrtTwo]
    constructor <;> norm_num <;> nlinarith
  · intro y hy h1
    rw [hp, quadratic_aeval] at h1
    simp only [DFI.Contains, signlessSqrtTwo] at hy
    norm_num at hy h1
    have : (y - √2) * (y + √2) = 0 := by nlinarith
    rcases mul_eq_zero.mp this with h | h
    · linarith
    · nlinarith

/-- the resultant of the square of `√2`: `(x² - 4)²` -/
def squareRes : Poly ℤ := Poly.ofCoeffs [16, 0, -8, 0, 1]

theorem squareRes_toPoly : squareRes.toPoly = (X - C 2) ^ 2 * (X + C 2) ^ 2 := by
  rw [show squareRes.toPoly = _ from Poly.toPoly_ofCoeffs _]
  simp only [listPoly]
  have : (C 16 : ℤ[X]) = 16 := rfl
  have : (C (-8) : ℤ[X]) = -8 := by simp
  have : (C 2 : ℤ[X]) = 2 := rfl
  simp only [*, map_zero, map_one]
  ring

/-- the right factoring of `(x² - 4)²` -/
def squareFactor : FactorCall := fun _ =>
  .ok ⟨1, [(Poly.ofCoeffs [-2, 1], 2), (Poly.ofCoeffs [2, 1], 2)]⟩

theorem squareFactor_right : FactorsRight squareFactor squareRes := by
  have e1 : (Poly.ofCoeffs [-2, 1] : Poly ℤ).toPoly = X - C 2 := by rw [toPoly_linear]; simp [sub_eq_add_neg]
  have e2 : (Poly.ofCoeffs [2, 1] : Poly ℤ).toPoly = X + C 2 := by rw [toPoly_linear]; simp
  refine ⟨_, rfl, ?_, ?_, ?_, ?_, ?_⟩
  · rw [squareRes_toPoly]
    simp [Poly.powerProduct, e1, e2]
  · intro e he
    simp only [List.mem_cons, List.not_mem_nil, or_false] at he
    rcases he with rfl | rfl
    · simp only [e1]; exact irreducible_X_sub_C 2
    · simp only [e2]
      have := irreducible_X_sub_C (-2 : ℤ)
      simpa using this
  · intro e he
    simp only [List.mem_cons, List.not_mem_nil, or_false] at he
    rcases he with rfl | rfl
    · simp only [e1, leadingCoeff_X_sub_C]; norm_num
    · simp only [e2, leadingCoeff_X_add_C]; norm_num
  · intro e he
    simp only [List.mem_cons, List.not_mem_nil, or_false] at he
    rcases he with rfl | rfl <;> norm_num
  · simp only [List.pairwise_cons, List.mem_cons, List.not_mem_nil, or_false, forall_eq, e1, e2]
    refine ⟨?_, by simp⟩
    refine ⟨C (-(1 / 4)), C (1 / 4), ?_⟩
    simp only [Polynomial.map_sub, Polynomial.map_add, map_X, map_C, Int.coe_castRingHom, Int.cast_ofNat]
    rw [show C (-(1 / 4) : ℚ) * (X - C 2) + C (1 / 4) * (X + C 2) = C (1 / 4) * C 4 by
      rw [show (C 4 : ℚ[X]) = C 2 + C 2 by rw [← C_add]; norm_num, map_neg]; ring, ← C_mul]
    norm_num

end RealAlg

/-- C45 is false for rational products: `√2` held with the isolating interval `[-1, 2]`, multiplied by
itself, gives `-2`, for every right factoring of the resultant `(x² - 4)²`. -/
theorem C45_rational_product_false (F : FactorCall) (hF : FactorsRight F squareRes) (fuel : ℕ) :
    signlessSqrtTwo.Represents (√2) ∧
    signlessSqrtTwo.mul F (fuel + 1) signlessSqrtTwo = .ok (ofRat (-2)) ∧
    (ofRat (-2)).Represents (-2) ∧ √2 * √2 = 2 := by
  obtain ⟨q, h1, h2, h3⟩ := mul_endpoint signlessSqrtTwo_represents signlessSqrtTwo_represents
    irrational_sqrt_two irrational_sqrt_two _ squareRes (by decide +kernel) hF (by
      rw [show (signlessSqrtTwo.interval.mul signlessSqrtTwo.interval).lowerBound = -2 by decide +kernel,
        squareRes_toPoly]
      simp only [map_mul, map_pow, map_sub, map_add, aeval_X, aeval_C, algebraMap_int_eq, Int.coe_castRingHom]
      norm_num) fuel
  refine ⟨signlessSqrtTwo_represents, ?_, ?_, Real.mul_self_sqrt (by norm_num)⟩
  · rcases h2 with h2 | h2
    · rw [h1, h2]
      decide +kernel
    · exfalso
      rw [h2, show (signlessSqrtTwo.interval.mul signlessSqrtTwo.interval).upperBound = 4 by decide +kernel,
        squareRes_toPoly] at h3
      simp only [map_mul, map_pow, map_sub, map_add, aeval_X, aeval_C, algebraMap_int_eq,
        Int.coe_castRingHom] at h3
      norm_num at h3
  · have := ofRat_represents (-2)
    simpa using this

/-- the factoring assumed above exists -/
example (fuel : ℕ) : signlessSqrtTwo.mul squareFactor (fuel + 1) signlessSqrtTwo = .ok (ofRat (-2)) :=
  (C45_rational_product_false _ squareFactor_right fuel).2.1

/-- `√2` held with the interval `[1, 2]`: its square is exact. -/
example : ∃ N, ∀ fuel ≥ N, ∃ c, sqrtTwo.mul squareFactor fuel sqrtTwo = .ok c ∧ c.Represents 2 := by
  have hz : ¬ sqrtTwo.interval.Contains 0 := by
    simp only [DFI.Contains, sqrtTwo]
    norm_num
  have := C45_rational_product_signed squareFactor _ _ _ _ 2 sqrtTwo_represents sqrtTwo_represents
    (by rw [Real.mul_self_sqrt (by norm_num)]; norm_num) hz hz (by
      intro R hR _
      rw [show mulResultant sqrtTwo.poly sqrtTwo.poly = some squareRes by decide +kernel] at hR
      cases hR
      exact squareFactor_right)
  simpa using this

end Algebraics
