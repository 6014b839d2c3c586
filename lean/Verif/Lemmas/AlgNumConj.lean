import Verif.Lemmas.AlgNumOps
import Mathlib.FieldTheory.Minpoly.Field

/-!
# Conjugates

When the sum or product of conjugates can be rational, and what follows for the operations.
-/

namespace Algebraics

open Polynomial

namespace RealAlg

variable {a b : RealAlg} {x y : ℝ}

theorem no_rat_croot {p : ℤ[X]} (hp : Irreducible p) (hd : 2 ≤ p.natDegree) (q : ℚ) :
    (aeval (q : ℂ) p : ℂ) ≠ 0 := by
  rw [Ne, aeval_ratCast, aeval_rat_real_eq_zero]
  exact irreducible_no_rat_root hp hd q

/-- the only root of the polynomial of a rational number -/
theorem Represents.rat_croot {r : ℚ} (h : b.Represents r) {y' : ℂ} (hy : aeval y' b.poly.toPoly = 0) :
    y' = r := by
  rcases h.rat_or_irr with ⟨q, h1, h2, -⟩ | ⟨-, h2⟩
  · obtain rfl : q = r := by exact_mod_cast h1
    have hroot := (aeval_realCast _ _).mpr h.root
    rw [eq_X_add_C_of_natDegree_le_one h2.le] at hy hroot
    have hl : b.poly.toPoly.coeff 1 ≠ 0 := by
      rw [← h2]; exact leadingCoeff_ne_zero.mpr h.ne_zero
    have hl' : (b.poly.toPoly.coeff 1 : ℂ) ≠ 0 := by exact_mod_cast hl
    simp at hy hroot
    have : (b.poly.toPoly.coeff 1 : ℂ) * (y' - q) = 0 := by linear_combination hy - hroot
    rcases mul_eq_zero.mp this with h | h
    · exact absurd h hl'
    · exact sub_eq_zero.mp h
  · exact absurd ⟨r, rfl⟩ h2

/-- two irreducible polynomials with a common root have the same minimal polynomial for all their
roots -/
theorem minpoly_root {p : ℤ[X]} (hp : Irreducible p) (hd : 0 < p.natDegree) {z : ℂ} (hz : aeval z p = 0) :
    minpoly ℚ z = p.map (Int.castRingHom ℚ) * C (p.leadingCoeff : ℚ)⁻¹ := by
  have hprim : p.IsPrimitive := hp.isPrimitive (by omega)
  have hirr : Irreducible (p.map (Int.castRingHom ℚ)) :=
    (IsPrimitive.Int.irreducible_iff_irreducible_map_cast hprim).mp hp
  have h := minpoly.eq_of_irreducible hirr (x := z) (by
    rw [show (Int.castRingHom ℚ) = algebraMap ℤ ℚ from rfl, aeval_map_algebraMap]; exact hz)
  rw [← h, leadingCoeff_map_of_injective (RingHom.injective_int _)]
  rfl

/-- conjugates do not differ by a nonzero rational number -/
theorem conj_sub_rat {p q : ℤ[X]} (hp : Irreducible p) (hq : Irreducible q) (hdp : 0 < p.natDegree)
    (hdq : 0 < q.natDegree) {z : ℂ} (hz : aeval z p = 0) (hz' : aeval z q = 0) {u v : ℂ}
    (hu : aeval u p = 0) (hv : aeval v q = 0) {r : ℚ} (h : (r : ℂ) = u - v) : r = 0 := by
  have e : minpoly ℚ u = minpoly ℚ v := by
    rw [minpoly_root hp hdp hu, ← minpoly_root hp hdp hz, minpoly_root hq hdq hz', ←
      minpoly_root hq hdq hv]
  have huv : u = v + algebraMap ℚ ℂ r := by
    rw [eq_ratCast, h]; ring
  rw [huv, minpoly.add_algebraMap] at e
  have hint : IsIntegral ℚ v := by
    refine ((isAlgebraic_iff_isIntegral (K := ℚ)).mp ⟨q.map (Int.castRingHom ℚ), ?_, ?_⟩)
    · exact (Polynomial.map_ne_zero_iff (RingHom.injective_int _)).mpr hq.ne_zero
    · rw [show (Int.castRingHom ℚ) = algebraMap ℤ ℚ from rfl, aeval_map_algebraMap]; exact hv
  have hroot : ∀ k : ℕ, aeval (v + k * (r : ℂ)) (minpoly ℚ v) = 0 := by
    intro k
    induction k with
    | zero => simp
    | succ k ih =>
      rw [← e, aeval_comp]
      simp only [map_sub, aeval_X, aeval_C]
      rw [← ih]
      congr 1
      rw [eq_ratCast]
      push_cast
      ring_nf
  by_contra hr
  have hfin : (Set.range fun k : ℕ => v + k * (r : ℂ)).Finite := by
    refine ((minpoly ℚ v).rootSet_finite ℂ).subset ?_
    rintro _ ⟨k, rfl⟩
    rw [mem_rootSet]
    exact ⟨minpoly.ne_zero hint, hroot k⟩
  refine Set.infinite_range_of_injective ?_ hfin
  intro k l hkl
  simp only [add_right_inj] at hkl
  have hr' : (r : ℂ) ≠ 0 := by exact_mod_cast hr
  exact_mod_cast mul_right_cancel₀ hr' hkl

/-! ### operations with a rational operand -/

theorem Represents.add_rat (ha : a.Represents x) (hb : b.Represents y)
    (hr : (∃ r : ℚ, x = r) ∨ ∃ r : ℚ, y = r) (F : FactorCall)
    (hF : ∀ R, addResultant a.poly b.poly = some R → ∃ r, F R = .ok r ∧ FactorsOf r R.toPoly) :
    ∃ N, ∀ fuel ≥ N, ∃ c, a.add F fuel b = .ok c ∧ c.Represents (x + y) := by
  obtain ⟨N, hN⟩ := ha.add hb F hF
  refine ⟨N, fun fuel hf => ?_⟩
  obtain ⟨c, h1, h2 | ⟨q, h2, h3, -, x', y', h4, h5, h6⟩⟩ := hN fuel hf
  · exact ⟨c, h1, h2⟩
  · exfalso
    rcases hr with ⟨r, rfl⟩ | ⟨r, rfl⟩
    · rw [ha.rat_croot h4] at h6
      have h7 : y' = ((q - r : ℚ) : ℂ) := by push_cast; rw [h6]; ring
      rcases hb.rat_or_irr with ⟨s, rfl, -⟩ | ⟨hd, -⟩
      · rw [hb.rat_croot h5] at h7
        apply h3
        have : s = q - r := by exact_mod_cast h7
        rw [this]; push_cast; ring
      · rw [h7] at h5
        exact no_rat_croot hb.irreducible hd _ h5
    · rw [hb.rat_croot h5] at h6
      have h7 : x' = ((q - r : ℚ) : ℂ) := by push_cast; rw [h6]; ring
      rcases ha.rat_or_irr with ⟨s, rfl, -⟩ | ⟨hd, -⟩
      · rw [ha.rat_croot h4] at h7
        apply h3
        have : s = q - r := by exact_mod_cast h7
        rw [this]; push_cast; ring
      · rw [h7] at h4
        exact no_rat_croot ha.irreducible hd _ h4

theorem Represents.mul_rat (ha : a.Represents x) (hb : b.Represents y)
    (hr : (∃ r : ℚ, x = r) ∨ ∃ r : ℚ, y = r) (F : FactorCall)
    (hF : ∀ R, mulResultant a.poly b.poly = some R → R.toPoly ≠ 0 →
      ∃ r, F R = .ok r ∧ FactorsOf r R.toPoly) :
    ∃ N, ∀ fuel ≥ N, ∃ c, a.mul F fuel b = .ok c ∧ c.Represents (x * y) := by
  obtain ⟨N, hN⟩ := ha.mul hb F hF
  refine ⟨N, fun fuel hf => ?_⟩
  obtain ⟨c, h1, h2 | ⟨q, h2, h3, -, x', y', h4, h5, h6⟩⟩ := hN fuel hf
  · exact ⟨c, h1, h2⟩
  · by_cases h0 : x * y = 0
    · exfalso
      have hq : (q : ℂ) = 0 := by
        rcases mul_eq_zero.mp h0 with rfl | rfl
        · have ha' : a.Represents ((0 : ℚ) : ℝ) := by rw [Rat.cast_zero]; exact ha
          rw [h6, ha'.rat_croot h4]; simp
        · have hb' : b.Represents ((0 : ℚ) : ℝ) := by rw [Rat.cast_zero]; exact hb
          rw [h6, hb'.rat_croot h5]; simp
      apply h3
      rw [h0]
      exact_mod_cast hq
    exfalso
    rcases hr with ⟨r, rfl⟩ | ⟨r, rfl⟩
    · rw [ha.rat_croot h4] at h6
      have hr0 : r ≠ 0 := by rintro rfl; simp at h0
      have hr0' : (r : ℂ) ≠ 0 := by exact_mod_cast hr0
      have h7 : y' = ((q / r : ℚ) : ℂ) := by push_cast; rw [h6]; field_simp
      rcases hb.rat_or_irr with ⟨s, rfl, -⟩ | ⟨hd, -⟩
      · rw [hb.rat_croot h5] at h7
        apply h3
        have : s = q / r := by exact_mod_cast h7
        have hr1 : (r : ℝ) ≠ 0 := by exact_mod_cast hr0
        rw [this]; push_cast; field_simp
      · rw [h7] at h5
        exact no_rat_croot hb.irreducible hd _ h5
    · rw [hb.rat_croot h5] at h6
      have hr0 : r ≠ 0 := by rintro rfl; simp at h0
      have hr0' : (r : ℂ) ≠ 0 := by exact_mod_cast hr0
      have h7 : x' = ((q / r : ℚ) : ℂ) := by push_cast; rw [h6]; field_simp
      rcases ha.rat_or_irr with ⟨s, rfl, -⟩ | ⟨hd, -⟩
      · rw [ha.rat_croot h4] at h7
        apply h3
        have : s = q / r := by exact_mod_cast h7
        have hr1 : (r : ℝ) ≠ 0 := by exact_mod_cast hr0
        rw [this]; push_cast; field_simp
      · rw [h7] at h4
        exact no_rat_croot ha.irreducible hd _ h4

/-! ### subtraction -/

theorem neg_croot (h : b.Represents y) {n : RealAlg} (hn : b.neg = .ok n) (z : ℂ) :
    aeval z n.poly.toPoly = 0 ↔ aeval (-z) b.poly.toPoly = 0 := by
  obtain ⟨n', h1, -, h3, -⟩ := h.neg
  rw [hn] at h1
  cases h1
  rw [h3, map_mul, aeval_C, aeval_comp]
  simp

/-- `sub`, up to the choice of a wrong rational root of the resultant. -/
theorem Represents.sub (ha : a.Represents x) (hb : b.Represents y) (F : FactorCall)
    (hF : ∀ n R, b.neg = .ok n → addResultant a.poly n.poly = some R →
      ∃ r, F R = .ok r ∧ FactorsOf r R.toPoly) :
    ∃ N, ∀ fuel ≥ N, ∃ c, a.sub F fuel b = .ok c ∧ (c.Represents (x - y) ∨
      ∃ q : ℚ, c = ofRat q ∧ (q : ℝ) ≠ x - y ∧ (a.interval.sub b.interval).Contains q ∧
        ∃ x' y' : ℂ, aeval x' a.poly.toPoly = 0 ∧ aeval y' b.poly.toPoly = 0 ∧ (q : ℂ) = x' - y') := by
  obtain ⟨n, h1, h2, -, hi⟩ := hb.neg
  obtain ⟨N, hN⟩ := ha.add h2 F (fun R => hF n R h1)
  refine ⟨N, fun fuel hf => ?_⟩
  obtain ⟨c, h3, h4⟩ := hN fuel hf
  refine ⟨c, ?_, ?_⟩
  · unfold RealAlg.sub
    rw [h1]
    exact h3
  · rw [sub_eq_add_neg]
    rcases h4 with h4 | ⟨q, h4, h5, h6, x', y', h7, h8, h9⟩
    · exact Or.inl h4
    · refine Or.inr ⟨q, h4, h5, ?_, x', -y', h7, (neg_croot hb h1 y').mp h8, by rw [h9]; ring⟩
      rw [hi, DFI.contains_iff_bounds, (add_bounds _ _).1, (add_bounds _ _).2] at h6
      obtain ⟨t1, t2⟩ := C02_sub_tight a.interval b.interval
      rw [DFI.Contains, t1, t2]
      simp only [DFI.lowerBound_real, DFI.upperBound_real] at h6
      simp only [DFI.neg, Int.cast_neg] at h6
      constructor
      · have := h6.1
        rw [neg_div] at this
        linarith
      · have := h6.2
        rw [neg_div] at this
        linarith

theorem Represents.sub_rat (ha : a.Represents x) (hb : b.Represents y)
    (hr : (∃ r : ℚ, x = r) ∨ ∃ r : ℚ, y = r) (F : FactorCall)
    (hF : ∀ n R, b.neg = .ok n → addResultant a.poly n.poly = some R →
      ∃ r, F R = .ok r ∧ FactorsOf r R.toPoly) :
    ∃ N, ∀ fuel ≥ N, ∃ c, a.sub F fuel b = .ok c ∧ c.Represents (x - y) := by
  obtain ⟨n, h1, h2, -⟩ := hb.neg
  obtain ⟨N, hN⟩ := ha.add_rat h2 (by
    rcases hr with h | ⟨r, rfl⟩
    · exact Or.inl h
    · exact Or.inr ⟨-r, by push_cast; rfl⟩) F (fun R => hF n R h1)
  refine ⟨N, fun fuel hf => ?_⟩
  obtain ⟨c, h3, h4⟩ := hN fuel hf
  refine ⟨c, ?_, by rw [sub_eq_add_neg]; exact h4⟩
  unfold RealAlg.sub
  rw [h1]
  exact h3

/-! ### equal numbers -/

/-- the difference of equal numbers is zero -/
theorem Represents.sub_self (ha : a.Represents x) (hb : b.Represents x) (F : FactorCall)
    (hF : ∀ n R, b.neg = .ok n → addResultant a.poly n.poly = some R →
      ∃ r, F R = .ok r ∧ FactorsOf r R.toPoly) :
    ∃ N, ∀ fuel ≥ N, ∃ c, a.sub F fuel b = .ok c ∧ c.Represents 0 := by
  obtain ⟨N, hN⟩ := ha.sub hb F hF
  refine ⟨N, fun fuel hf => ?_⟩
  obtain ⟨c, h1, h2 | ⟨q, h2, h3, -, x', y', h4, h5, h6⟩⟩ := hN fuel hf
  · exact ⟨c, h1, by rwa [_root_.sub_self] at h2⟩
  · exfalso
    apply h3
    rw [_root_.sub_self, conj_sub_rat ha.irreducible hb.irreducible ha.natDegree_pos hb.natDegree_pos
      ((aeval_realCast _ _).mpr ha.root) ((aeval_realCast _ _).mpr hb.root) h4 h5 h6, Rat.cast_zero]

end RealAlg

end Algebraics
