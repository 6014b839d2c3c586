import Verif.Props.AlgNumConsistent

/-!
# C58: exactly when `abs_sub` is wrong
-/

namespace Algebraics

open Polynomial RealAlg

namespace RealAlg

/-- what `abs_sub` makes of the difference -/
theorem absSub_of_sub (F : FactorCall) (a b d : RealAlg) (z : ℝ) (fuel : ℕ) (h : a.sub F fuel b = .ok d)
    (hd : d.Represents z) : ∃ c, a.absSub F fuel b = .ok c ∧ c.Represents (max z 0) := by
  classical
  have h3 := hd.isNegative_eq
  by_cases h0 : z < 0
  · refine ⟨zero, ?_, ?_⟩
    · unfold RealAlg.absSub
      rw [h]
      simp [bind, Except.bind, pure, Except.pure, h3, h0]
    · rw [max_eq_right h0.le]
      have := ofInt_represents 0
      rwa [Int.cast_zero] at this
  · refine ⟨d, ?_, ?_⟩
    · unfold RealAlg.absSub
      rw [h]
      simp [bind, Except.bind, pure, Except.pure, h3, h0]
    · rwa [max_eq_left (not_lt.mp h0)]

end RealAlg

/-- C58: exactly when `abs_sub` is wrong: for irrational numbers with an irrational difference, if an end point is
hit, unless both the difference `x - y` and the rational difference of roots of the two polynomials, of which there
is only one, are not positive.  In all other cases the result is `max(x - y, 0)`. -/
theorem C58_abs_sub_exact_iff (F : FactorCall) (a b n : RealAlg) (x y : ℝ) (ha : a.Represents x)
    (hb : b.Represents y) (hn : b.neg = .ok n)
    (hF : ∀ R, addResultant a.poly n.poly = some R → FactorsRight F R) :
    (∃ N, ∀ fuel ≥ N, ∃ c, a.absSub F fuel b = .ok c ∧ c.Represents (max (x - y) 0)) ↔
    ¬ (Irrational x ∧ Irrational y ∧ Irrational (x - y) ∧ EndpointHit (· + ·) DFI.add a n ∧
      (y < x ∨ ∃ (q : ℚ) (x' y' : ℂ), aeval x' a.poly.toPoly = 0 ∧ aeval y' b.poly.toPoly = 0 ∧
        (q : ℂ) = x' - y' ∧ 0 < q)) := by
  obtain ⟨n', b1, b2, -⟩ := hb.neg
  rw [hn] at b1
  cases b1
  have s1 : ∀ fuel, a.sub F fuel b = a.add F fuel n := by
    intro fuel; unfold RealAlg.sub; rw [hn]; rfl
  rcases add_limit F ha b2 hF with ⟨h, N, hN⟩ | ⟨h, q, x', y', h1, h2, h3, N, hN⟩
  · refine iff_of_true ⟨N, fun fuel hf => ?_⟩ ?_
    · obtain ⟨c, c1, c2⟩ := hN fuel hf
      exact absSub_of_sub F a b c _ fuel (by rw [s1]; exact c1) (by rwa [sub_eq_add_neg])
    · rintro ⟨i1, i2, i3, i4, -⟩
      exact h ⟨i1, i2.neg, i3, i4⟩
  · have hirr : Irrational (x - y) := by rw [sub_eq_add_neg]; exact h.2.2.1
    have hne : x - y ≠ 0 := fun e => hirr ⟨0, by rw [e]; simp⟩
    have hq : ∀ (q' : ℚ) (u v : ℂ), aeval u a.poly.toPoly = 0 → aeval v b.poly.toPoly = 0 →
        (q' : ℂ) = u - v → q' = q := by
      intro q' u v hu hv he
      exact rat_sum_unique ha.irreducible b2.irreducible ha.natDegree_pos b2.natDegree_pos hu h1
        ((neg_croot hb hn (-v)).mpr (by rwa [neg_neg])) h2 (by rw [he]; ring) h3
    have habs : ∀ fuel ≥ N, ∃ c, a.absSub F fuel b = .ok c ∧ c.Represents (max (q : ℝ) 0) := fun fuel hf =>
      absSub_of_sub F a b (ofRat q) (q : ℝ) fuel (by rw [s1]; exact hN fuel hf) (ofRat_represents q)
    constructor
    · rintro ⟨M, hM⟩ ⟨-, -, -, -, hbad⟩
      obtain ⟨c, c1, c2⟩ := hM (max M N) (le_max_left _ _)
      obtain ⟨d, d1, d2⟩ := habs (max M N) (le_max_right _ _)
      rw [c1] at d1
      cases d1
      have he := c2.unique_real d2
      rcases hbad with g | ⟨q', u, v, e1, e2, e3, e4⟩
      · rw [max_eq_left (sub_pos.mpr g).le] at he
        refine hirr ⟨max q 0, ?_⟩
        rw [he]; push_cast; rfl
      · obtain rfl := hq q' u v e1 e2 e3
        have : (0 : ℝ) < q' := by exact_mod_cast e4
        rw [max_eq_left this.le] at he
        rcases lt_or_gt_of_ne hne with g | g
        · rw [max_eq_right g.le] at he; exact this.ne he
        · rw [max_eq_left g.le] at he
          exact hirr ⟨q', he.symm⟩
    · intro hno
      have hq0 : (q : ℝ) ≤ 0 := by
        by_contra g
        exact hno ⟨h.1, irrational_neg_iff.mp h.2.1, hirr, h.2.2.2, Or.inr ⟨q, x', -y', h1,
          (neg_croot hb hn y').mp h2, by rw [h3]; ring, by exact_mod_cast not_le.mp g⟩⟩
      have hxy : x - y ≤ 0 := by
        by_contra g
        exact hno ⟨h.1, irrational_neg_iff.mp h.2.1, hirr, h.2.2.2, Or.inl (sub_pos.mp (not_le.mp g))⟩
      refine ⟨N, fun fuel hf => ?_⟩
      obtain ⟨c, c1, c2⟩ := habs fuel hf
      refine ⟨c, c1, ?_⟩
      rw [max_eq_right hxy]
      rwa [max_eq_right hq0] at c2

/-- not vacuous, and both sides occur: `√2` held with `[0, 2]` minus its negation comes out as zero, so an end point
is hit there; the other way round the result is right although the same end point is hit. -/
example (choose : ℕ → List ℕ → ℕ) (hc : Poly.HeapOrder choose) (rng : ℕ → ℕ) (ffuel : ℕ) :
    ∃ n, wideSqrtTwo.neg = .ok n ∧
      (¬ ∃ N, ∀ fuel ≥ N, ∃ c, wideSqrtTwo.absSub (factorCall choose rng ffuel) fuel n = .ok c ∧
        c.Represents (max (√2 - -√2) 0)) ∧
      ∃ N, ∀ fuel ≥ N, ∃ c, n.absSub (factorCall choose rng ffuel) fuel wideSqrtTwo = .ok c ∧
        c.Represents (max (-√2 - √2) 0) := by
  have h0 : 0 < √2 := Real.sqrt_pos.mpr (by norm_num)
  obtain ⟨n, h1, h2⟩ := C40_neg _ _ wideSqrtTwo_represents
  have hn := h1
  rw [wide_neg] at hn
  cases hn
  have hF := sqrtTwo_factors rng choose hc ffuel
  refine ⟨_, wide_neg, ?_, ?_⟩
  · rintro ⟨N, hN⟩
    obtain ⟨c, c1, c2⟩ := hN (N + 1) (by omega)
    obtain ⟨-, m, m1, -, m2, m3, m4⟩ := C58_abs_sub_false choose hc rng ffuel N
    rw [wide_neg] at m1
    cases m1
    rw [m2] at c1
    cases c1
    exact m4 (c2.unique_real m3)
  · rw [C58_abs_sub_exact_iff _ _ _ _ _ _ h2 wideSqrtTwo_represents wide_neg
      (fun R => hF _ _ rfl rfl _ R wide_neg)]
    rintro ⟨-, -, -, -, g | ⟨q, u, v, e1, e2, e3, e4⟩⟩
    · linarith
    · have hu := sq_two u e1
      have hv := sq_two v e2
      exact e4.ne' (rat_sum_sqrt q u (-v) hu (by rw [neg_sq, hv]) (by rw [e3]; ring))

end Algebraics
