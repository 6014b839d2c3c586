import Verif.Lemmas.ShrinkAt
import Verif.Props.AlgNumOrder

/-!
# C44, C46: sums do not depend on the order of the operands, differences are opposite and comparisons
are antisymmetric, even where they are wrong; equality is not transitive
-/

namespace Algebraics

open Polynomial RealAlg

namespace RealAlg

/-- the hit end points of a sum, without shrinkers -/
theorem endpointHit_iff {a b : RealAlg} {x y : ℝ} (ha : a.Represents x) (hb : b.Represents y)
    (hx : Irrational x) (hy : Irrational y) :
    EndpointHit (· + ·) DFI.add a b ↔ ∃ (k : ℕ) (q : ℚ) (x' y' : ℂ),
      (q = ((fun i => DFI.shrinkAt i x)^[k] a.interval).lowerBound +
          ((fun i => DFI.shrinkAt i y)^[k] b.interval).lowerBound ∨
        q = ((fun i => DFI.shrinkAt i x)^[k] a.interval).upperBound +
          ((fun i => DFI.shrinkAt i y)^[k] b.interval).upperBound) ∧
      aeval x' a.poly.toPoly = 0 ∧ aeval y' b.poly.toPoly = 0 ∧ (q : ℂ) = x' + y' := by
  obtain ⟨s, hs1, hs2, hs3⟩ := ha.intervalShrinker
  obtain ⟨t, ht1, ht2, ht3⟩ := hb.intervalShrinker
  have hlow : ∀ i j : DFI, (i.add j).lowerBound = i.lowerBound + j.lowerBound := by
    intro i j; have := (add_bounds i j).1; exact_mod_cast this
  have hupp : ∀ i j : DFI, (i.add j).upperBound = i.upperBound + j.upperBound := by
    intro i j; have := (add_bounds i j).2; exact_mod_cast this
  constructor
  · rintro ⟨k, s0, t0, s', t', q, x', y', e1, e2, e3, e4, e5, e6, e7, e8⟩
    rw [hs1] at e1; cases e1
    rw [ht1] at e2; cases e2
    obtain ⟨u, f1, -, f2⟩ := hs2.shrinkTimes_interval hx k
    obtain ⟨v, g1, -, g2⟩ := ht2.shrinkTimes_interval hy k
    rw [e3] at f1; cases f1
    rw [e4] at g1; cases g1
    rw [f2, g2, hs3, ht3, hlow, hupp] at e5
    exact ⟨k, q, x', y', e5, e6, e7, e8⟩
  · rintro ⟨k, q, x', y', e5, e6, e7, e8⟩
    obtain ⟨u, f1, -, f2⟩ := hs2.shrinkTimes_interval hx k
    obtain ⟨v, g1, -, g2⟩ := ht2.shrinkTimes_interval hy k
    refine ⟨k, s, t, u, v, q, x', y', hs1, ht1, f1, g1, ?_, e6, e7, e8⟩
    rw [f2, g2, hs3, ht3, hlow, hupp]
    exact e5

theorem endpointHit_comm {a b : RealAlg} {x y : ℝ} (ha : a.Represents x) (hb : b.Represents y)
    (hx : Irrational x) (hy : Irrational y) (h : EndpointHit (· + ·) DFI.add a b) :
    EndpointHit (· + ·) DFI.add b a := by
  obtain ⟨k, q, x', y', e5, e6, e7, e8⟩ := (endpointHit_iff ha hb hx hy).mp h
  refine (endpointHit_iff hb ha hy hx).mpr ⟨k, q, y', x', ?_, e7, e6, by rw [e8, add_comm]⟩
  rcases e5 with e | e
  · exact Or.inl (by rw [e, add_comm])
  · exact Or.inr (by rw [e, add_comm])

theorem neg_lowerBound (i : DFI) : i.neg.lowerBound = -i.upperBound := by
  unfold DFI.lowerBound DFI.upperBound DFI.neg; push_cast; ring

theorem neg_upperBound (i : DFI) : i.neg.upperBound = -i.lowerBound := by
  unfold DFI.lowerBound DFI.upperBound DFI.neg; push_cast; ring

/-- the end points hit by `b - a` are the negated end points hit by `a - b` -/
theorem endpointHit_neg {a b na nb : RealAlg} {x y : ℝ} (ha : a.Represents x) (hb : b.Represents y)
    (hna : a.neg = .ok na) (hnb : b.neg = .ok nb) (hx : Irrational x) (hy : Irrational y)
    (h : EndpointHit (· + ·) DFI.add a nb) : EndpointHit (· + ·) DFI.add b na := by
  obtain ⟨n1, f1, f2, -, f4⟩ := ha.neg
  rw [hna] at f1; cases f1
  obtain ⟨n2, g1, g2, -, g4⟩ := hb.neg
  rw [hnb] at g1; cases g1
  obtain ⟨k, q, x', y', e5, e6, e7, e8⟩ := (endpointHit_iff ha g2 hx hy.neg).mp h
  refine (endpointHit_iff hb f2 hy hx.neg).mpr ⟨k, -q, -y', -x', ?_, (neg_croot hb hnb y').mp e7,
    (neg_croot ha hna (-x')).mpr (by rwa [neg_neg]), by push_cast; rw [e8]; ring⟩
  rw [g4, DFI.shrinkAt_iterate_neg hy, neg_lowerBound, neg_upperBound] at e5
  rw [f4, DFI.shrinkAt_iterate_neg hx, neg_lowerBound, neg_upperBound]
  rcases e5 with e | e
  · exact Or.inr (by rw [e]; ring)
  · exact Or.inl (by rw [e]; ring)

/-- what addition eventually returns: the sum, or the only rational sum of conjugates -/
theorem add_limit {a b : RealAlg} {x y : ℝ} (F : FactorCall) (ha : a.Represents x) (hb : b.Represents y)
    (hF : ∀ R, addResultant a.poly b.poly = some R → FactorsRight F R) :
    (¬ (Irrational x ∧ Irrational y ∧ Irrational (x + y) ∧ EndpointHit (· + ·) DFI.add a b) ∧
      ∃ N, ∀ fuel ≥ N, ∃ c, a.add F fuel b = .ok c ∧ c.Represents (x + y)) ∨
    ((Irrational x ∧ Irrational y ∧ Irrational (x + y) ∧ EndpointHit (· + ·) DFI.add a b) ∧
      ∃ (q : ℚ) (x' y' : ℂ), aeval x' a.poly.toPoly = 0 ∧ aeval y' b.poly.toPoly = 0 ∧
        (q : ℂ) = x' + y' ∧ ∃ N, ∀ fuel ≥ N, a.add F fuel b = .ok (ofRat q)) := by
  obtain ⟨h1, h2⟩ := C44_add_exact_iff F a b x y ha hb hF
  by_cases h : Irrational x ∧ Irrational y ∧ Irrational (x + y) ∧ EndpointHit (· + ·) DFI.add a b
  · refine Or.inr ⟨h, ?_⟩
    obtain ⟨N, q, hN⟩ := h2 h
    obtain ⟨M, hM⟩ := C44_add_partial F a b x y ha hb hF
    obtain ⟨c, g1, g2⟩ := hM (max M N) (le_max_left _ _)
    rw [hN _ (le_max_right _ _)] at g1
    cases g1
    rcases g2 with g2 | ⟨q', g3, -, -, x', y', g4, g5, g6⟩
    · exact absurd ⟨q, (ofRat_represents q).unique_real g2⟩ h.2.2.1
    · have hq : (q : ℝ) = q' := by
        refine (ofRat_represents q).unique_real ?_
        rw [g3]; exact ofRat_represents q'
      obtain rfl : q = q' := by exact_mod_cast hq
      exact ⟨q, x', y', g4, g5, g6, N, hN⟩
  · exact Or.inl ⟨h, h1.mpr h⟩

theorem cmp_of_opposite (F : FactorCall) (a b c d : RealAlg) (z : ℝ) (fuel : ℕ)
    (h1 : a.sub F fuel b = .ok c) (h2 : c.Represents z) (h3 : b.sub F fuel a = .ok d)
    (h4 : d.Represents (-z)) : ∀ o : Ordering, ((o = .lt ↔ z < 0) ∧ (o = .eq ↔ z = 0) ∧ (o = .gt ↔ 0 < z)) →
    a.cmp F fuel b = .ok o ∧ b.cmp F fuel a = .ok o.swap ∧ a.eq F fuel b = .ok (o == .eq) ∧
      b.eq F fuel a = .ok (o == .eq) := by
  rintro o ⟨o1, o2, o3⟩
  have e1 : a.cmp F fuel b = c.cmpWithZero := by unfold RealAlg.cmp; rw [h1]; rfl
  have e2 : b.cmp F fuel a = d.cmpWithZero := by unfold RealAlg.cmp; rw [h3]; rfl
  have e3 : a.eq F fuel b = .ok c.isZero := by unfold RealAlg.eq; rw [h1]; rfl
  have e4 : b.eq F fuel a = .ok d.isZero := by unfold RealAlg.eq; rw [h3]; rfl
  have z1 : c.isZero = (o == .eq) := by
    rw [Bool.eq_iff_iff, h2.isZero_iff, beq_iff_eq, o2]
  have z2 : d.isZero = (o == .eq) := by
    rw [Bool.eq_iff_iff, h4.isZero_iff, beq_iff_eq, o2, neg_eq_zero]
  obtain ⟨p, p1, p2, p3, p4⟩ := C41_cmp_with_zero c _ h2
  obtain ⟨r, r1, r2, r3, r4⟩ := C41_cmp_with_zero d _ h4
  rw [e1, e2, e3, e4, z1, z2, p1, r1]
  refine ⟨?_, ?_, rfl, rfl⟩
  · congr 1
    rcases lt_trichotomy z 0 with h | h | h
    · rw [p2.mpr h, o1.mpr h]
    · rw [p3.mpr h, o2.mpr h]
    · rw [p4.mpr h, o3.mpr h]
  · congr 1
    rcases lt_trichotomy z 0 with h | h | h
    · rw [r4.mpr (by linarith), o1.mpr h]; rfl
    · rw [r3.mpr (by linarith), o2.mpr h]; rfl
    · rw [r2.mpr (by linarith), o3.mpr h]; rfl

end RealAlg

/-- C44: addition is commutative: `a + b` and `b + a` stand for the same number, also where that number is
not the sum. -/
theorem C44_add_comm (F : FactorCall) (a b : RealAlg) (x y : ℝ) (ha : a.Represents x)
    (hb : b.Represents y) (hF : ∀ R, addResultant a.poly b.poly = some R → FactorsRight F R)
    (hF' : ∀ R, addResultant b.poly a.poly = some R → FactorsRight F R) :
    ∃ z : ℝ, ∃ N, ∀ fuel ≥ N, ∃ c d, a.add F fuel b = .ok c ∧ c.Represents z ∧
      b.add F fuel a = .ok d ∧ d.Represents z := by
  rcases add_limit F ha hb hF with ⟨h, N, hN⟩ | ⟨h, q, x', y', h1, h2, h3, N, hN⟩ <;>
    rcases add_limit F hb ha hF' with ⟨h', M, hM⟩ | ⟨h', q', y'', x'', g1, g2, g3, M, hM⟩
  · refine ⟨x + y, max N M, fun fuel hf => ?_⟩
    obtain ⟨c, c1, c2⟩ := hN fuel (le_trans (le_max_left _ _) hf)
    obtain ⟨d, d1, d2⟩ := hM fuel (le_trans (le_max_right _ _) hf)
    exact ⟨c, d, c1, c2, d1, by rwa [add_comm]⟩
  · exact absurd ⟨h'.2.1, h'.1, by rw [add_comm]; exact h'.2.2.1, endpointHit_comm hb ha h'.1 h'.2.1 h'.2.2.2⟩ h
  · exact absurd ⟨h.2.1, h.1, by rw [add_comm]; exact h.2.2.1, endpointHit_comm ha hb h.1 h.2.1 h.2.2.2⟩ h'
  · obtain rfl : q = q' := rat_sum_unique ha.irreducible hb.irreducible ha.natDegree_pos
      hb.natDegree_pos h1 g2 h2 g1 h3 (by rw [g3, add_comm])
    exact ⟨q, max N M, fun fuel hf => ⟨_, _, hN fuel (le_trans (le_max_left _ _) hf), ofRat_represents q,
      hM fuel (le_trans (le_max_right _ _) hf), ofRat_represents q⟩⟩

/-- C44: `a - b` and `b - a` stand for opposite numbers, also where these are not the differences. -/
theorem C44_sub_opposite (F : FactorCall) (a b : RealAlg) (x y : ℝ) (ha : a.Represents x)
    (hb : b.Represents y)
    (hF : ∀ n R, b.neg = .ok n → addResultant a.poly n.poly = some R → FactorsRight F R)
    (hF' : ∀ n R, a.neg = .ok n → addResultant b.poly n.poly = some R → FactorsRight F R) :
    ∃ z : ℝ, ∃ N, ∀ fuel ≥ N, ∃ c d, a.sub F fuel b = .ok c ∧ c.Represents z ∧
      b.sub F fuel a = .ok d ∧ d.Represents (-z) := by
  obtain ⟨na, a1, a2, -⟩ := ha.neg
  obtain ⟨nb, b1, b2, -⟩ := hb.neg
  have s1 : ∀ fuel, a.sub F fuel b = a.add F fuel nb := by
    intro fuel; unfold RealAlg.sub; rw [b1]; rfl
  have s2 : ∀ fuel, b.sub F fuel a = b.add F fuel na := by
    intro fuel; unfold RealAlg.sub; rw [a1]; rfl
  simp only [s1, s2]
  rcases add_limit F ha b2 (fun R hR => hF nb R b1 hR) with ⟨h, N, hN⟩ | ⟨h, q, x', y', h1, h2, h3, N, hN⟩ <;>
    rcases add_limit F hb a2 (fun R hR => hF' na R a1 hR) with ⟨h', M, hM⟩ | ⟨h', q', y'', x'', g1, g2, g3, M, hM⟩
  · refine ⟨x + -y, max N M, fun fuel hf => ?_⟩
    obtain ⟨c, c1, c2⟩ := hN fuel (le_trans (le_max_left _ _) hf)
    obtain ⟨d, d1, d2⟩ := hM fuel (le_trans (le_max_right _ _) hf)
    exact ⟨c, d, c1, c2, d1, by rwa [show -(x + -y) = y + -x by ring]⟩
  · have hx := irrational_neg_iff.mp h'.2.1
    refine absurd ⟨hx, h'.1.neg, ?_, endpointHit_neg hb ha b1 a1 h'.1 hx h'.2.2.2⟩ h
    rw [show x + -y = -(y + -x) by ring]; exact h'.2.2.1.neg
  · have hy := irrational_neg_iff.mp h.2.1
    refine absurd ⟨hy, h.1.neg, ?_, endpointHit_neg ha hb a1 b1 h.1 hy h.2.2.2⟩ h'
    rw [show y + -x = -(x + -y) by ring]; exact h.2.2.1.neg
  · obtain rfl : q' = -q := by
      have : q = -q' := rat_sum_unique ha.irreducible b2.irreducible ha.natDegree_pos
        b2.natDegree_pos h1 ((neg_croot ha a1 _).mp g2) h2
        ((neg_croot hb b1 (-y'')).mpr (by rwa [neg_neg])) h3 (by push_cast; rw [g3]; ring)
      rw [this, neg_neg]
    refine ⟨q, max N M, fun fuel hf => ⟨_, _, hN fuel (le_trans (le_max_left _ _) hf), ofRat_represents q,
      hM fuel (le_trans (le_max_right _ _) hf), ?_⟩⟩
    have := ofRat_represents (-q)
    push_cast at this
    exact this

/-- C46: comparison is antisymmetric, equality is symmetric, and the two agree with each other, also where
they are wrong. -/
theorem C46_antisymmetric (F : FactorCall) (a b : RealAlg) (x y : ℝ) (ha : a.Represents x)
    (hb : b.Represents y)
    (hF : ∀ n R, b.neg = .ok n → addResultant a.poly n.poly = some R → FactorsRight F R)
    (hF' : ∀ n R, a.neg = .ok n → addResultant b.poly n.poly = some R → FactorsRight F R) :
    ∃ o : Ordering, ∃ N, ∀ fuel ≥ N, a.cmp F fuel b = .ok o ∧ b.cmp F fuel a = .ok o.swap ∧
      a.eq F fuel b = .ok (o == .eq) ∧ b.eq F fuel a = .ok (o == .eq) := by
  obtain ⟨z, N, hN⟩ := C44_sub_opposite F a b x y ha hb hF hF'
  have ho : ∃ o : Ordering, (o = .lt ↔ z < 0) ∧ (o = .eq ↔ z = 0) ∧ (o = .gt ↔ 0 < z) := by
    rcases lt_trichotomy z 0 with h | h | h
    · exact ⟨.lt, by simp [h], by simp [h.ne], by simp [h.le]⟩
    · exact ⟨.eq, by simp [h], by simp [h], by simp [h]⟩
    · exact ⟨.gt, by simp [h.le], by simp [h.ne'], by simp [h]⟩
  obtain ⟨o, ho⟩ := ho
  refine ⟨o, N, fun fuel hf => ?_⟩
  obtain ⟨c, d, h1, h2, h3, h4⟩ := hN fuel hf
  exact cmp_of_opposite F a b c d z fuel h1 h2 h3 h4 o ho

/-- C46: exactly when comparison is wrong: for irrational numbers with an irrational difference, if an end
point is hit and the rational difference of roots of the two polynomials, of which there is only one, has
another sign than `x - y`.  In all other cases `==` and `cmp` are those of the real numbers. -/
theorem C46_exact_iff (F : FactorCall) (a b n : RealAlg) (x y : ℝ) (ha : a.Represents x)
    (hb : b.Represents y) (hn : b.neg = .ok n)
    (hF : ∀ R, addResultant a.poly n.poly = some R → FactorsRight F R) :
    (∃ N, ∀ fuel ≥ N, (∃ e, a.eq F fuel b = .ok e ∧ (e = true ↔ x = y)) ∧
      ∃ o, a.cmp F fuel b = .ok o ∧ (o = .lt ↔ x < y) ∧ (o = .eq ↔ x = y) ∧ (o = .gt ↔ y < x)) ↔
    ¬ (Irrational x ∧ Irrational y ∧ Irrational (x - y) ∧ EndpointHit (· + ·) DFI.add a n ∧
      ∃ (q : ℚ) (x' y' : ℂ), aeval x' a.poly.toPoly = 0 ∧ aeval y' b.poly.toPoly = 0 ∧
        (q : ℂ) = x' - y' ∧ SignType.sign (q : ℝ) ≠ SignType.sign (x - y)) := by
  obtain ⟨n', b1, b2, -⟩ := hb.neg
  rw [hn] at b1
  cases b1
  have s1 : ∀ fuel, a.sub F fuel b = a.add F fuel n := by
    intro fuel; unfold RealAlg.sub; rw [hn]; rfl
  rcases add_limit F ha b2 hF with ⟨h, N, hN⟩ | ⟨h, q, x', y', h1, h2, h3, N, hN⟩
  · refine iff_of_true ⟨N, fun fuel hf => ?_⟩ ?_
    · obtain ⟨c, c1, c2⟩ := hN fuel hf
      exact cmp_of_sub F a b c x y fuel (by rw [s1]; exact c1) c2
    · rintro ⟨i1, i2, i3, i4, -⟩
      exact h ⟨i1, i2.neg, i3, i4⟩
  · have hne : x - y ≠ 0 := by
      intro e
      exact h.2.2.1 ⟨0, by rw [← sub_eq_add_neg, e]; simp⟩
    have hq : ∀ (q' : ℚ) (u v : ℂ), aeval u a.poly.toPoly = 0 → aeval v b.poly.toPoly = 0 →
        (q' : ℂ) = u - v → q' = q := by
      intro q' u v hu hv he
      exact rat_sum_unique ha.irreducible b2.irreducible ha.natDegree_pos b2.natDegree_pos hu h1
        ((neg_croot hb hn (-v)).mpr (by rwa [neg_neg])) h2 (by rw [he]; ring) h3
    have hcmp : ∀ fuel ≥ N, (∃ e, a.eq F fuel b = .ok e ∧ (e = true ↔ (q : ℝ) = 0)) ∧
        ∃ o, a.cmp F fuel b = .ok o ∧ (o = .lt ↔ (q : ℝ) < 0) ∧ (o = .eq ↔ (q : ℝ) = 0) ∧
          (o = .gt ↔ 0 < (q : ℝ)) := by
      intro fuel hf
      exact cmp_of_sub F a b (ofRat q) (q : ℝ) 0 fuel (by rw [s1]; exact hN fuel hf)
        (by simpa using ofRat_represents q)
    constructor
    · rintro ⟨M, hM⟩ ⟨-, -, -, -, q', u, v, e1, e2, e3, e4⟩
      obtain rfl := hq q' u v e1 e2 e3
      obtain ⟨-, o, o1, o2, o3, o4⟩ := hcmp (max M N) (le_max_right _ _)
      obtain ⟨-, p, p1, p2, p3, p4⟩ := hM (max M N) (le_max_left _ _)
      rw [o1] at p1
      cases p1
      apply e4
      rcases lt_trichotomy (q' : ℝ) 0 with g | g | g
      · rw [sign_neg g, sign_neg (sub_neg.mpr (p2.mp (o2.mpr g)))]
      · exact absurd (sub_eq_zero.mpr (p3.mp (o3.mpr g))) hne
      · rw [sign_pos g, sign_pos (sub_pos.mpr (p4.mp (o4.mpr g)))]
    · intro hno
      have hs : SignType.sign (q : ℝ) = SignType.sign (x - y) := by
        by_contra hs
        exact hno ⟨h.1, irrational_neg_iff.mp h.2.1, h.2.2.1, h.2.2.2, q, x', -y', h1,
          (neg_croot hb hn y').mp h2, by rw [h3]; ring, hs⟩
      refine ⟨N, fun fuel hf => ?_⟩
      obtain ⟨⟨e, e1, e2⟩, o, o1, o2, o3, o4⟩ := hcmp fuel hf
      have l : (q : ℝ) < 0 ↔ x < y := by
        rw [← sign_eq_neg_one_iff, hs, sign_eq_neg_one_iff, sub_neg]
      have z : (q : ℝ) = 0 ↔ x = y := by
        rw [← sign_eq_zero_iff, hs, sign_eq_zero_iff, sub_eq_zero]
      have g : 0 < (q : ℝ) ↔ y < x := by
        rw [← sign_eq_one_iff, hs, sign_eq_one_iff, sub_pos]
      exact ⟨⟨e, e1, by rw [e2, z]⟩, o, o1, by rw [o2, l], by rw [o3, z], by rw [o4, g]⟩

namespace RealAlg

theorem wide_neg : wideSqrtTwo.neg = .ok ⟨Poly.ofCoeffs [-2, 0, 1], ⟨-2, 0, 0⟩⟩ := by decide +kernel

/-- all the differences of the numbers below have the same resultant -/
theorem sqrtTwo_factors (rng : ℕ → ℕ) (choose : ℕ → List ℕ → ℕ) (hc : Poly.HeapOrder choose) (ffuel : ℕ)
    (a b : RealAlg) (ha : a.poly = Poly.ofCoeffs [-2, 0, 1]) (hb : b.poly = Poly.ofCoeffs [-2, 0, 1])
    (n : RealAlg) (R : Poly ℤ) (hn : b.neg = .ok n) (hR : addResultant a.poly n.poly = some R) :
    FactorsRight (factorCall choose rng ffuel) R := by
  have hp : n.poly = Poly.ofCoeffs [-2, 0, 1] := by
    obtain ⟨p, i⟩ := b
    simp only at hb
    subst hb
    have : RealAlg.neg ⟨Poly.ofCoeffs [-2, 0, 1], i⟩ = .ok ⟨Poly.ofCoeffs [-2, 0, 1], i.neg⟩ := by
      unfold RealAlg.neg
      rw [show RealAlg.degree ⟨Poly.ofCoeffs [-2, 0, 1], i⟩ = .ok 2 by
        unfold RealAlg.degree
        rw [show (Poly.ofCoeffs [-2, 0, 1] : Poly ℤ).degree = some 2 by decide +kernel]; rfl]
      simp only [bind, Except.bind, pure, Except.pure]
      congr 2
    rw [this] at hn
    cases hn
    rfl
  rw [ha, hp, show addResultant (Poly.ofCoeffs [-2, 0, 1]) (Poly.ofCoeffs [-2, 0, 1]) = some sumRes by
    decide +kernel] at hR
  cases hR
  exact sumRes_right _ hc rng ffuel

end RealAlg

/-- C46: equality is not transitive.  `√2` held with the interval `[0, 2]` is reported equal to `-√2`, held
with `[-2, 0]`, and to `√2`, held with `[1, 2]`; these two are reported different, and in order. -/
theorem C46_transitive_false (choose : ℕ → List ℕ → ℕ) (hc : Poly.HeapOrder choose) (rng : ℕ → ℕ)
    (ffuel : ℕ) :
    ∃ n, wideSqrtTwo.neg = .ok n ∧ n.Represents (-√2) ∧ wideSqrtTwo.Represents (√2) ∧
      sqrtTwo.Represents (√2) ∧ ∃ N, ∀ fuel ≥ N,
      n.eq (factorCall choose rng ffuel) fuel wideSqrtTwo = .ok true ∧
      wideSqrtTwo.eq (factorCall choose rng ffuel) fuel sqrtTwo = .ok true ∧
      n.eq (factorCall choose rng ffuel) fuel sqrtTwo = .ok false ∧
      n.cmp (factorCall choose rng ffuel) fuel wideSqrtTwo = .ok .eq ∧
      wideSqrtTwo.cmp (factorCall choose rng ffuel) fuel sqrtTwo = .ok .eq ∧
      n.cmp (factorCall choose rng ffuel) fuel sqrtTwo = .ok .lt := by
  have h0 : 0 < √2 := Real.sqrt_pos.mpr (by norm_num)
  obtain ⟨n, h1, h2⟩ := C40_neg _ _ wideSqrtTwo_represents
  have hn := h1
  rw [wide_neg] at hn
  cases hn
  obtain ⟨o, N1, hN1⟩ := C46_antisymmetric (factorCall choose rng ffuel) _ _ _ _ wideSqrtTwo_represents h2
    (sqrtTwo_factors rng choose hc ffuel _ _ rfl rfl) (sqrtTwo_factors rng choose hc ffuel _ _ rfl rfl)
  obtain ⟨N2, hN2⟩ := C46_equal (factorCall choose rng ffuel) _ _ _ wideSqrtTwo_represents sqrtTwo_represents
    (sqrtTwo_factors rng choose hc ffuel _ _ rfl rfl)
  obtain ⟨N3, hN3⟩ := C46_disjoint_partial (factorCall choose rng ffuel) _ _ _ _ h2 sqrtTwo_represents
    (sqrtTwo_factors rng choose hc ffuel _ _ rfl rfl) (by
      rintro ⟨z, z1, z2⟩
      rw [DFI.contains_iff_bounds] at z1 z2
      have e1 : DFI.upperBound ⟨-2, 0, 0⟩ = 0 := by decide +kernel
      have e2 : sqrtTwo.interval.lowerBound = 1 := by decide +kernel
      simp only [e1] at z1
      rw [e2] at z2
      have := z1.2.trans' z2.1
      norm_num at this)
  have ho : o = .eq := by
    obtain ⟨-, n', f1, -, -, f2, -⟩ := C46_eq_false choose hc rng ffuel N1
    rw [wide_neg] at f1
    cases f1
    have := (hN1 (N1 + 1) (by omega)).1
    rw [this] at f2
    exact Except.ok.inj f2
  subst ho
  refine ⟨_, h1, h2, wideSqrtTwo_represents, sqrtTwo_represents, max N1 (max N2 N3), fun fuel hf => ?_⟩
  obtain ⟨-, p2, -, p4⟩ := hN1 fuel (by omega)
  obtain ⟨q1, q2⟩ := hN2 fuel (by omega)
  obtain ⟨⟨e, e1, e2⟩, o, o1, o2, -⟩ := hN3 fuel (by omega)
  refine ⟨p4, q1, ?_, p2, q2, ?_⟩
  · rw [e1]
    have : e ≠ true := fun h => by have := e2.mp h; linarith
    simp [this]
  · rw [o1, o2.mpr (by linarith)]

/-- `√2` held with `[0, 2]` and `-√2`: all hypotheses of `C46_antisymmetric` are met, and the answer is the
wrong one. -/
example (rng : ℕ → ℕ) (o : Ordering) (N : ℕ) (n : RealAlg) (hn : wideSqrtTwo.neg = .ok n)
    (h : ∀ fuel ≥ N, wideSqrtTwo.cmp (factorCall firstSmallest rng 0) fuel n = .ok o) :
    n.Represents (-√2) ∧ o = .eq ∧
    (∀ m R, n.neg = .ok m → addResultant wideSqrtTwo.poly m.poly = some R →
      FactorsRight (factorCall firstSmallest rng 0) R) ∧
    (∀ m R, wideSqrtTwo.neg = .ok m → addResultant n.poly m.poly = some R →
      FactorsRight (factorCall firstSmallest rng 0) R) := by
  obtain ⟨-, n', f1, f2, -, f3, -⟩ := C46_eq_false firstSmallest firstSmallest_order rng 0 N
  have g := h (N + 1) (by omega)
  rw [wide_neg] at hn f1
  cases hn
  cases f1
  rw [f3] at g
  cases g
  exact ⟨f2, rfl, sqrtTwo_factors rng _ firstSmallest_order 0 _ _ rfl rfl,
    sqrtTwo_factors rng _ firstSmallest_order 0 _ _ rfl rfl⟩

/-- `C46_exact_iff` in the same case: its hypotheses are met, and the excluded situation occurs. -/
example (rng : ℕ → ℕ) : ∃ n m, wideSqrtTwo.neg = .ok n ∧ n.neg = .ok m ∧ n.Represents (-√2) ∧
    (∀ R, addResultant wideSqrtTwo.poly m.poly = some R →
      FactorsRight (factorCall firstSmallest rng 0) R) ∧
    EndpointHit (· + ·) DFI.add wideSqrtTwo m := by
  have hm : RealAlg.neg ⟨Poly.ofCoeffs [-2, 0, 1], ⟨-2, 0, 0⟩⟩ = .ok wideSqrtTwo := by decide +kernel
  obtain ⟨n, h1, h2⟩ := C40_neg _ _ wideSqrtTwo_represents
  have h3 := h1
  rw [wide_neg] at h3
  cases h3
  have hF := fun R => sqrtTwo_factors rng _ firstSmallest_order 0 wideSqrtTwo
    ⟨Poly.ofCoeffs [-2, 0, 1], ⟨-2, 0, 0⟩⟩ rfl rfl _ R hm
  refine ⟨_, _, h1, hm, h2, hF, ?_⟩
  by_contra hno
  have := (C46_exact_iff _ _ _ _ _ _ wideSqrtTwo_represents h2 hm hF).mpr (fun h => hno h.2.2.2.1)
  obtain ⟨N, hN⟩ := this
  obtain ⟨-, o, o1, -, o2, -⟩ := hN (N + 1) (by omega)
  obtain ⟨-, n', f1, -, -, f2, f3⟩ := C46_eq_false firstSmallest firstSmallest_order rng 0 N
  rw [wide_neg] at f1
  cases f1
  rw [f2] at o1
  cases o1
  exact f3 (o2.mp rfl)

end Algebraics
