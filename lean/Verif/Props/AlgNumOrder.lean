import Verif.Lemmas.SelectWithin

/-!
# C44-C46: the enclosing interval bounds the error of every result, and numbers held in disjoint
intervals compare right
-/

namespace Algebraics

open Polynomial RealAlg

namespace RealAlg

theorem DFI_sub_eq (i j : DFI) : i.sub j = i.add j.neg := by
  unfold DFI.sub DFI.add DFI.doOp DFI.neg
  simp only [shl, neg_mul, sub_eq_add_neg]

theorem sub_contains_iff (i j : DFI) (z : ℝ) : (i.sub j).Contains z ↔
    (i.lowerBound : ℝ) - j.upperBound ≤ z ∧ z ≤ i.upperBound - j.lowerBound := by
  rw [DFI_sub_eq, DFI.contains_iff_bounds, (add_bounds _ _).1, (add_bounds _ _).2]
  simp only [DFI.lowerBound_real, DFI.upperBound_real, DFI.neg, Int.cast_neg, neg_div, sub_eq_add_neg]

/-- whatever the factoring does, what addition returns is the sum or lies in the sum of the intervals -/
theorem add_within {a b c : RealAlg} {x y : ℝ} (F : FactorCall) (n : ℕ) (ha : a.Represents x)
    (hb : b.Represents y) (h : a.add F n b = .ok c) :
    c.Represents (x + y) ∨ ReturnedIn (a.interval.add b.interval) (x + y) c := by
  by_cases hrat : ∃ q r : ℚ, x = q ∧ y = r
  · obtain ⟨q, r, rfl, rfl⟩ := hrat
    obtain ⟨c', h1, h2⟩ := (C44_both_rational F a b q r ha hb n).1
    rw [h] at h1
    cases h1
    exact Or.inl h2
  · have hrs : ∃ u v, a.toRational = .ok u ∧ b.toRational = .ok v ∧ (u = none ∨ v = none) := by
      rcases ha.rat_or_irr with ⟨q, rfl, -⟩ | ⟨-, hx⟩
      · rcases hb.rat_or_irr with ⟨r, rfl, -⟩ | ⟨-, hy⟩
        · exact absurd ⟨q, r, rfl, rfl⟩ hrat
        · exact ⟨_, _, ha.toRational_rat, hb.toRational_irr hy, Or.inr rfl⟩
      · rcases hb.rat_or_irr with ⟨r, rfl, -⟩ | ⟨-, hy⟩
        · exact ⟨_, _, ha.toRational_irr hx, hb.toRational_rat, Or.inl rfl⟩
        · exact ⟨_, _, ha.toRational_irr hx, hb.toRational_irr hy, Or.inr rfl⟩
    obtain ⟨u, v, hu, hv, huv⟩ := hrs
    have hadd : a.add F n b = if b.isZero then .ok a else if a.isZero then .ok b else
        (orPanic (addResultant a.poly b.poly) >>= fun r => a.intervalShrinker >>= fun l =>
          b.intervalShrinker >>= fun s => selectRoot addInterval shrinkBoth F n (l, s) r) := by
      unfold RealAlg.add
      rw [hu, hv]
      rcases huv with rfl | rfl
      · rfl
      · cases u <;> rfl
    rw [hadd] at h
    by_cases hb0 : b.isZero = true
    · rw [if_pos hb0] at h
      cases h
      rw [hb.isZero_iff.mp hb0, add_zero]
      exact Or.inl ha
    rw [if_neg hb0] at h
    by_cases ha0 : a.isZero = true
    · rw [if_pos ha0] at h
      cases h
      rw [ha.isZero_iff.mp ha0, zero_add]
      exact Or.inl hb
    rw [if_neg ha0] at h
    right
    obtain ⟨s, hs1, hs2, hs3⟩ := ha.intervalShrinker
    obtain ⟨t, ht1, ht2, ht3⟩ := hb.intervalShrinker
    rw [hs1, ht1] at h
    cases h1 : orPanic (addResultant a.poly b.poly) with
    | error e => rw [h1] at h; simp [bind, Except.bind] at h
    | ok R =>
      rw [h1] at h
      refine selectRoot_within (Inv := PairInv a.poly b.poly x y a.interval b.interval)
        (fun st i hst hi => ?_) (fun st st' hst he => hst.shrink_of_eq he) F n (s, t) R c ?_ h
      · simp only [addInterval, Option.some.injEq] at hi
        subst hi
        exact ⟨add_nest _ _ _ _ hst.left.rep.lo_le_hi hst.right.rep.lo_le_hi
          (Shrinker.within_of_bounds hst.leftLower hst.leftUpper)
          (Shrinker.within_of_bounds hst.rightLower hst.rightUpper),
          DFI.contains_add hst.left.rep.mem hst.right.rep.mem⟩
      · exact ⟨hs2, ht2, by rw [hs3], by rw [hs3], by rw [ht3], by rw [ht3], by rw [hs3], by rw [ht3]⟩

theorem sub_within {a b c : RealAlg} {x y : ℝ} (F : FactorCall) (n : ℕ) (ha : a.Represents x)
    (hb : b.Represents y) (h : a.sub F n b = .ok c) :
    c.Represents (x - y) ∨ ReturnedIn (a.interval.sub b.interval) (x - y) c := by
  obtain ⟨m, h1, h2, h3⟩ := hb.neg
  unfold RealAlg.sub at h
  rw [h1] at h
  have h4 := add_within F n ha h2 h
  rw [← sub_eq_add_neg] at h4
  have e : a.interval.sub b.interval = a.interval.add m.interval := by
    rw [h3.2]; exact DFI_sub_eq _ _
  rw [e]
  exact h4

theorem mul_result_within {a b c : RealAlg} {x y : ℝ} (F : FactorCall) (n : ℕ) (ha : a.Represents x) (hb : b.Represents y)
    (h : a.mul F n b = .ok c) :
    c.Represents (x * y) ∨ ReturnedIn (a.interval.mul b.interval) (x * y) c := by
  by_cases hrat : ∃ q r : ℚ, x = q ∧ y = r
  · obtain ⟨q, r, rfl, rfl⟩ := hrat
    unfold RealAlg.mul at h
    rw [ha.toRational_rat, hb.toRational_rat] at h
    simp only [bind, Except.bind, pure, Except.pure, Except.ok.injEq] at h
    left
    rw [← h, ← Rat.cast_mul]
    exact ofRat_represents _
  · have hrs : ∃ u v, a.toRational = .ok u ∧ b.toRational = .ok v ∧ (u = none ∨ v = none) := by
      rcases ha.rat_or_irr with ⟨q, rfl, -⟩ | ⟨-, hx⟩
      · rcases hb.rat_or_irr with ⟨r, rfl, -⟩ | ⟨-, hy⟩
        · exact absurd ⟨q, r, rfl, rfl⟩ hrat
        · exact ⟨_, _, ha.toRational_rat, hb.toRational_irr hy, Or.inr rfl⟩
      · rcases hb.rat_or_irr with ⟨r, rfl, -⟩ | ⟨-, hy⟩
        · exact ⟨_, _, ha.toRational_irr hx, hb.toRational_rat, Or.inl rfl⟩
        · exact ⟨_, _, ha.toRational_irr hx, hb.toRational_irr hy, Or.inr rfl⟩
    obtain ⟨u, v, hu, hv, huv⟩ := hrs
    have hmul : a.mul F n b = if (a.isZero || b.isZero) = true then .ok zero else
        if b.isOne = true then .ok a else if a.isOne = true then .ok b else
        (orPanic (mulResultant a.poly b.poly) >>= fun r => a.intervalShrinker >>= fun l =>
          b.intervalShrinker >>= fun s => selectRoot mulInterval shrinkBoth F n (l, s) r) := by
      unfold RealAlg.mul
      rw [hu, hv]
      rcases huv with rfl | rfl
      · rfl
      · cases u <;> rfl
    rw [hmul] at h
    by_cases e0 : (a.isZero || b.isZero) = true
    · rw [if_pos e0] at h
      cases h
      left
      rw [Bool.or_eq_true, ha.isZero_iff, hb.isZero_iff] at e0
      rw [mul_eq_zero.mpr e0]
      exact zero_represents
    rw [if_neg e0] at h
    by_cases e1 : b.isOne = true
    · rw [if_pos e1] at h
      cases h
      rw [hb.isOne_iff.mp e1, mul_one]
      exact Or.inl ha
    rw [if_neg e1] at h
    by_cases e2 : a.isOne = true
    · rw [if_pos e2] at h
      cases h
      rw [ha.isOne_iff.mp e2, one_mul]
      exact Or.inl hb
    rw [if_neg e2] at h
    right
    obtain ⟨s, hs1, hs2, hs3⟩ := ha.intervalShrinker
    obtain ⟨t, ht1, ht2, ht3⟩ := hb.intervalShrinker
    rw [hs1, ht1] at h
    cases h1 : orPanic (mulResultant a.poly b.poly) with
    | error e => rw [h1] at h; simp [bind, Except.bind] at h
    | ok R =>
      rw [h1] at h
      refine selectRoot_within (Inv := PairInv a.poly b.poly x y a.interval b.interval)
        (fun st i hst hi => ?_) (fun st st' hst he => hst.shrink_of_eq he) F n (s, t) R c ?_ h
      · simp only [mulInterval, Option.some.injEq] at hi
        subst hi
        exact ⟨mul_nest _ _ _ _ hst.left.rep.lo_le_hi hst.right.rep.lo_le_hi
          (Shrinker.within_of_bounds hst.leftLower hst.leftUpper)
          (Shrinker.within_of_bounds hst.rightLower hst.rightUpper) hst.leftDenom hst.rightDenom,
          DFI.contains_mul hst.left.rep.mem hst.right.rep.mem⟩
      · exact ⟨hs2, ht2, by rw [hs3], by rw [hs3], by rw [ht3], by rw [ht3], by rw [hs3], by rw [ht3]⟩

theorem same_sign {i : DFI} (hz : ¬ i.Contains 0) {v w : ℝ} (hv : i.Contains v) (hw : i.Contains w) :
    v ≠ 0 ∧ w ≠ 0 ∧ (v < 0 ↔ w < 0) ∧ (0 < v ↔ 0 < w) := by
  rw [DFI.contains_iff_bounds] at hz hv hw
  have : (0 : ℝ) < i.lowerBound ∨ (i.upperBound : ℝ) < 0 := by
    by_contra h
    push Not at h
    exact hz h
  rcases this with h | h
  · have h1 := h.trans_le hv.1
    have h2 := h.trans_le hw.1
    exact ⟨h1.ne', h2.ne', by simp [h1.le.not_gt, h2.le.not_gt], by simp [h1, h2]⟩
  · have h1 := hv.2.trans_lt h
    have h2 := hw.2.trans_lt h
    exact ⟨h1.ne, h2.ne, by simp [h1, h2], by simp [h1.le.not_gt, h2.le.not_gt]⟩

theorem ReturnedIn.sign {i : DFI} {v : ℝ} {c : RealAlg} (h : ReturnedIn i v c) (hz : ¬ i.Contains 0)
    (hv : i.Contains v) : c.isZero = false ∧ ∃ o, c.cmpWithZero = .ok o ∧ (o = .lt ↔ v < 0) ∧
      (o = .eq ↔ v = 0) ∧ (o = .gt ↔ 0 < v) := by
  rcases h with ⟨q, rfl, hq⟩ | ⟨h1, h2, h3⟩
  · obtain ⟨s1, s2, s3, s4⟩ := same_sign hz hv hq
    have hr := ofRat_represents q
    refine ⟨?_, ?_⟩
    · rw [← Bool.not_eq_true, hr.isZero_iff]; exact s2
    · obtain ⟨o, g1, g2, g3, g4⟩ := C41_cmp_with_zero _ _ hr
      exact ⟨o, g1, by rw [g2, s3], by rw [g3]; simp [s1, s2], by rw [g4, s4]⟩
  · have h4 : c.isZero = false := by
      rw [← Bool.not_eq_true]; exact fun h => hz (h3 h)
    refine ⟨h4, ?_⟩
    have hP : (0 : ℝ) < 2 ^ c.interval.log2Denom := by positivity
    obtain ⟨b1, b2⟩ := (DFI.contains_iff_bounds _ _).mp h2
    have hl : c.interval.Contains c.interval.lowerBound :=
      (DFI.contains_iff_bounds _ _).mpr ⟨le_rfl, b1.trans b2⟩
    have hu : c.interval.Contains c.interval.upperBound :=
      (DFI.contains_iff_bounds _ _).mpr ⟨b1.trans b2, le_rfl⟩
    unfold cmpWithZero
    rw [if_neg (by simp [h4])]
    rcases lt_or_gt_of_ne (same_sign hz hv hv).1 with hneg | hpos
    · have l1 := ((same_sign hz hv (h1 _ hl)).2.2.1).mp hneg
      have u1 := ((same_sign hz hv (h1 _ hu)).2.2.1).mp hneg
      rw [DFI.lowerBound_real, div_neg_iff] at l1
      rw [DFI.upperBound_real, div_neg_iff] at u1
      have l2 : c.interval.lo < 0 := by
        rcases l1 with ⟨-, h⟩ | ⟨h, -⟩
        · exact absurd h hP.le.not_gt
        · exact_mod_cast h
      have u2 : c.interval.hi < 0 := by
        rcases u1 with ⟨-, h⟩ | ⟨h, -⟩
        · exact absurd h hP.le.not_gt
        · exact_mod_cast h
      rw [if_neg (by omega), if_pos u2]
      exact ⟨.lt, rfl, by simp [hneg], by simp [hneg.ne], by simp [hneg.le.not_gt]⟩
    · have l1 := ((same_sign hz hv (h1 _ hl)).2.2.2).mp hpos
      rw [DFI.lowerBound_real, div_pos_iff_of_pos_right hP] at l1
      rw [if_pos (by exact_mod_cast l1)]
      exact ⟨.gt, rfl, by simp [hpos.le.not_gt], by simp [hpos.ne'], by simp [hpos]⟩

end RealAlg

/-- C46, in part: numbers held in intervals without a common point compare like the real numbers, even if
an end point is hit on the way: the wrong difference then still has the right sign.  Missing: intervals
with a common point, where the answer can be wrong (`C46_eq_false`). -/
theorem C46_disjoint_partial (F : FactorCall) (a b : RealAlg) (x y : ℝ) (ha : a.Represents x)
    (hb : b.Represents y)
    (hF : ∀ n R, b.neg = .ok n → addResultant a.poly n.poly = some R → FactorsRight F R)
    (hd : ¬ ∃ z : ℝ, a.interval.Contains z ∧ b.interval.Contains z) :
    ∃ N, ∀ fuel ≥ N, (∃ e, a.eq F fuel b = .ok e ∧ (e = true ↔ x = y)) ∧
      ∃ o, a.cmp F fuel b = .ok o ∧ (o = .lt ↔ x < y) ∧ (o = .eq ↔ x = y) ∧ (o = .gt ↔ y < x) := by
  obtain ⟨N, hN⟩ := C44_sub_partial F a b x y ha hb hF
  refine ⟨N, fun fuel hf => ?_⟩
  obtain ⟨c, h1, h2 | ⟨q, h2, h3, h4, -⟩⟩ := hN fuel hf
  · exact cmp_of_sub F a b c x y fuel h1 h2
  · subst h2
    have hne : x ≠ y := by rintro rfl; exact hd ⟨x, ha.mem, hb.mem⟩
    have la := ha.lower_le
    have ua := ha.le_upper
    have lb := hb.lower_le
    have ub := hb.le_upper
    obtain ⟨q1, q2⟩ := (sub_contains_iff _ _ _).mp h4
    have hdis : (a.interval.upperBound : ℝ) < b.interval.lowerBound ∨
        (b.interval.upperBound : ℝ) < a.interval.lowerBound := by
      by_contra hcon
      push Not at hcon
      refine hd ⟨max a.interval.lowerBound b.interval.lowerBound, ?_, ?_⟩ <;>
        rw [DFI.contains_iff_bounds]
      · exact ⟨le_max_left _ _, max_le (la.trans ua) hcon.1⟩
      · exact ⟨le_max_right _ _, max_le hcon.2 (lb.trans ub)⟩
    have hs : (q : ℝ) < 0 ↔ x < y := by
      rcases hdis with h | h
      · exact ⟨fun _ => by linarith, fun _ => by linarith⟩
      · exact ⟨fun _ => absurd q1 (by linarith), fun _ => absurd q1 (by linarith)⟩
    have h0 : (q : ℝ) ≠ 0 := by
      rcases hdis with h | h
      · exact (by linarith : (q : ℝ) < 0).ne
      · exact (by linarith : (0 : ℝ) < q).ne'
    obtain ⟨⟨e, g1, g2⟩, o, g3, g4, g5, g6⟩ := cmp_of_sub F a b _ (q : ℝ) 0 fuel h1
      (by simpa using ofRat_represents q)
    refine ⟨⟨e, g1, by rw [g2]; simp [h0, hne]⟩, o, g3, by rw [g4, hs], by rw [g5]; simp [h0, hne], ?_⟩
    rw [g6]
    rcases lt_trichotomy x y with h | h | h
    · have := hs.mpr h
      exact ⟨fun h' => absurd h' (by linarith), fun h' => absurd h' (by linarith)⟩
    · exact absurd h hne
    · refine ⟨fun _ => h, fun _ => ?_⟩
      rcases lt_or_gt_of_ne h0 with h' | h'
      · exact absurd (hs.mp h') (by linarith)
      · exact h'

theorem RealAlg.sub_no_zero {a b : DFI} (hd : ¬ ∃ z : ℝ, a.Contains z ∧ b.Contains z) {x y : ℝ}
    (hx : a.Contains x) (hy : b.Contains y) : ¬ (a.sub b).Contains 0 := by
  rw [sub_contains_iff]
  rintro ⟨h1, h2⟩
  rw [DFI.contains_iff_bounds] at hx hy
  refine hd ⟨max a.lowerBound b.lowerBound, ?_, ?_⟩ <;> rw [DFI.contains_iff_bounds]
  · exact ⟨le_max_left _ _, max_le (hx.1.trans hx.2) (by linarith)⟩
  · exact ⟨le_max_right _ _, max_le (by linarith) (hy.1.trans hy.2)⟩

/-- C46, in part: what comparisons of numbers held in intervals without a common point return is right,
whatever the factoring does. -/
theorem C46_disjoint_sound_partial (F : FactorCall) (fuel : ℕ) (a b : RealAlg) (x y : ℝ)
    (ha : a.Represents x) (hb : b.Represents y)
    (hd : ¬ ∃ z : ℝ, a.interval.Contains z ∧ b.interval.Contains z) :
    (∀ r, a.eq F fuel b = .ok r → (r = true ↔ x = y)) ∧
    (∀ o, a.cmp F fuel b = .ok o → (o = .lt ↔ x < y) ∧ (o = .eq ↔ x = y) ∧ (o = .gt ↔ y < x)) := by
  unfold RealAlg.eq RealAlg.cmp
  cases h1 : a.sub F fuel b with
  | error e => simp [bind, Except.bind]
  | ok d =>
    have key : (d.isZero = true ↔ x - y = 0) ∧ ∃ o, d.cmpWithZero = .ok o ∧ (o = .lt ↔ x - y < 0) ∧
        (o = .eq ↔ x - y = 0) ∧ (o = .gt ↔ 0 < x - y) := by
      rcases sub_within F fuel ha hb h1 with h2 | h2
      · exact ⟨h2.isZero_iff, C41_cmp_with_zero d _ h2⟩
      · have hz := RealAlg.sub_no_zero hd ha.mem hb.mem
        have hv := DFI.contains_sub ha.mem hb.mem
        obtain ⟨g1, g2⟩ := h2.sign hz hv
        exact ⟨by simp [g1, (same_sign hz hv hv).1], g2⟩
    obtain ⟨k1, o', k2, k3, k4, k5⟩ := key
    simp only [bind, Except.bind, pure, Except.pure, Except.ok.injEq]
    constructor
    · rintro r rfl
      rw [k1, sub_eq_zero]
    · intro o ho
      rw [ho] at k2
      cases k2
      rw [k3, k4, k5, sub_neg, sub_eq_zero, sub_pos]
      exact ⟨Iff.rfl, Iff.rfl, Iff.rfl⟩

/-- C45, in part: the sign of the product that is returned is right when the product of the two intervals
does not hold zero, whatever the factoring does. -/
theorem C45_mul_sign_sound_partial (F : FactorCall) (fuel : ℕ) (a b c : RealAlg) (x y : ℝ)
    (ha : a.Represents x) (hb : b.Represents y) (hz : ¬ (a.interval.mul b.interval).Contains 0)
    (h : a.mul F fuel b = .ok c) : ∃ o, c.cmpWithZero = .ok o ∧ (o = .lt ↔ x * y < 0) ∧
      (o = .eq ↔ x * y = 0) ∧ (o = .gt ↔ 0 < x * y) := by
  rcases mul_result_within F fuel ha hb h with h2 | h2
  · exact C41_cmp_with_zero c _ h2
  · exact (h2.sign hz (DFI.contains_mul ha.mem hb.mem)).2

/-- C44, in part: a wrong sum or difference is off by at most the sum of the widths of the two intervals,
and lies in the interval of the operation.  Assumed: the factoring of the resultant is right. -/
theorem C44_error_partial (F : FactorCall) (a b : RealAlg) (x y : ℝ) (ha : a.Represents x)
    (hb : b.Represents y) :
    ((∀ R, addResultant a.poly b.poly = some R → FactorsRight F R) →
      ∃ N, ∀ fuel ≥ N, ∃ (c : RealAlg) (z : ℝ), a.add F fuel b = .ok c ∧ c.Represents z ∧
        (a.interval.add b.interval).Contains z ∧
        |z - (x + y)| ≤ a.interval.width + b.interval.width) ∧
    ((∀ n R, b.neg = .ok n → addResultant a.poly n.poly = some R → FactorsRight F R) →
      ∃ N, ∀ fuel ≥ N, ∃ (c : RealAlg) (z : ℝ), a.sub F fuel b = .ok c ∧ c.Represents z ∧
        (a.interval.sub b.interval).Contains z ∧
        |z - (x - y)| ≤ a.interval.width + b.interval.width) := by
  have la := ha.lower_le
  have ua := ha.le_upper
  have lb := hb.lower_le
  have ub := hb.le_upper
  constructor
  · intro hF
    obtain ⟨N, hN⟩ := C44_add_partial F a b x y ha hb hF
    refine ⟨N, fun fuel hf => ?_⟩
    have key : ∀ z : ℝ, (a.interval.add b.interval).Contains z →
        |z - (x + y)| ≤ a.interval.width + b.interval.width := by
      intro z hz
      rw [DFI.contains_iff_bounds, (add_bounds _ _).1, (add_bounds _ _).2] at hz
      rw [DFI.width_real, DFI.width_real, abs_le]
      constructor <;> linarith [hz.1, hz.2]
    obtain ⟨c, h1, h2 | ⟨q, h2, -, h4, -⟩⟩ := hN fuel hf
    · have := DFI.contains_add ha.mem hb.mem
      exact ⟨c, _, h1, h2, this, key _ this⟩
    · exact ⟨c, q, h1, h2 ▸ ofRat_represents q, h4, key _ h4⟩
  · intro hF
    obtain ⟨N, hN⟩ := C44_sub_partial F a b x y ha hb hF
    refine ⟨N, fun fuel hf => ?_⟩
    have key : ∀ z : ℝ, (a.interval.sub b.interval).Contains z →
        |z - (x - y)| ≤ a.interval.width + b.interval.width := by
      intro z hz
      rw [sub_contains_iff] at hz
      rw [DFI.width_real, DFI.width_real, abs_le]
      constructor <;> linarith [hz.1, hz.2]
    obtain ⟨c, h1, h2 | ⟨q, h2, -, h4, -⟩⟩ := hN fuel hf
    · have := DFI.contains_sub ha.mem hb.mem
      exact ⟨c, _, h1, h2, this, key _ this⟩
    · exact ⟨c, q, h1, h2 ▸ ofRat_represents q, h4, key _ h4⟩

/-- C45, in part: a wrong product lies in the product of the two intervals.  Assumed: the factoring of the
resultant is right. -/
theorem C45_mul_error_partial (F : FactorCall) (a b : RealAlg) (x y : ℝ) (ha : a.Represents x)
    (hb : b.Represents y)
    (hF : ∀ R, mulResultant a.poly b.poly = some R → R.toPoly ≠ 0 → FactorsRight F R) :
    ∃ N, ∀ fuel ≥ N, ∃ (c : RealAlg) (z : ℝ), a.mul F fuel b = .ok c ∧ c.Represents z ∧
      (a.interval.mul b.interval).Contains z ∧ (a.interval.mul b.interval).Contains (x * y) := by
  obtain ⟨N, hN⟩ := C45_mul_partial F a b x y ha hb hF
  refine ⟨N, fun fuel hf => ?_⟩
  have := DFI.contains_mul ha.mem hb.mem
  obtain ⟨c, h1, h2 | ⟨q, h2, -, h4, -⟩⟩ := hN fuel hf
  · exact ⟨c, _, h1, h2, this, this⟩
  · exact ⟨c, q, h1, h2 ▸ ofRat_represents q, h4, this⟩

/-- `√2` in `[1, 2]` and `3 + √2` in `[4, 5]`: the intervals have no common point, and the product of the
intervals does not hold zero. -/
example : sqrtTwo.Represents (√2) ∧ threePlusSqrtTwo.Represents (3 + √2) ∧
    (¬ ∃ z : ℝ, sqrtTwo.interval.Contains z ∧ threePlusSqrtTwo.interval.Contains z) ∧
    ¬ (sqrtTwo.interval.mul threePlusSqrtTwo.interval).Contains 0 := by
  refine ⟨sqrtTwo_represents, threePlusSqrtTwo_represents, ?_, ?_⟩
  · rintro ⟨z, h1, h2⟩
    have e1 := h1.2
    have e2 := h2.1
    norm_num [sqrtTwo, threePlusSqrtTwo] at e1 e2
    linarith
  · rw [← DFI.containsZero_iff]; decide +kernel

end Algebraics
