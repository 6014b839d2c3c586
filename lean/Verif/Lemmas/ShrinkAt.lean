import Verif.Props.AlgNumIff

/-!
Shrinking the interval of an irrational number depends on the number and on the interval alone, and goes
along with negation.
-/

namespace Algebraics

open Polynomial

/-- the half of `i` that holds `x` -/
noncomputable def DFI.halfAt (i : DFI) (x : ℝ) : DFI :=
  if x < ((i.lo + i.hi).tdiv 2 : ℤ) / 2 ^ i.log2Denom then ⟨i.lo, (i.lo + i.hi).tdiv 2, i.log2Denom⟩
  else ⟨(i.lo + i.hi).tdiv 2, i.hi, i.log2Denom⟩

/-- what one step makes of `i`, if `x` is irrational -/
noncomputable def DFI.shrinkAt (i : DFI) (x : ℝ) : DFI :=
  if i.hi - i.lo < 16 then DFI.halfAt ⟨2 * i.lo, 2 * i.hi, i.log2Denom + 1⟩ x else i.halfAt x

theorem DFI.contains_point {i : DFI} {x : ℝ} (h : i.Contains x) (hlo : i.lo = i.hi) : ¬ Irrational x := by
  rw [DFI.contains_iff_bounds] at h
  have e : i.lowerBound = i.upperBound := by unfold DFI.lowerBound DFI.upperBound; rw [hlo]
  rw [← e] at h
  exact fun hx => hx ⟨i.lowerBound, le_antisymm h.1 h.2⟩

theorem DFI.half_unique {i j : DFI} {x : ℝ} (hx : Irrational x) (hj : j.Contains x)
    (h : j = ⟨i.lo, (i.lo + i.hi).tdiv 2, i.log2Denom⟩ ∨ j = ⟨(i.lo + i.hi).tdiv 2, i.hi, i.log2Denom⟩) :
    j = i.halfAt x := by
  unfold DFI.halfAt
  rw [DFI.contains_iff_bounds, DFI.lowerBound_real, DFI.upperBound_real] at hj
  rcases h with rfl | rfl
  · have hne : x ≠ ((i.lo + i.hi).tdiv 2 : ℤ) / 2 ^ i.log2Denom := by
      intro e
      exact hx ⟨((i.lo + i.hi).tdiv 2 : ℤ) / 2 ^ i.log2Denom, by rw [e]; push_cast; rfl⟩
    rw [if_pos (lt_of_le_of_ne hj.2 hne)]
  · rw [if_neg (not_lt.mpr hj.1)]

theorem DFI.halfAt_neg (i : DFI) {x : ℝ} (hx : Irrational x) : i.neg.halfAt (-x) = (i.halfAt x).neg := by
  have e : (-i.hi + -i.lo).tdiv 2 = -(i.lo + i.hi).tdiv 2 := by
    rw [← Int.neg_tdiv]; congr 1; ring
  have hne : x ≠ ((i.lo + i.hi).tdiv 2 : ℤ) / 2 ^ i.log2Denom := by
    intro e
    exact hx ⟨((i.lo + i.hi).tdiv 2 : ℤ) / 2 ^ i.log2Denom, by rw [e]; push_cast; rfl⟩
  unfold DFI.halfAt DFI.neg
  simp only [e]
  rw [show ((-(i.lo + i.hi).tdiv 2 : ℤ) : ℝ) / 2 ^ i.log2Denom =
    -(((i.lo + i.hi).tdiv 2 : ℤ) / 2 ^ i.log2Denom) by push_cast; ring]
  by_cases h : x < ((i.lo + i.hi).tdiv 2 : ℤ) / 2 ^ i.log2Denom
  · rw [if_neg (by linarith), if_pos h]
  · rw [if_pos (by linarith [lt_of_le_of_ne (not_lt.mp h) hne.symm]), if_neg h]

theorem DFI.shrinkAt_neg (i : DFI) {x : ℝ} (hx : Irrational x) :
    i.neg.shrinkAt (-x) = (i.shrinkAt x).neg := by
  unfold DFI.shrinkAt
  have e : i.neg.hi - i.neg.lo = i.hi - i.lo := by simp only [DFI.neg]; ring
  rw [e]
  by_cases h : i.hi - i.lo < 16
  · rw [if_pos h, if_pos h, ← DFI.halfAt_neg _ hx]
    congr 1
    simp only [DFI.neg, mul_neg]
  · rw [if_neg h, if_neg h, DFI.halfAt_neg _ hx]

namespace Shrinker

variable {p : Poly ℤ} {x : ℝ} {s t : Shrinker} {r : ShrinkResult}

theorem shrinkRefined_interval (h : s.shrinkRefined = some (t, r)) (hx : Irrational x)
    (hc : t.interval.Contains x) : t.interval = s.interval.halfAt x := by
  unfold Shrinker.shrinkRefined at h
  simp only at h
  split_ifs at h with h1 h2 h3
  · unfold setUpperBound DFI.setUpperBoundNumer at h
    split_ifs at h with h4
    · simp only [Option.map_some, Option.some.injEq, Prod.mk.injEq] at h
      rw [← h.1] at hc
      exact absurd hx (DFI.contains_point hc rfl)
    · simp at h
  · unfold setLowerBound DFI.setLowerBoundNumer at h
    split_ifs at h with h4
    · simp only [Option.map_some, Option.some.injEq, Prod.mk.injEq] at h
      rw [← h.1] at hc
      exact absurd hx (DFI.contains_point hc rfl)
    · simp at h
  · unfold halve at h
    simp only at h
    split_ifs at h with h4 h5 h6
    · simp only [Option.some.injEq, Prod.mk.injEq] at h
      rw [← h.1] at hc
      exact absurd hx (DFI.contains_point hc rfl)
    · unfold setLowerBound DFI.setLowerBoundNumer at h
      split_ifs at h with h7
      · simp only [Option.map_some, Option.some.injEq, Prod.mk.injEq] at h
        refine DFI.half_unique hx hc (Or.inr ?_)
        rw [← h.1]
      · simp at h
    · unfold setUpperBound DFI.setUpperBoundNumer at h
      split_ifs at h with h7
      · simp only [Option.map_some, Option.some.injEq, Prod.mk.injEq] at h
        refine DFI.half_unique hx hc (Or.inl ?_)
        rw [← h.1]
      · simp at h

theorem Valid.shrink_interval (h : s.Valid p x) (hx : Irrational x) :
    ∃ t r, s.shrink = some (t, r) ∧ t.Valid p x ∧ t.interval = s.interval.shrinkAt x := by
  obtain ⟨t, r, h1, h2⟩ := h.shrink
  refine ⟨t, r, h1, h2.valid, ?_⟩
  have hc := h2.valid.rep.mem
  unfold Shrinker.shrink at h1
  simp only at h1
  unfold DFI.shrinkAt
  split_ifs at h1 with h3 h4 h5
  · exact absurd hx (DFI.contains_point h.rep.mem (by simp only; omega))
  · rw [if_pos h5]
    have := shrinkRefined_interval h1 hx hc
    rw [this, convert_succ]
  · rw [if_neg h5]
    exact shrinkRefined_interval h1 hx hc

/-- the interval after `k` steps -/
theorem Valid.shrinkTimes_interval (h : s.Valid p x) (hx : Irrational x) (k : ℕ) :
    ∃ t, shrinkTimes k s = some t ∧ t.Valid p x ∧
      t.interval = (fun i => DFI.shrinkAt i x)^[k] s.interval := by
  induction k with
  | zero => exact ⟨s, rfl, h, rfl⟩
  | succ k ih =>
    obtain ⟨t, h1, h2, h3⟩ := ih
    obtain ⟨u, r, h4, h5, h6⟩ := h2.shrink_interval hx
    refine ⟨u, ?_, h5, ?_⟩
    · simp only [shrinkTimes, h1, Option.bind_some, h4, Option.map_some]
    · rw [Function.iterate_succ_apply', h6, h3]

end Shrinker

theorem DFI.shrinkAt_iterate_neg {x : ℝ} (hx : Irrational x) (k : ℕ) (i : DFI) :
    (fun i => DFI.shrinkAt i (-x))^[k] i.neg = ((fun i => DFI.shrinkAt i x)^[k] i).neg := by
  induction k with
  | zero => rfl
  | succ k ih => rw [Function.iterate_succ_apply', ih, Function.iterate_succ_apply', DFI.shrinkAt_neg _ hx]

/-- conjugates of a number that is not moved by adding a rational number -/
theorem minpoly_shift {w : ℂ} (hw : IsIntegral ℚ w) {d : ℚ}
    (h : minpoly ℚ (w + algebraMap ℚ ℂ d) = minpoly ℚ w) : d = 0 := by
  rw [minpoly.add_algebraMap] at h
  have hroot : ∀ k : ℕ, aeval (w + k * (d : ℂ)) (minpoly ℚ w) = 0 := by
    intro k
    induction k with
    | zero => simp
    | succ k ih =>
      rw [← h, aeval_comp]
      simp only [map_sub, aeval_X, aeval_C]
      rw [← ih]
      congr 1
      rw [eq_ratCast]
      push_cast
      ring_nf
  by_contra hr
  have hfin : (Set.range fun k : ℕ => w + k * (d : ℂ)).Finite := by
    refine ((minpoly ℚ w).rootSet_finite ℂ).subset ?_
    rintro _ ⟨k, rfl⟩
    rw [mem_rootSet]
    exact ⟨minpoly.ne_zero hw, hroot k⟩
  refine Set.infinite_range_of_injective ?_ hfin
  intro k l hkl
  simp only [add_right_inj] at hkl
  have hr' : (d : ℂ) ≠ 0 := by exact_mod_cast hr
  exact_mod_cast mul_right_cancel₀ hr' hkl

theorem isIntegral_root {q : ℤ[X]} (hq : q ≠ 0) {v : ℂ} (hv : aeval v q = 0) : IsIntegral ℚ v := by
  refine ((isAlgebraic_iff_isIntegral (K := ℚ)).mp ⟨q.map (Int.castRingHom ℚ), ?_, ?_⟩)
  · exact (Polynomial.map_ne_zero_iff (RingHom.injective_int _)).mpr hq
  · rw [show (Int.castRingHom ℚ) = algebraMap ℤ ℚ from rfl, aeval_map_algebraMap]; exact hv

/-- at most one rational number is a sum of roots of two irreducible polynomials -/
theorem rat_sum_unique {p q : ℤ[X]} (hp : Irreducible p) (hq : Irreducible q) (hdp : 0 < p.natDegree)
    (hdq : 0 < q.natDegree) {u u' v v' : ℂ} (hu : aeval u p = 0) (hu' : aeval u' p = 0)
    (hv : aeval v q = 0) (hv' : aeval v' q = 0) {r r' : ℚ} (h : (r : ℂ) = u + v)
    (h' : (r' : ℂ) = u' + v') : r = r' := by
  have e1 : minpoly ℚ u = minpoly ℚ u' := by
    rw [RealAlg.minpoly_root hp hdp hu, RealAlg.minpoly_root hp hdp hu']
  have e2 : minpoly ℚ (-v) = minpoly ℚ (-v') := by
    rw [minpoly.neg, minpoly.neg, RealAlg.minpoly_root hq hdq hv, RealAlg.minpoly_root hq hdq hv']
  have hint : IsIntegral ℚ u := isIntegral_root hp.ne_zero hu
  have e3 : minpoly ℚ (u + algebraMap ℚ ℂ (r' - r)) = minpoly ℚ u := by
    rw [show u + algebraMap ℚ ℂ (r' - r) = -v + algebraMap ℚ ℂ r' by
      rw [eq_ratCast, eq_ratCast]; push_cast; rw [h]; ring, minpoly.add_algebraMap, e2,
      ← minpoly.add_algebraMap, show -v' + algebraMap ℚ ℂ r' = u' by rw [eq_ratCast, h']; ring, e1]
  have := minpoly_shift hint e3
  linarith

end Algebraics
