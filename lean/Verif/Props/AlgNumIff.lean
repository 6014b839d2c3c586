import Verif.Lemmas.SelectExact
import Verif.Props.AlgNumExact

/-!
C44, C45: exactly when sums and products of real algebraic numbers are wrong
(`/repo/src/algebraic_numbers.rs`, `add_assign`, `mul_assign`).
-/

namespace Algebraics

open Polynomial

/-- Specification: an end point is hit.  The isolating intervals of both numbers are shrunk some number
of times, the same for both, and combined with the interval operation `iop`; an end of the result is a
rational number that comes out of the operation when the operands are replaced by roots of their
polynomials. -/
def RealAlg.EndpointHit (op : ℂ → ℂ → ℂ) (iop : DFI → DFI → DFI) (a b : RealAlg) : Prop :=
  ∃ (k : ℕ) (s t s' t' : Shrinker) (q : ℚ) (x' y' : ℂ), a.intervalShrinker = .ok s ∧
    b.intervalShrinker = .ok t ∧ Shrinker.shrinkTimes k s = some s' ∧ Shrinker.shrinkTimes k t = some t' ∧
    (q = (iop s'.interval t'.interval).lowerBound ∨ q = (iop s'.interval t'.interval).upperBound) ∧
    aeval x' a.poly.toPoly = 0 ∧ aeval y' b.poly.toPoly = 0 ∧ (q : ℂ) = op x' y'

namespace RealAlg

theorem shrinkBoth_map (st : Shrinker × Shrinker) (u v : Shrinker) :
    shrinkBoth st = some (u, v) ↔ (st.1.shrink.map (·.1)) = some u ∧ (st.2.shrink.map (·.1)) = some v := by
  unfold shrinkBoth
  cases h1 : st.1.shrink with
  | none => simp
  | some r =>
    cases h2 : st.2.shrink with
    | none => simp
    | some r' => simp

theorem stateAfter_pair (k : ℕ) (s t u v : Shrinker) :
    stateAfter shrinkBoth k (s, t) = some (u, v) ↔
      Shrinker.shrinkTimes k s = some u ∧ Shrinker.shrinkTimes k t = some v := by
  induction k generalizing u v with
  | zero => simp [stateAfter, Shrinker.shrinkTimes]
  | succ k ih =>
    simp only [stateAfter, Shrinker.shrinkTimes, Option.bind_eq_some_iff]
    constructor
    · rintro ⟨⟨u', v'⟩, h1, h2⟩
      obtain ⟨e1, e2⟩ := (ih u' v').mp h1
      obtain ⟨e3, e4⟩ := (shrinkBoth_map _ _ _).mp h2
      exact ⟨⟨u', e1, e3⟩, ⟨v', e2, e4⟩⟩
    · rintro ⟨⟨u', e1, e3⟩, ⟨v', e2, e4⟩⟩
      exact ⟨(u', v'), (ih u' v').mpr ⟨e1, e2⟩, (shrinkBoth_map _ _ _).mpr ⟨e3, e4⟩⟩

/-- the common part of addition and multiplication -/
theorem select_pair_iff {a b : RealAlg} {x y v : ℝ} (op : ℂ → ℂ → ℂ) (iop : DFI → DFI → DFI)
    (g : Shrinker × Shrinker → Option DFI) (hg : ∀ st, g st = some (iop st.1.interval st.2.interval))
    (hmem : ∀ i j : DFI, i.Contains x → j.Contains y → (iop i j).Contains v)
    (hnest : ∀ i j i' j' : DFI, i'.lo ≤ i'.hi → j'.lo ≤ j'.hi → i'.Within i → j'.Within j →
      i.log2Denom ≤ i'.log2Denom → j.log2Denom ≤ j'.log2Denom → (iop i' j').Within (iop i j))
    {s t : Shrinker} (hs : a.intervalShrinker = .ok s) (ht : b.intervalShrinker = .ok t)
    (hsv : s.Valid a.poly x) (htv : t.Valid b.poly y) (F : FactorCall) (R : Poly ℤ) (hR : R.toPoly ≠ 0)
    (hF : FactorsRight F R)
    (hroot : ∀ z : ℂ, aeval z R.toPoly = 0 ↔
      ∃ x' y' : ℂ, aeval x' a.poly.toPoly = 0 ∧ aeval y' b.poly.toPoly = 0 ∧ z = op x' y')
    (hv : aeval v R.toPoly = 0) (hirr : Irrational v) :
    (∀ fuel c, selectRoot g shrinkBoth F fuel (s, t) R = .ok c → ¬ EndpointHit op iop a b →
      c.Represents v) ∧
    (EndpointHit op iop a b → ∃ N, ∃ q : ℚ, ∀ fuel ≥ N,
      selectRoot g shrinkBoth F fuel (s, t) R = .ok (ofRat q)) := by
  obtain ⟨r, hr1, hr2⟩ := hF
  obtain ⟨h1, h2⟩ := selectRoot_exact_iff (g := g) (sh := shrinkBoth)
    (Inv := fun st => st.1.Valid a.poly x ∧ st.2.Valid b.poly y) (v := v)
    (fun st hst => ⟨_, hg st, hmem _ _ hst.1.rep.mem hst.2.rep.mem⟩)
    (fun st st' hst h => by
      have hp : PairInv a.poly b.poly x y st.1.interval st.2.interval st :=
        ⟨hst.1, hst.2, le_rfl, le_rfl, le_rfl, le_rfl, le_rfl, le_rfl⟩
      have := hp.shrink_of_eq h
      exact ⟨this.left, this.right⟩)
    (fun st st' i i' hst h hi hi' => by
      have hp : PairInv a.poly b.poly x y st.1.interval st.2.interval st :=
        ⟨hst.1, hst.2, le_rfl, le_rfl, le_rfl, le_rfl, le_rfl, le_rfl⟩
      have hq := hp.shrink_of_eq h
      rw [hg] at hi hi'
      cases hi; cases hi'
      exact hnest _ _ _ _ hq.left.rep.lo_le_hi hq.right.rep.lo_le_hi
        (Shrinker.within_of_bounds hq.leftLower hq.leftUpper)
        (Shrinker.within_of_bounds hq.rightLower hq.rightUpper) hq.leftDenom hq.rightDenom)
    F R hR r hr1 hr2 hv hirr (s, t) ⟨hsv, htv⟩
  constructor
  · intro fuel c hc hno
    refine h1 fuel c hc ?_
    rintro k ⟨u, w⟩ i hk hi
    rw [hg] at hi
    cases hi
    obtain ⟨e1, e2⟩ := (stateAfter_pair k s t u w).mp hk
    constructor
    · intro hz
      obtain ⟨x', y', e3, e4, e5⟩ := (hroot _).mp ((aeval_ratCast _ _).mpr hz)
      exact hno ⟨k, s, t, u, w, _, x', y', hs, ht, e1, e2, Or.inl rfl, e3, e4, e5⟩
    · intro hz
      obtain ⟨x', y', e3, e4, e5⟩ := (hroot _).mp ((aeval_ratCast _ _).mpr hz)
      exact hno ⟨k, s, t, u, w, _, x', y', hs, ht, e1, e2, Or.inr rfl, e3, e4, e5⟩
  · rintro ⟨k, s0, t0, u, w, q, x', y', e1, e2, e3, e4, e5, e6, e7, e8⟩
    rw [hs] at e1; cases e1
    rw [ht] at e2; cases e2
    refine h2 ⟨k, (u, w), _, q, (stateAfter_pair k _ _ u w).mpr ⟨e3, e4⟩, hg _, e5, ?_⟩
    exact (aeval_ratCast _ _).mp ((hroot _).mpr ⟨x', y', e6, e7, e8⟩)

theorem add_select {a b : RealAlg} {x y : ℝ} (ha : a.Represents x) (hb : b.Represents y)
    (hx : Irrational x) (hy : Irrational y) {s t : Shrinker} (hs : a.intervalShrinker = .ok s)
    (ht : b.intervalShrinker = .ok t) (F : FactorCall) (R : Poly ℤ)
    (hR : addResultant a.poly b.poly = some R) (fuel : ℕ) :
    a.add F fuel b = selectRoot addInterval shrinkBoth F fuel (s, t) R := by
  have z1 : ¬ a.isZero = true := by rw [ha.isZero_iff]; rintro rfl; exact hx ⟨0, by simp⟩
  have z2 : ¬ b.isZero = true := by rw [hb.isZero_iff]; rintro rfl; exact hy ⟨0, by simp⟩
  unfold RealAlg.add
  rw [ha.toRational_irr hx, hb.toRational_irr hy]
  simp only [bind, Except.bind]
  rw [if_neg z2, if_neg z1, hR, hs, ht]
  rfl

theorem mul_select {a b : RealAlg} {x y : ℝ} (ha : a.Represents x) (hb : b.Represents y)
    (hx : Irrational x) (hy : Irrational y) {s t : Shrinker} (hs : a.intervalShrinker = .ok s)
    (ht : b.intervalShrinker = .ok t) (F : FactorCall) (R : Poly ℤ)
    (hR : mulResultant a.poly b.poly = some R) (fuel : ℕ) :
    a.mul F fuel b = selectRoot mulInterval shrinkBoth F fuel (s, t) R := by
  have z1 : ¬ a.isZero = true := by rw [ha.isZero_iff]; rintro rfl; exact hx ⟨0, by simp⟩
  have z2 : ¬ b.isZero = true := by rw [hb.isZero_iff]; rintro rfl; exact hy ⟨0, by simp⟩
  have z3 : ¬ a.isOne = true := by rw [ha.isOne_iff]; rintro rfl; exact hx ⟨1, by simp⟩
  have z4 : ¬ b.isOne = true := by rw [hb.isOne_iff]; rintro rfl; exact hy ⟨1, by simp⟩
  unfold RealAlg.mul
  rw [ha.toRational_irr hx, hb.toRational_irr hy]
  simp only [bind, Except.bind]
  rw [if_neg (by simp [z1, z2]), if_neg z4, if_neg z3, hR, hs, ht]
  rfl

theorem add_nest (i j i' j' : DFI) (wi : i'.lo ≤ i'.hi) (wj : j'.lo ≤ j'.hi) (hi : i'.Within i)
    (hj : j'.Within j) : (i'.add j').Within (i.add j) := by
  intro z hz
  have c1 := (DFI.contains_iff_bounds _ _).mp (hi _ (end_between wi (Or.inl rfl)))
  have c2 := (DFI.contains_iff_bounds _ _).mp (hi _ (end_between wi (Or.inr rfl)))
  have c3 := (DFI.contains_iff_bounds _ _).mp (hj _ (end_between wj (Or.inl rfl)))
  have c4 := (DFI.contains_iff_bounds _ _).mp (hj _ (end_between wj (Or.inr rfl)))
  rw [DFI.contains_iff_bounds, (add_bounds _ _).1, (add_bounds _ _).2] at hz ⊢
  constructor <;> linarith [hz.1, hz.2, c1.1, c2.2, c3.1, c4.2]

theorem mul_nest (i j i' j' : DFI) (wi : i'.lo ≤ i'.hi) (wj : j'.lo ≤ j'.hi) (hi : i'.Within i)
    (hj : j'.Within j) (di : i.log2Denom ≤ i'.log2Denom) (dj : j.log2Denom ≤ j'.log2Denom) :
    (i'.mul j').Within (i.mul j) := by
  intro z hz
  obtain ⟨c1, c2⟩ := mul_within wi wj hi hj di dj
  rw [DFI.contains_iff_bounds] at c1 c2 hz ⊢
  exact ⟨c1.1.trans hz.1, hz.2.trans c2.2⟩

theorem Represents.unique_real {c : RealAlg} {x y : ℝ} (hx : c.Represents x) (hy : c.Represents y) :
    x = y := hy.isolated x hx.mem hx.root

end RealAlg

open RealAlg

/-- C44: exactly when addition is wrong.  For numbers whose sum is irrational, and which are irrational
themselves, the sum is exact if and only if no end point is hit; if one is hit, a rational number is
returned.  In all other cases it is exact.  Assumed: the factoring of the resultant is right. -/
theorem C44_add_exact_iff (F : FactorCall) (a b : RealAlg) (x y : ℝ) (ha : a.Represents x)
    (hb : b.Represents y) (hF : ∀ R, addResultant a.poly b.poly = some R → FactorsRight F R) :
    ((∃ N, ∀ fuel ≥ N, ∃ c, a.add F fuel b = .ok c ∧ c.Represents (x + y)) ↔
      ¬ (Irrational x ∧ Irrational y ∧ Irrational (x + y) ∧ EndpointHit (· + ·) DFI.add a b)) ∧
    (Irrational x ∧ Irrational y ∧ Irrational (x + y) ∧ EndpointHit (· + ·) DFI.add a b →
      ∃ N, ∃ q : ℚ, ∀ fuel ≥ N, a.add F fuel b = .ok (ofRat q)) := by
  have key : Irrational x → Irrational y → Irrational (x + y) →
      (∀ fuel c, a.add F fuel b = .ok c → ¬ EndpointHit (· + ·) DFI.add a b → c.Represents (x + y)) ∧
      (EndpointHit (· + ·) DFI.add a b → ∃ N, ∃ q : ℚ, ∀ fuel ≥ N, a.add F fuel b = .ok (ofRat q)) := by
    intro hx hy hxy
    obtain ⟨R, hR⟩ := addResultant_exists a.poly b.poly ha.ne_zero hb.ne_zero
    obtain ⟨s, hs1, hs2, -⟩ := ha.intervalShrinker
    obtain ⟨t, ht1, ht2, -⟩ := hb.intervalShrinker
    have hroot := addResultant_root a.poly b.poly R ha.ne_zero hb.ne_zero hR
    have hv : aeval (x + y) R.toPoly = 0 := by
      rw [← aeval_realCast, hroot]
      exact ⟨x, y, (aeval_realCast _ _).mpr ha.root, (aeval_realCast _ _).mpr hb.root, by push_cast; rfl⟩
    have := select_pair_iff (a := a) (b := b) (x := x) (y := y) (v := x + y) (· + ·) DFI.add addInterval
      (fun _ => rfl) (fun i j h1 h2 => DFI.contains_add h1 h2)
      (fun i j i' j' h1 h2 h3 h4 _ _ => add_nest i j i' j' h1 h2 h3 h4) hs1 ht1 hs2 ht2 F R
      (addResultant_ne_zero a.poly b.poly R ha.ne_zero hb.ne_zero hR) (hF R hR) hroot hv hxy
    simpa only [add_select ha hb hx hy hs1 ht1 F R hR] using this
  refine ⟨⟨?_, ?_⟩, fun ⟨hx, hy, hxy, h⟩ => (key hx hy hxy).2 h⟩
  · rintro ⟨N, hN⟩ ⟨hx, hy, hxy, h⟩
    obtain ⟨M, q, hM⟩ := (key hx hy hxy).2 h
    obtain ⟨c, h1, h2⟩ := hN (max M N) (le_max_right _ _)
    rw [hM _ (le_max_left _ _)] at h1
    cases h1
    exact hxy ⟨q, (ofRat_represents q).unique_real h2⟩
  · intro h
    by_cases hx : Irrational x
    swap
    · exact C44_add_rational F a b x y ha hb (Or.inl hx) hF
    by_cases hy : Irrational y
    swap
    · exact C44_add_rational F a b x y ha hb (Or.inr hy) hF
    by_cases hxy : Irrational (x + y)
    swap
    · exact C44_add_rational_sum_partial F a b x y ha hb hF hxy
    obtain ⟨N, hN⟩ := C44_add_partial F a b x y ha hb hF
    refine ⟨N, fun fuel hf => ?_⟩
    obtain ⟨c, h1, -⟩ := hN fuel hf
    exact ⟨c, h1, (key hx hy hxy).1 fuel c h1 fun e => h ⟨hx, hy, hxy, e⟩⟩

/-- C44: the same for subtraction, which adds the negated number. -/
theorem C44_sub_exact_iff (F : FactorCall) (a b n : RealAlg) (x y : ℝ) (ha : a.Represents x)
    (hb : b.Represents y) (hn : b.neg = .ok n)
    (hF : ∀ R, addResultant a.poly n.poly = some R → FactorsRight F R) :
    ((∃ N, ∀ fuel ≥ N, ∃ c, a.sub F fuel b = .ok c ∧ c.Represents (x - y)) ↔
      ¬ (Irrational x ∧ Irrational y ∧ Irrational (x - y) ∧ EndpointHit (· + ·) DFI.add a n)) ∧
    (Irrational x ∧ Irrational y ∧ Irrational (x - y) ∧ EndpointHit (· + ·) DFI.add a n →
      ∃ N, ∃ q : ℚ, ∀ fuel ≥ N, a.sub F fuel b = .ok (ofRat q)) := by
  obtain ⟨n', h1, h2, -⟩ := hb.neg
  rw [hn] at h1
  cases h1
  have hs : ∀ fuel, a.sub F fuel b = a.add F fuel n := by
    intro fuel; unfold RealAlg.sub; rw [hn]; rfl
  have := C44_add_exact_iff F a n x (-y) ha h2 hF
  simpa only [hs, irrational_neg_iff, ← sub_eq_add_neg] using this

/-- C45: exactly when multiplication is wrong.  For irrational numbers whose product is irrational, the
product is exact if and only if no end point is hit; if one is hit, a rational number is returned.  It is
also exact if one of the numbers is rational.  Assumed: the factoring of the resultant is right. -/
theorem C45_mul_exact_iff (F : FactorCall) (a b : RealAlg) (x y : ℝ) (ha : a.Represents x)
    (hb : b.Represents y)
    (hF : ∀ R, mulResultant a.poly b.poly = some R → R.toPoly ≠ 0 → FactorsRight F R)
    (hxy : ¬ Irrational x ∨ ¬ Irrational y ∨ Irrational (x * y)) :
    ((∃ N, ∀ fuel ≥ N, ∃ c, a.mul F fuel b = .ok c ∧ c.Represents (x * y)) ↔
      ¬ (Irrational x ∧ Irrational y ∧ EndpointHit (· * ·) DFI.mul a b)) ∧
    (Irrational x ∧ Irrational y ∧ EndpointHit (· * ·) DFI.mul a b →
      ∃ N, ∃ q : ℚ, ∀ fuel ≥ N, a.mul F fuel b = .ok (ofRat q)) := by
  have key : Irrational x → Irrational y → Irrational (x * y) →
      (∀ fuel c, a.mul F fuel b = .ok c → ¬ EndpointHit (· * ·) DFI.mul a b → c.Represents (x * y)) ∧
      (EndpointHit (· * ·) DFI.mul a b → ∃ N, ∃ q : ℚ, ∀ fuel ≥ N, a.mul F fuel b = .ok (ofRat q)) := by
    intro hx hy hxy
    have hx0 : x ≠ 0 := by rintro rfl; exact hx ⟨0, by simp⟩
    have hy0 : y ≠ 0 := by rintro rfl; exact hy ⟨0, by simp⟩
    have pa := ha.coeff_zero_ne hx0
    have pb := hb.coeff_zero_ne hy0
    obtain ⟨R, hR⟩ := mulResultant_exists a.poly b.poly pa pb
    have hR0 := mulResultant_ne_zero a.poly b.poly R pa pb hR
    obtain ⟨s, hs1, hs2, -⟩ := ha.intervalShrinker
    obtain ⟨t, ht1, ht2, -⟩ := hb.intervalShrinker
    have hroot := mulResultant_root a.poly b.poly R pa pb hR
    have hv : aeval (x * y) R.toPoly = 0 := by
      rw [← aeval_realCast, hroot]
      exact ⟨x, y, (aeval_realCast _ _).mpr ha.root, (aeval_realCast _ _).mpr hb.root, by push_cast; rfl⟩
    have := select_pair_iff (a := a) (b := b) (x := x) (y := y) (v := x * y) (· * ·) DFI.mul mulInterval
      (fun _ => rfl) (fun i j h1 h2 => DFI.contains_mul h1 h2) mul_nest hs1 ht1 hs2 ht2 F R hR0
      (hF R hR hR0) hroot hv hxy
    simpa only [mul_select ha hb hx hy hs1 ht1 F R hR] using this
  have irr : Irrational x → Irrational y → Irrational (x * y) := by
    intro hx hy
    rcases hxy with h | h | h
    · exact absurd hx h
    · exact absurd hy h
    · exact h
  refine ⟨⟨?_, ?_⟩, fun ⟨hx, hy, h⟩ => (key hx hy (irr hx hy)).2 h⟩
  · rintro ⟨N, hN⟩ ⟨hx, hy, h⟩
    obtain ⟨M, q, hM⟩ := (key hx hy (irr hx hy)).2 h
    obtain ⟨c, h1, h2⟩ := hN (max M N) (le_max_right _ _)
    rw [hM _ (le_max_left _ _)] at h1
    cases h1
    exact irr hx hy ⟨q, (ofRat_represents q).unique_real h2⟩
  · intro h
    by_cases hx : Irrational x
    swap
    · exact C45_mul_rational F a b x y ha hb (Or.inl hx) hF
    by_cases hy : Irrational y
    swap
    · exact C45_mul_rational F a b x y ha hb (Or.inr hy) hF
    obtain ⟨N, hN⟩ := C45_mul_partial F a b x y ha hb hF
    refine ⟨N, fun fuel hf => ?_⟩
    obtain ⟨c, h1, -⟩ := hN fuel hf
    exact ⟨c, h1, (key hx hy (irr hx hy)).1 fuel c h1 fun e => h ⟨hx, hy, e⟩⟩

/-- `√2` held with the interval `[0, 2]`: adding it to itself hits the end point `0 = √2 + (-√2)` at once,
and all hypotheses of the criterion are met. -/
example (rng : ℕ → ℕ) : Irrational (√2) ∧ Irrational (√2 + √2) ∧
    EndpointHit (· + ·) DFI.add wideSqrtTwo wideSqrtTwo ∧
    ∀ R, addResultant wideSqrtTwo.poly wideSqrtTwo.poly = some R →
      FactorsRight (factorCall firstSmallest rng 0) R := by
  refine ⟨irrational_sqrt_two, ?_, ?_, ?_⟩
  · have := irrational_sqrt_two.natCast_mul (m := 2) (by norm_num)
    rw [← two_mul]
    exact_mod_cast this
  · obtain ⟨s, h1, -, h3⟩ := wideSqrtTwo_represents.intervalShrinker
    have hr := (aeval_realCast _ _).mpr wideSqrtTwo_represents.root
    refine ⟨0, s, s, s, s, 0, (√2 : ℝ), -(√2 : ℝ), h1, h1, rfl, rfl, Or.inl ?_, hr, ?_, by simp⟩
    · rw [h3]; decide +kernel
    · rw [show wideSqrtTwo.poly.toPoly = X ^ 2 + C 0 * X + C (-2) from toPoly_quadratic 0 (-2)] at hr ⊢
      simp only [map_add, map_mul, map_pow, aeval_X, aeval_C, algebraMap_int_eq, Int.coe_castRingHom]
        at hr ⊢
      linear_combination hr - 2 * ((0 : ℤ) : ℂ) * (√2 : ℝ)
  · intro R hR
    rw [show addResultant wideSqrtTwo.poly wideSqrtTwo.poly = some sumRes by decide +kernel] at hR
    cases hR
    exact sumRes_right _ firstSmallest_order rng 0

/-- `√2` held with the interval `[1, 2]`: no end point is ever hit. -/
example : ¬ EndpointHit (· + ·) DFI.add sqrtTwo sqrtTwo := by
  have hF : ∀ R, addResultant sqrtTwo.poly sqrtTwo.poly = some R →
      FactorsRight (factorCall firstSmallest (fun _ => 0) 0) R := by
    intro R hR
    rw [show addResultant sqrtTwo.poly sqrtTwo.poly = some sumRes by decide +kernel] at hR
    cases hR
    exact sumRes_right _ firstSmallest_order _ 0
  have := (C44_add_exact_iff _ _ _ _ _ sqrtTwo_represents sqrtTwo_represents hF).1.mp
    (C44_add_exact_partial _ _ _ _ _ sqrtTwo_represents sqrtTwo_represents hF (by
      intro q x' y' hq hx hy h
      exfalso
      have h0 := rat_sum_sqrt q x' y' (sq_two x' hx) (sq_two y' hy) h
      rw [h0, show sqrtTwo.interval.add sqrtTwo.interval = ⟨2, 4, 0⟩ by decide +kernel] at hq
      have := hq.1
      norm_num at this))
  intro h
  refine this ⟨irrational_sqrt_two, irrational_sqrt_two, ?_, h⟩
  have := irrational_sqrt_two.natCast_mul (m := 2) (by norm_num)
  rw [← two_mul]
  exact_mod_cast this

/-- `1 + √2` held with the interval `[-1/4, 4]`: the product with itself hits the end point
`-1 = (1 + √2)(1 - √2)`, and all hypotheses of the criterion are met. -/
example (rng : ℕ → ℕ) : Irrational (1 + √2) ∧ Irrational ((1 + √2) * (1 + √2)) ∧
    EndpointHit (· * ·) DFI.mul wideOnePlus wideOnePlus ∧
    ∀ R, mulResultant wideOnePlus.poly wideOnePlus.poly = some R → R.toPoly ≠ 0 →
      FactorsRight (factorCall firstSmallest rng 0) R := by
  refine ⟨irrational_onePlus, ?_, ?_, ?_⟩
  · have := (irrational_sqrt_two.natCast_mul (m := 2) (by norm_num)).natCast_add 3
    have e : (1 + √2) * (1 + √2) = (3 : ℕ) + (2 : ℕ) * √2 := by
      have : √2 * √2 = 2 := Real.mul_self_sqrt (by norm_num)
      push_cast; linear_combination this
    rw [e]; exact this
  · obtain ⟨s, h1, -, h3⟩ := wideOnePlus_represents.intervalShrinker
    have hr := (aeval_realCast _ _).mpr wideOnePlus_represents.root
    have h2 : (√2 : ℝ) * √2 = 2 := Real.mul_self_sqrt (by norm_num)
    have h2' : ((√2 : ℝ) : ℂ) * (√2 : ℝ) = 2 := by exact_mod_cast h2
    refine ⟨0, s, s, s, s, -1, ((1 + √2 : ℝ) : ℂ), 1 - ((√2 : ℝ) : ℂ), h1, h1, rfl, rfl, Or.inl ?_, hr,
      ?_, ?_⟩
    · rw [h3]; decide +kernel
    · rw [show wideOnePlus.poly.toPoly = X ^ 2 + C (-2) * X + C (-1) from toPoly_quadratic (-2) (-1)]
      simp only [map_add, map_mul, map_pow, aeval_X, aeval_C, algebraMap_int_eq, Int.coe_castRingHom]
      push_cast
      linear_combination h2'
    · push_cast
      linear_combination h2'
  · intro R hR _
    rw [show mulResultant wideOnePlus.poly wideOnePlus.poly = some prodRes by decide +kernel] at hR
    cases hR
    exact prodRes_right _ firstSmallest_order rng 0

/-! ## C40 reciprocals -/

namespace RealAlg

/-- the reciprocal of an irrational number whose interval does not hold zero, as it is computed. -/
theorem checkedRecip_no_zero {a : RealAlg} {x : ℝ} (h : a.Represents x) (hx : Irrational x)
    (hz : ¬ a.interval.Contains 0) (fuel : ℕ) :
    ∃ r, a.interval.checkedRecip = some r ∧
      a.checkedRecip (fuel + 1) = .ok (some ⟨Poly.ofCoeffs a.poly.coeffs.reverse, r⟩) := by
  have hx0 : x ≠ 0 := fun e => hx ⟨0, by simp [e]⟩
  obtain ⟨r, hr⟩ : ∃ r, a.interval.checkedRecip = some r := by
    cases hr : a.interval.checkedRecip with
    | none => exact absurd ((DFI.checkedRecip_eq_none_iff _).mp hr) hz
    | some r => exact ⟨r, rfl⟩
  have hz' : a.interval.containsZero = false := by
    rw [Bool.eq_false_iff, Ne, DFI.containsZero_iff]; exact hz
  obtain ⟨s, h4, h5, h6⟩ := h.intervalShrinker
  have hlh := h.lo_le_hi
  have hzz : ¬ (a.interval.lo ≤ 0 ∧ 0 ≤ a.interval.hi) := by
    unfold DFI.containsZero at hz'
    rintro ⟨e1, e2⟩
    simp [not_lt.mpr e1, not_lt.mpr e2] at hz'
  have hclip : ∀ b : Bool, b = decide (x < 0) → clipToSign b a.interval = some a.interval := by
    rintro b rfl
    unfold clipToSign
    rcases lt_or_gt_of_ne hx0 with h0 | h0
    · have := DFI.lo_neg_of h.mem h0
      simp only [h0, decide_true, if_true]
      rw [if_neg (by omega)]
    · have := DFI.hi_pos_of h.mem h0
      simp only [not_lt.mpr h0.le, decide_false, Bool.false_eq_true, if_false]
      rw [if_neg (by omega)]
  have hrem : a.removeZeroFromInterval (fuel + 1) = .ok (some s) := by
    have hloop : removeZeroLoop (fuel + 1) s = .ok s := by
      unfold removeZeroLoop
      rw [h6, if_neg (by rw [hz']; simp)]
    unfold RealAlg.removeZeroFromInterval
    rcases h.cmpWithZero with ⟨e1, e2⟩ | ⟨e1, e2⟩ | ⟨e1, e2⟩
    · rw [e1]
      have := hclip true (by simp [e2])
      simp [bind, Except.bind, pure, Except.pure, this, orPanic, h4, hloop]
    · exact absurd e2 hx0
    · rw [e1]
      have := hclip false (by simp [e2.le])
      simp [bind, Except.bind, pure, Except.pure, this, orPanic, h4, hloop]
  refine ⟨r, hr, ?_⟩
  unfold RealAlg.checkedRecip
  rw [h.toRational_irr hx]
  simp [bind, Except.bind, pure, Except.pure, hrem, orPanic, h6, hr]

end RealAlg

/-- C40: exactly when the reciprocal of an irrational number is wrong, for intervals that do not hold
zero.  The reciprocal is right if and only if no other real root of the polynomial has its reciprocal
between the reciprocals of the ends of the interval, rounded outwards to the precision of the
interval. -/
theorem C40_recip_exact_iff (a : RealAlg) (x : ℝ) (h : a.Represents x) (hx : Irrational x)
    (hz : ¬ a.interval.Contains 0) (fuel : ℕ) :
    ∃ b, a.checkedRecip (fuel + 1) = .ok (some b) ∧ a.recip (fuel + 1) = .ok b ∧
      (b.Represents x⁻¹ ↔ ∀ z : ℝ, aeval z a.poly.toPoly = 0 → z ≠ x →
        ¬ ((⌊2 ^ a.interval.log2Denom / (a.interval.upperBound : ℝ)⌋ : ℝ) ≤
            2 ^ a.interval.log2Denom / z ∧
          2 ^ a.interval.log2Denom / z ≤
            (⌈2 ^ a.interval.log2Denom / (a.interval.lowerBound : ℝ)⌉ : ℝ))) := by
  obtain ⟨r, hr, hc⟩ := checkedRecip_no_zero h hx hz fuel
  refine ⟨_, hc, by unfold RealAlg.recip; rw [hc]; rfl, ?_⟩
  have hx0 : x ≠ 0 := fun e => hx ⟨0, by simp [e]⟩
  obtain ⟨N, hN⟩ := h.checkedRecip_irr hx
  obtain ⟨b, h1, h2, h3, h4, h5, h6, -, -⟩ := hN (max N (fuel + 1)) (le_max_left _ _)
  have hb : b = ⟨Poly.ofCoeffs a.poly.coeffs.reverse, r⟩ := by
    have := checkedRecip_mono a (fuel + 1) _ hc _ (le_max_right N _)
    rw [this] at h1
    cases h1
    rfl
  rw [← hb]
  have hpos : b.poly.toPoly.natDegree = 1 → 0 < b.poly.toPoly.leadingCoeff := by
    intro hd
    rcases h.rat_or_irr with ⟨q, hq, -⟩ | ⟨hd', -⟩
    · exact absurd ⟨q, hq⟩ hx
    · omega
  have hp : (0 : ℝ) < 2 ^ a.interval.log2Denom := by positivity
  -- the ends of the reciprocal
  have hends : b.interval.log2Denom = a.interval.log2Denom ∧
      b.interval.lo = ⌊2 ^ a.interval.log2Denom / (a.interval.upperBound : ℝ)⌋ ∧
      b.interval.hi = ⌈2 ^ a.interval.log2Denom / (a.interval.lowerBound : ℝ)⌉ := by
    rw [hb]
    have hzz : ¬ (a.interval.lo ≤ 0 ∧ 0 ≤ a.interval.hi) := by
      intro e
      apply hz
      constructor
      · exact div_nonpos_of_nonpos_of_nonneg (by exact_mod_cast e.1) hp.le
      · exact div_nonneg (by exact_mod_cast e.2) hp.le
    have hlh := h.lo_le_hi
    have hlo : a.interval.lo ≠ 0 := by omega
    have hhi : a.interval.hi ≠ 0 := by omega
    have hcz : a.interval.containsZero = false := by
      rw [Bool.eq_false_iff, Ne, DFI.containsZero_iff]; exact hz
    unfold DFI.checkedRecip at hr
    rw [if_neg (by rw [hcz]; simp)] at hr
    cases hr
    have hs : ((shl 1 (2 * a.interval.log2Denom) : ℤ) : ℝ) =
        2 ^ a.interval.log2Denom * 2 ^ a.interval.log2Denom := by
      rw [shl_cast, two_mul, pow_add]; push_cast; ring
    refine ⟨rfl, ?_, ?_⟩
    · symm
      rw [Int.floor_eq_iff, DFI.upperBound_real, div_div_eq_mul_div, ← hs]
      exact ⟨DFI.fdiv_le_real _ _ hhi, DFI.lt_fdiv_real _ _ hhi⟩
    · symm
      rw [Int.ceil_eq_iff, DFI.lowerBound_real, div_div_eq_mul_div, ← hs]
      exact ⟨by linarith [DFI.divCeil_lt_real (shl 1 (2 * a.interval.log2Denom)) _ hlo],
        DFI.le_divCeil_real _ _ hlo⟩
  obtain ⟨e1, e2, e3⟩ := hends
  have hroots : ∀ z : ℝ, z ≠ 0 → (aeval z⁻¹ b.poly.toPoly = 0 ↔ aeval z a.poly.toPoly = 0) := by
    intro z hz0
    rw [h3]; exact aeval_reverse hz0
  have hcont : ∀ z : ℝ, b.interval.Contains z⁻¹ ↔
      (⌊2 ^ a.interval.log2Denom / (a.interval.upperBound : ℝ)⌋ : ℝ) ≤ 2 ^ a.interval.log2Denom / z ∧
          2 ^ a.interval.log2Denom / z ≤
            (⌈2 ^ a.interval.log2Denom / (a.interval.lowerBound : ℝ)⌉ : ℝ) := by
    intro z
    unfold DFI.Contains
    rw [e1, e2, e3, div_le_iff₀ hp, le_div_iff₀ hp, div_eq_inv_mul (2 ^ a.interval.log2Denom) z]
  constructor
  · intro hrep z hzr hzx hin
    have hz0 : z ≠ 0 := by
      rintro rfl
      rcases h.rat_or_irr with ⟨q, hq, -⟩ | ⟨hd', -⟩
      · exact hx ⟨q, hq⟩
      · apply h.no_rat_root hd' 0
        rw [← aeval_rat_real_eq_zero]
        simpa using hzr
    have := hrep.isolated z⁻¹ ((hcont z).mpr hin) ((hroots z hz0).mpr hzr)
    exact hzx (inv_injective this)
  · intro hno
    refine ⟨h2, hpos, h5, h6, fun y hy hyr => ?_⟩
    have hy0 : y ≠ 0 := by
      rintro rfl
      rw [h3, aeval_def, eval₂_at_zero, coeff_zero_reverse] at hyr
      have : a.poly.toPoly.leadingCoeff = 0 := by simpa using hyr
      exact h.ne_zero (leadingCoeff_eq_zero.mp this)
    by_contra hne
    have hy1 : y⁻¹ ≠ 0 := inv_ne_zero hy0
    refine hno y⁻¹ ((hroots _ hy1).mp (by rwa [inv_inv])) (fun e => hne (by rw [← e, inv_inv])) ?_
    exact (hcont y⁻¹).mp (by rwa [inv_inv])

/-- `3 + √2` held with the interval `[4, 5]` meets the hypotheses, and is on the wrong side: the reciprocal
of the other root `3 - √2` lies between `⌊1/5⌋ = 0` and `⌈1/4⌉ = 1`. -/
example : threePlusSqrtTwo.Represents (3 + √2) ∧ Irrational (3 + √2) ∧
    ¬ threePlusSqrtTwo.interval.Contains 0 ∧ ∃ b, threePlusSqrtTwo.checkedRecip 1 = .ok (some b) ∧
    ¬ b.Represents (3 + √2)⁻¹ := by
  have h1 : Irrational (3 + √2) := by exact_mod_cast irrational_sqrt_two.natCast_add 3
  have h2 : ¬ threePlusSqrtTwo.interval.Contains 0 := by
    rw [← DFI.containsZero_iff]; decide +kernel
  obtain ⟨b, h3, -, h4⟩ := C40_recip_exact_iff _ _ threePlusSqrtTwo_represents h1 h2 0
  refine ⟨threePlusSqrtTwo_represents, h1, h2, b, h3, fun h => ?_⟩
  obtain ⟨b', h5, h6, -⟩ := C40_recip_false.2 0
  rw [h3] at h5
  cases h5
  exact h6 _ h

/-- C40: from some precision on the reciprocal is right.  For every irrational number there is a `D` such
that the reciprocal is right whenever the interval is narrower than `2^-D` and has at least `D` binary
digits. -/
theorem C40_recip_fine (p : Poly ℤ) (x : ℝ) (hx : Irrational x) :
    ∃ D : ℕ, ∀ i : DFI, (⟨p, i⟩ : RealAlg).Represents x → D ≤ i.log2Denom →
      (i.width : ℝ) < 1 / 2 ^ D → ∀ fuel, ∃ b, (⟨p, i⟩ : RealAlg).checkedRecip (fuel + 1) = .ok (some b) ∧
        b.Represents x⁻¹ := by
  by_cases hp : p.toPoly = 0
  · exact ⟨0, fun i hi => absurd hp hi.ne_zero⟩
  have hx0 : x ≠ 0 := fun e => hx ⟨0, by simp [e]⟩
  have hxa : 0 < |x| := abs_pos.mpr hx0
  obtain ⟨δ, hδ, hgap⟩ := exists_gap p.toPoly hp x
  -- roots close to `x` after inversion are close to `x`
  obtain ⟨η, hη, hinv⟩ : ∃ η > 0, ∀ z : ℝ, z ≠ 0 → |z⁻¹ - x⁻¹| < η → |z - x| < δ := by
    have hc : ContinuousAt (fun w : ℝ => w⁻¹) x⁻¹ := continuousAt_inv₀ (inv_ne_zero hx0)
    obtain ⟨η, hη, h⟩ := Metric.continuousAt_iff.mp hc δ hδ
    refine ⟨η, hη, fun z _ hz' => ?_⟩
    have := h (x := z⁻¹) (by rwa [Real.dist_eq])
    rwa [Real.dist_eq, inv_inv, inv_inv] at this
  obtain ⟨ε, hε, hcont⟩ : ∃ ε > 0, ∀ w : ℝ, |w - x| < ε → |w⁻¹ - x⁻¹| < η / 2 := by
    have hc : ContinuousAt (fun w : ℝ => w⁻¹) x := continuousAt_inv₀ hx0
    obtain ⟨ε, hε, h⟩ := Metric.continuousAt_iff.mp hc (η / 2) (by linarith)
    refine ⟨ε, hε, fun w hw => ?_⟩
    have := h (x := w) (by rwa [Real.dist_eq])
    rwa [Real.dist_eq] at this
  obtain ⟨D, hD⟩ := exists_pow_lt_of_lt_one (show (0 : ℝ) < min (η / 2) (min ε |x|) by
    exact lt_min (by linarith) (lt_min hε hxa)) (show (1 / 2 : ℝ) < 1 by norm_num)
  rw [one_div_pow] at hD
  refine ⟨D, fun i hi hd hw fuel => ?_⟩
  have hD1 : (1 : ℝ) / 2 ^ D < η / 2 := lt_of_lt_of_le hD (min_le_left _ _)
  have hD2 : (1 : ℝ) / 2 ^ D < ε := lt_of_lt_of_le hD ((min_le_right _ _).trans (min_le_left _ _))
  have hD3 : (1 : ℝ) / 2 ^ D < |x| := lt_of_lt_of_le hD ((min_le_right _ _).trans (min_le_right _ _))
  have hl := hi.lower_le
  have hu := hi.le_upper
  simp only at hl hu
  rw [DFI.width_real] at hw
  have hz : ¬ i.Contains 0 := by
    rw [DFI.contains_iff_bounds]
    rintro ⟨h3, h4⟩
    rcases abs_cases x with ⟨h5, -⟩ | ⟨h5, -⟩ <;> linarith
  obtain ⟨b, hb1, -, hb2⟩ := C40_recip_exact_iff ⟨p, i⟩ x hi hx hz fuel
  refine ⟨b, hb1, hb2.mpr fun z hzr hzx => ?_⟩
  simp only at hzr ⊢
  rintro ⟨f1, f2⟩
  have hP : (0 : ℝ) < 2 ^ i.log2Denom := by positivity
  have hz0 : z ≠ 0 := by
    rintro rfl
    rcases hi.rat_or_irr with ⟨q, hq, -⟩ | ⟨hd', -⟩
    · exact hx ⟨q, hq⟩
    · apply hi.no_rat_root hd' 0
      rw [← aeval_rat_real_eq_zero]
      simpa using hzr
  have g1 := Int.sub_one_lt_floor ((2 : ℝ) ^ i.log2Denom / (i.upperBound : ℝ))
  have g2 := Int.ceil_lt_add_one ((2 : ℝ) ^ i.log2Denom / (i.lowerBound : ℝ))
  have c1 := hcont i.upperBound (by rw [abs_lt]; constructor <;> linarith)
  have c2 := hcont i.lowerBound (by rw [abs_lt]; constructor <;> linarith)
  rw [abs_lt] at c1 c2
  have hu1 : (1 : ℝ) / 2 ^ i.log2Denom < η / 2 :=
    lt_of_le_of_lt (one_div_le_one_div_of_le (by positivity)
      (pow_le_pow_right₀ (by norm_num) hd)) hD1
  have k1 : (i.upperBound : ℝ)⁻¹ - 1 / 2 ^ i.log2Denom < z⁻¹ := by
    have := g1.trans_le f1
    rw [div_eq_mul_inv, div_eq_mul_inv] at this
    have h3 : (2 : ℝ) ^ i.log2Denom * ((i.upperBound : ℝ)⁻¹ - 1 / 2 ^ i.log2Denom) <
        2 ^ i.log2Denom * z⁻¹ := by
      rw [mul_sub, mul_one_div_cancel hP.ne']; exact this
    exact lt_of_mul_lt_mul_left h3 hP.le
  have k2 : z⁻¹ < (i.lowerBound : ℝ)⁻¹ + 1 / 2 ^ i.log2Denom := by
    have := f2.trans_lt g2
    rw [div_eq_mul_inv, div_eq_mul_inv] at this
    have h3 : (2 : ℝ) ^ i.log2Denom * z⁻¹ <
        2 ^ i.log2Denom * ((i.lowerBound : ℝ)⁻¹ + 1 / 2 ^ i.log2Denom) := by
      rw [mul_add, mul_one_div_cancel hP.ne']; exact this
    exact lt_of_mul_lt_mul_left h3 hP.le
  have := hinv z hz0 (by rw [abs_lt]; constructor <;> linarith)
  exact absurd (hgap z hzr hzx) (not_le.mpr this)

/-- the hypotheses can be met at every precision: `√2` in intervals of width `2^-D`. -/
example (D : ℕ) : ∃ i : DFI, (⟨Poly.ofCoeffs [-2, 0, 1], i⟩ : RealAlg).Represents (√2) ∧
    D ≤ i.log2Denom ∧ (i.width : ℝ) < 1 / 2 ^ D := by
  have h0 : (0 : ℝ) < √2 := Real.sqrt_pos.mpr (by norm_num)
  have hs : √2 * √2 = (2 : ℝ) := Real.mul_self_sqrt (by norm_num)
  have hp : (0 : ℝ) < 2 ^ (D + 1) := by positivity
  have f1 := Int.floor_le (√2 * 2 ^ (D + 1))
  have f2 := Int.lt_floor_add_one (√2 * 2 ^ (D + 1))
  have hf0 : 0 ≤ ⌊√2 * 2 ^ (D + 1)⌋ := Int.floor_nonneg.mpr (by positivity)
  refine ⟨⟨⌊√2 * 2 ^ (D + 1)⌋, ⌊√2 * 2 ^ (D + 1)⌋ + 1, D + 1⟩, ?_, by simp, ?_⟩
  · refine ⟨sqrtTwo_represents.irreducible, sqrtTwo_represents.positive, sqrtTwo_represents.root, ?_, ?_⟩
    · constructor
      · rw [div_le_iff₀ hp]; exact f1
      · rw [le_div_iff₀ hp]; push_cast; exact f2.le
    · intro y hy hyr
      have hy0 : 0 ≤ y := le_trans (div_nonneg (by exact_mod_cast hf0) hp.le) hy.1
      rw [show (Poly.ofCoeffs [-2, 0, 1] : Poly ℤ).toPoly = X ^ 2 + C 0 * X + C (-2) from
        toPoly_quadratic 0 (-2)] at hyr
      simp only [map_add, map_mul, map_pow, aeval_X, aeval_C, algebraMap_int_eq, Int.coe_castRingHom,
        Int.cast_zero, zero_mul, add_zero, Int.cast_neg, Int.cast_ofNat] at hyr
      nlinarith [sq_nonneg (y - √2), sq_nonneg (y + √2)]
  · rw [DFI.width_real, DFI.lowerBound_real, DFI.upperBound_real, ← sub_div]
    push_cast
    rw [add_sub_cancel_left]
    exact one_div_lt_one_div_of_lt (by positivity) (by rw [pow_succ]; linarith [show (0:ℝ) < 2 ^ D by positivity])

end Algebraics
