import Verif.Lemmas.SelectRoot
import Verif.Lemmas.AlgResultant
import Verif.Lemmas.AlgNumLoops

/-!
# Sums and products of algebraic numbers

The selectors of `add_assign` and `mul_assign`: two shrinkers whose intervals are added or multiplied.
-/

namespace Algebraics

open Polynomial

namespace RealAlg

/-- both shrinkers belong to their numbers and stay inside the intervals they started from. -/
structure PairInv (p q : Poly ℤ) (x y : ℝ) (i j : DFI) (st : Shrinker × Shrinker) : Prop where
  left : st.1.Valid p x
  right : st.2.Valid q y
  leftLower : i.lowerBound ≤ st.1.interval.lowerBound
  leftUpper : st.1.interval.upperBound ≤ i.upperBound
  rightLower : j.lowerBound ≤ st.2.interval.lowerBound
  rightUpper : st.2.interval.upperBound ≤ j.upperBound
  leftDenom : i.log2Denom ≤ st.1.interval.log2Denom
  rightDenom : j.log2Denom ≤ st.2.interval.log2Denom

variable {p q : Poly ℤ} {x y : ℝ} {i j : DFI}

theorem PairInv.shrink {st : Shrinker × Shrinker} (h : PairInv p q x y i j st) :
    ∃ st', shrinkBoth st = some st' ∧ PairInv p q x y i j st' ∧
      st'.1.interval.width ≤ 17 / 32 * st.1.interval.width ∧
      st'.2.interval.width ≤ 17 / 32 * st.2.interval.width := by
  obtain ⟨t, r, h1, h2⟩ := h.left.shrink
  obtain ⟨t', r', h3, h4⟩ := h.right.shrink
  refine ⟨(t, t'), ?_, ⟨h2.valid, h4.valid, h.leftLower.trans h2.lower, h2.upper.trans h.leftUpper,
    h.rightLower.trans h4.lower, h4.upper.trans h.rightUpper, h.leftDenom.trans h2.denom,
    h.rightDenom.trans h4.denom⟩, h2.width, h4.width⟩
  unfold shrinkBoth
  rw [h1, h3]

theorem PairInv.shrink_of_eq {st st' : Shrinker × Shrinker} (h : PairInv p q x y i j st)
    (he : shrinkBoth st = some st') : PairInv p q x y i j st' := by
  obtain ⟨t, h1, h2, -⟩ := h.shrink
  rw [h1] at he
  cases he
  exact h2

theorem width_nonneg {p : Poly ℤ} {s : Shrinker} {x : ℝ} (h : s.Valid p x) : 0 ≤ s.interval.width := by
  rw [DFI.width_eq, sub_nonneg, DFI.lowerBound_le_upperBound]
  exact h.rep.lo_le_hi

/-- if small operands give small results, the results get small -/
theorem PairInv.small {getInterval : Shrinker × Shrinker → Option DFI} {δ η : ℝ} (hη : 0 < η)
    (h : ∀ st, PairInv p q x y i j st → (st.1.interval.width : ℝ) < η →
      (st.2.interval.width : ℝ) < η → ∃ k, getInterval st = some k ∧ (k.width : ℝ) < δ)
    (st : Shrinker × Shrinker) (hst : PairInv p q x y i j st) :
    ∃ n, SmallAfter getInterval shrinkBoth δ n st := by
  have key : ∀ n : ℕ, ∀ st, PairInv p q x y i j st →
      (17 / 32 : ℝ) ^ n * ((st.1.interval.width : ℝ) + st.2.interval.width) < η →
      SmallAfter getInterval shrinkBoth δ n st := by
    intro n
    induction n with
    | zero =>
      intro st hst hw
      have h1 : (0 : ℝ) ≤ st.1.interval.width := by exact_mod_cast width_nonneg hst.left
      have h2 : (0 : ℝ) ≤ st.2.interval.width := by exact_mod_cast width_nonneg hst.right
      rw [pow_zero, one_mul] at hw
      exact h st hst (by linarith) (by linarith)
    | succ n ih =>
      intro st hst hw
      obtain ⟨st', h1, h2, h3, h4⟩ := hst.shrink
      refine ⟨st', h1, ih st' h2 (lt_of_le_of_lt ?_ hw)⟩
      have h3' : (st'.1.interval.width : ℝ) ≤ 17 / 32 * st.1.interval.width := by
        have := (Rat.cast_le (K := ℝ)).mpr h3; push_cast at this; exact this
      have h4' : (st'.2.interval.width : ℝ) ≤ 17 / 32 * st.2.interval.width := by
        have := (Rat.cast_le (K := ℝ)).mpr h4; push_cast at this; exact this
      rw [pow_succ, mul_assoc]
      exact mul_le_mul_of_nonneg_left (by linarith) (by positivity)
  obtain ⟨n, hn⟩ := exists_pow_small ((st.1.interval.width : ℝ) + st.2.interval.width) η hη
  exact ⟨n, key n st hst hn⟩

theorem add_bounds (i j : DFI) : ((i.add j).lowerBound : ℝ) = i.lowerBound + j.lowerBound ∧
    ((i.add j).upperBound : ℝ) = i.upperBound + j.upperBound := by
  obtain ⟨h1, h2⟩ := C02_add_tight i j
  simp only [DFI.lowerBound_real, DFI.upperBound_real]
  exact ⟨h1, h2⟩

theorem aeval_ratCast (q : ℚ) (f : ℤ[X]) : (aeval (q : ℂ) f : ℂ) = 0 ↔ (aeval (q : ℝ) f : ℝ) = 0 := by
  have h : (aeval (q : ℂ) f : ℂ) = ((aeval (q : ℝ) f : ℝ) : ℂ) := by
    rw [show (q : ℂ) = algebraMap ℝ ℂ (q : ℝ) by simp, aeval_algebraMap_apply]; rfl
  rw [h]
  exact_mod_cast Iff.rfl

theorem aeval_realCast (x : ℝ) (f : ℤ[X]) : (aeval (x : ℂ) f : ℂ) = 0 ↔ (aeval x f : ℝ) = 0 := by
  have h : (aeval (x : ℂ) f : ℂ) = ((aeval x f : ℝ) : ℂ) := by
    rw [show (x : ℂ) = algebraMap ℝ ℂ x by simp, aeval_algebraMap_apply]; rfl
  rw [h]
  exact_mod_cast Iff.rfl

variable {a b : RealAlg}

/-- `add`, up to the choice of a wrong rational root of the resultant. -/
theorem Represents.add (ha : a.Represents x) (hb : b.Represents y) (F : FactorCall)
    (hF : ∀ R, addResultant a.poly b.poly = some R → ∃ r, F R = .ok r ∧ FactorsOf r R.toPoly) :
    ∃ N, ∀ fuel ≥ N, ∃ c, a.add F fuel b = .ok c ∧ (c.Represents (x + y) ∨
      ∃ q : ℚ, c = ofRat q ∧ (q : ℝ) ≠ x + y ∧ (a.interval.add b.interval).Contains q ∧
        ∃ x' y' : ℂ, aeval x' a.poly.toPoly = 0 ∧ aeval y' b.poly.toPoly = 0 ∧ (q : ℂ) = x' + y') := by
  by_cases hrat : ∃ q r : ℚ, x = q ∧ y = r
  · obtain ⟨q, r, rfl, rfl⟩ := hrat
    refine ⟨0, fun fuel _ => ⟨ofRat (q + r), ?_, Or.inl ?_⟩⟩
    · unfold RealAlg.add
      rw [ha.toRational_rat, hb.toRational_rat]
      rfl
    · have := ofRat_represents (q + r)
      push_cast at this
      exact this
  · have hrs : ∃ u v, a.toRational = .ok u ∧ b.toRational = .ok v ∧ (u = none ∨ v = none) := by
      rcases ha.rat_or_irr with ⟨q, rfl, -⟩ | ⟨-, hx⟩
      · rcases hb.rat_or_irr with ⟨r, rfl, -⟩ | ⟨-, hy⟩
        · exact absurd ⟨q, r, rfl, rfl⟩ hrat
        · exact ⟨_, _, ha.toRational_rat, hb.toRational_irr hy, Or.inr rfl⟩
      · rcases hb.rat_or_irr with ⟨r, rfl, -⟩ | ⟨-, hy⟩
        · exact ⟨_, _, ha.toRational_irr hx, hb.toRational_rat, Or.inl rfl⟩
        · exact ⟨_, _, ha.toRational_irr hx, hb.toRational_irr hy, Or.inr rfl⟩
    obtain ⟨u, v, hu, hv, huv⟩ := hrs
    have hadd : ∀ fuel, a.add F fuel b = if b.isZero then .ok a else if a.isZero then .ok b else
        (orPanic (addResultant a.poly b.poly) >>= fun r => a.intervalShrinker >>= fun l =>
          b.intervalShrinker >>= fun s => selectRoot addInterval shrinkBoth F fuel (l, s) r) := by
      intro fuel
      unfold RealAlg.add
      rw [hu, hv]
      rcases huv with rfl | rfl
      · rfl
      · cases u <;> rfl
    by_cases hb0 : b.isZero = true
    · refine ⟨0, fun fuel _ => ⟨a, by rw [hadd, if_pos hb0], Or.inl ?_⟩⟩
      rw [hb.isZero_iff.mp hb0, add_zero]; exact ha
    by_cases ha0 : a.isZero = true
    · refine ⟨0, fun fuel _ => ⟨b, by rw [hadd, if_neg hb0, if_pos ha0], Or.inl ?_⟩⟩
      rw [ha.isZero_iff.mp ha0, zero_add]; exact hb
    obtain ⟨R, hR⟩ := addResultant_exists a.poly b.poly ha.ne_zero hb.ne_zero
    obtain ⟨r, hr1, hr2⟩ := hF R hR
    obtain ⟨s, hs1, hs2, hs3⟩ := ha.intervalShrinker
    obtain ⟨t, ht1, ht2, ht3⟩ := hb.intervalShrinker
    have hroot := addResultant_root a.poly b.poly R ha.ne_zero hb.ne_zero hR
    have hv : aeval (x + y) R.toPoly = 0 := by
      rw [← aeval_realCast, hroot]
      exact ⟨x, y, (aeval_realCast _ _).mpr ha.root, (aeval_realCast _ _).mpr hb.root, by push_cast; rfl⟩
    obtain ⟨N, hN⟩ := selectRoot_spec (getInterval := addInterval) (shrinkInterval := shrinkBoth)
      (Inv := PairInv a.poly b.poly x y a.interval b.interval)
      (P := fun k : DFI => (a.interval.add b.interval).Contains k.lowerBound ∧
        (a.interval.add b.interval).Contains k.upperBound) (v := x + y)
      (by
        intro st hst
        refine ⟨_, rfl, DFI.contains_add hst.left.rep.mem hst.right.rep.mem, ?_⟩
        have l1 : (a.interval.lowerBound : ℝ) ≤ st.1.interval.lowerBound := by exact_mod_cast hst.leftLower
        have l2 : (st.1.interval.upperBound : ℝ) ≤ a.interval.upperBound := by exact_mod_cast hst.leftUpper
        have l3 : (b.interval.lowerBound : ℝ) ≤ st.2.interval.lowerBound := by exact_mod_cast hst.rightLower
        have l4 : (st.2.interval.upperBound : ℝ) ≤ b.interval.upperBound := by exact_mod_cast hst.rightUpper
        have e1 := hst.left.rep.lower_le
        have e2 := hst.left.rep.le_upper
        have e3 := hst.right.rep.lower_le
        have e4 := hst.right.rep.le_upper
        simp only [DFI.contains_iff_bounds, (add_bounds _ _).1, (add_bounds _ _).2]
        simp only at e1 e2 e3 e4
        refine ⟨⟨?_, ?_⟩, ⟨?_, ?_⟩⟩ <;> linarith)
      (fun st st' h1 h2 => h1.shrink_of_eq h2) F R
      (addResultant_ne_zero a.poly b.poly R ha.ne_zero hb.ne_zero hR) r hr1 hr2 hv (s, t)
      ⟨hs2, ht2, by rw [hs3], by rw [hs3], by rw [ht3], by rw [ht3], by rw [hs3], by rw [ht3]⟩
      (by
        intro δ hδ
        refine PairInv.small (η := δ / 2) (by linarith) ?_ (s, t)
          ⟨hs2, ht2, le_refl _, le_refl _, le_refl _, le_refl _, le_refl _, le_refl _⟩
        intro st _ h1 h2
        refine ⟨_, rfl, ?_⟩
        rw [DFI.width_real] at h1 h2 ⊢
        rw [(add_bounds _ _).1, (add_bounds _ _).2]
        linarith)
    refine ⟨N, fun fuel hf => ?_⟩
    obtain ⟨c, h1, h2⟩ := hN fuel hf
    refine ⟨c, ?_, ?_⟩
    · rw [hadd, if_neg hb0, if_neg ha0, hR, hs1, ht1]
      exact h1
    · rcases h2 with h2 | ⟨q, h2, h3, h4, k, ⟨h5, h6⟩, h7, -⟩
      · exact Or.inl h2
      · refine Or.inr ⟨q, h2, h3, ?_, (hroot q).mp ((aeval_ratCast _ _).mpr h4)⟩
        rcases h7 with rfl | rfl
        · exact h5
        · exact h6

/-! ### multiplication -/

theorem shr_eq_floor (m : ℤ) (n : ℕ) : shr m n = ⌊(m : ℝ) / 2 ^ n⌋ := by
  symm
  rw [Int.floor_eq_iff, le_div_iff₀ (by positivity), div_lt_iff₀ (by positivity)]
  exact ⟨shr_le m n, lt_shr m n⟩

/-- the ends of a product are the rounded products of two ends -/
theorem mul_ends (i j : DFI) : ∃ X Y X' Y' : ℝ,
    (X = i.lowerBound ∨ X = i.upperBound) ∧ (Y = j.lowerBound ∨ Y = j.upperBound) ∧
    (X' = i.lowerBound ∨ X' = i.upperBound) ∧ (Y' = j.lowerBound ∨ Y' = j.upperBound) ∧
    ((i.mul j).lo = ⌊X * Y * 2 ^ (i.mul j).log2Denom⌋) ∧
    ((i.mul j).hi = ⌈X' * Y' * 2 ^ (i.mul j).log2Denom⌉) := by
  have core : ∀ (ll lh rl rh : ℤ) (n : ℕ) (A B C D : ℝ), A * 2 ^ n = ll → B * 2 ^ n = lh →
      C * 2 ^ n = rl → D * 2 ^ n = rh → ∃ X Y X' Y' : ℝ, (X = A ∨ X = B) ∧ (Y = C ∨ Y = D) ∧
      (X' = A ∨ X' = B) ∧ (Y' = C ∨ Y' = D) ∧ (DFI.mulOp ll lh rl rh n).1 = ⌊X * Y * 2 ^ n⌋ ∧
      (DFI.mulOp ll lh rl rh n).2 = ⌈X' * Y' * 2 ^ n⌉ := by
    intro ll lh rl rh n A B C D hA hB hC hD
    obtain ⟨mn, mx, e1, e2, -, -, m1, m2⟩ := DFI.mulOp_bounds ll lh rl rh n
    have hp : (2 : ℝ) ^ n ≠ 0 := by positivity
    have pick : ∀ m ∈ [ll * rl, ll * rh, lh * rl, lh * rh],
        ∃ X Y : ℝ, (X = A ∨ X = B) ∧ (Y = C ∨ Y = D) ∧ X * Y * 2 ^ n = (m : ℝ) / 2 ^ n := by
      intro m hm
      simp only [List.mem_cons, List.not_mem_nil, or_false] at hm
      rcases hm with rfl | rfl | rfl | rfl
      · exact ⟨A, C, Or.inl rfl, Or.inl rfl, by push_cast; rw [← hA, ← hC]; field_simp⟩
      · exact ⟨A, D, Or.inl rfl, Or.inr rfl, by push_cast; rw [← hA, ← hD]; field_simp⟩
      · exact ⟨B, C, Or.inr rfl, Or.inl rfl, by push_cast; rw [← hB, ← hC]; field_simp⟩
      · exact ⟨B, D, Or.inr rfl, Or.inr rfl, by push_cast; rw [← hB, ← hD]; field_simp⟩
    obtain ⟨X, Y, hX, hY, hXY⟩ := pick mn m1
    obtain ⟨X', Y', hX', hY', hXY'⟩ := pick mx m2
    refine ⟨X, Y, X', Y', hX, hY, hX', hY', ?_, ?_⟩
    · rw [e1, hXY, shr_eq_floor]
    · rw [e2, hXY', shr_eq_floor, Int.cast_neg, neg_div, Int.floor_neg, neg_neg]
  have sh : ∀ (u : Int) (m k : Nat), m ≤ k → (u:ℝ) / 2 ^ m * 2 ^ k = ((shl u (k - m) : Int) : ℝ) := by
    intro u m k h
    obtain ⟨j, rfl⟩ := Nat.exists_eq_add_of_le h
    rw [shl_cast, Nat.add_sub_cancel_left, pow_add]; field_simp
  have s0 : ∀ (u : Int) (m : Nat), (u:ℝ) / 2 ^ m * 2 ^ m = (u : ℝ) := by
    intro u m; field_simp
  simp only [DFI.lowerBound_real, DFI.upperBound_real]
  unfold DFI.mul DFI.doOp
  split
  · next h => exact core _ _ _ _ _ _ _ _ _ (sh _ _ _ h) (sh _ _ _ h) (s0 _ _) (s0 _ _)
  · next h =>
    have h := le_of_not_ge h
    exact core _ _ _ _ _ _ _ _ _ (s0 _ _) (s0 _ _) (sh _ _ _ h) (sh _ _ _ h)

theorem end_between {i : DFI} {X : ℝ} (ho : i.lo ≤ i.hi) (h : X = i.lowerBound ∨ X = i.upperBound) :
    i.Contains X := by
  have := (DFI.lowerBound_le_upperBound i).mpr ho
  have : (i.lowerBound : ℝ) ≤ i.upperBound := by exact_mod_cast this
  rw [DFI.contains_iff_bounds]
  rcases h with rfl | rfl
  · exact ⟨le_refl _, this⟩
  · exact ⟨this, le_refl _⟩

/-- the product gets narrow with its operands -/
theorem mul_width (i j : DFI) (hi : i.lo ≤ i.hi) (hj : j.lo ≤ j.hi) (M : ℝ)
    (hiM : |(i.upperBound : ℝ)| ≤ M ∧ |(i.lowerBound : ℝ)| ≤ M)
    (hjM : |(j.upperBound : ℝ)| ≤ M ∧ |(j.lowerBound : ℝ)| ≤ M) :
    ((i.mul j).width : ℝ) ≤ M * (i.width + j.width) + 2 / 2 ^ (i.mul j).log2Denom := by
  obtain ⟨X, Y, X', Y', hX, hY, hX', hY', h1, h2⟩ := mul_ends i j
  have f1 := Int.sub_one_lt_floor (X * Y * 2 ^ (i.mul j).log2Denom)
  have f2 := Int.ceil_lt_add_one (X' * Y' * 2 ^ (i.mul j).log2Denom)
  rw [← h1] at f1
  rw [← h2] at f2
  rw [DFI.width_real, DFI.lowerBound_real, DFI.upperBound_real]
  have hp : (0 : ℝ) < 2 ^ (i.mul j).log2Denom := by positivity
  have g1 : X * Y - 1 / 2 ^ (i.mul j).log2Denom ≤ ((i.mul j).lo : ℝ) / 2 ^ (i.mul j).log2Denom := by
    rw [le_div_iff₀ hp]; rw [sub_mul, div_mul_cancel₀ _ hp.ne']; exact f1.le
  have g2 : ((i.mul j).hi : ℝ) / 2 ^ (i.mul j).log2Denom ≤ X' * Y' + 1 / 2 ^ (i.mul j).log2Denom := by
    rw [div_le_iff₀ hp]; rw [add_mul, div_mul_cancel₀ _ hp.ne']; exact f2.le
  have c1 := (DFI.contains_iff_bounds _ _).mp (end_between hi hX)
  have c2 := (DFI.contains_iff_bounds _ _).mp (end_between hj hY)
  have c3 := (DFI.contains_iff_bounds _ _).mp (end_between hi hX')
  have c4 := (DFI.contains_iff_bounds _ _).mp (end_between hj hY')
  have e1 : |X' - X| ≤ i.width := by rw [DFI.width_real, abs_le]; constructor <;> linarith
  have e2 : |Y' - Y| ≤ j.width := by rw [DFI.width_real, abs_le]; constructor <;> linarith
  have m1 : |X'| ≤ M := by rcases hX' with rfl | rfl; exacts [hiM.2, hiM.1]
  have m2 : |Y| ≤ M := by rcases hY with rfl | rfl; exacts [hjM.2, hjM.1]
  have k : X' * Y' - X * Y ≤ M * j.width + M * i.width := by
    calc X' * Y' - X * Y = X' * (Y' - Y) + Y * (X' - X) := by ring
      _ ≤ |X' * (Y' - Y)| + |Y * (X' - X)| := add_le_add (le_abs_self _) (le_abs_self _)
      _ = |X'| * |Y' - Y| + |Y| * |X' - X| := by rw [abs_mul, abs_mul]
      _ ≤ _ := add_le_add (mul_le_mul m1 e2 (abs_nonneg _) ((abs_nonneg _).trans m1))
        (mul_le_mul m2 e1 (abs_nonneg _) ((abs_nonneg _).trans m2))
  have : (2 : ℝ) / 2 ^ (i.mul j).log2Denom =
    1 / 2 ^ (i.mul j).log2Denom + 1 / 2 ^ (i.mul j).log2Denom := by ring
  rw [this]
  linarith

/-- the ends of the product of smaller intervals lie in the product of the larger ones -/
theorem mul_within {i j i' j' : DFI} (hi : i'.lo ≤ i'.hi) (hj : j'.lo ≤ j'.hi)
    (wi : i'.Within i) (wj : j'.Within j) (di : i.log2Denom ≤ i'.log2Denom)
    (dj : j.log2Denom ≤ j'.log2Denom) :
    (i.mul j).Contains ((i'.mul j').lowerBound) ∧ (i.mul j).Contains ((i'.mul j').upperBound) := by
  obtain ⟨X, Y, X', Y', hX, hY, hX', hY', h1, h2⟩ := mul_ends i' j'
  have c1 := DFI.contains_mul (wi X (end_between hi hX)) (wj Y (end_between hj hY))
  have c2 := DFI.contains_mul (wi X' (end_between hi hX')) (wj Y' (end_between hj hY'))
  have hn : (i.mul j).log2Denom ≤ (i'.mul j').log2Denom := by
    rw [(C03_mul i j).1, (C03_mul i' j').1]; omega
  set n := (i.mul j).log2Denom
  set n' := (i'.mul j').log2Denom with hn'
  obtain ⟨d, hd⟩ := Nat.exists_eq_add_of_le hn
  have hp : (0 : ℝ) < 2 ^ n := by positivity
  have hp' : (0 : ℝ) < 2 ^ n' := by positivity
  have f1 := Int.floor_le (X * Y * 2 ^ n')
  have f2 := Int.le_ceil (X' * Y' * 2 ^ n')
  have low : ∀ Z : ℝ, (i.mul j).Contains Z → ((i.mul j).lo : ℝ) / 2 ^ n ≤ (⌊Z * 2 ^ n'⌋ : ℝ) / 2 ^ n' ∧
      (⌈Z * 2 ^ n'⌉ : ℝ) / 2 ^ n' ≤ ((i.mul j).hi : ℝ) / 2 ^ n := by
    intro Z hZ
    obtain ⟨z1, z2⟩ := hZ
    change ((i.mul j).lo : ℝ) / 2 ^ n ≤ Z at z1
    change Z ≤ ((i.mul j).hi : ℝ) / 2 ^ n at z2
    rw [div_le_iff₀ hp] at z1
    rw [le_div_iff₀ hp] at z2
    rw [hd, pow_add]
    constructor
    · rw [div_le_div_iff₀ hp (by positivity)]
      have : (i.mul j).lo * 2 ^ d ≤ ⌊Z * (2 ^ n * 2 ^ d)⌋ := by
        rw [Int.le_floor]; push_cast
        nlinarith [pow_pos (show (0 : ℝ) < 2 by norm_num) d]
      have : ((i.mul j).lo : ℝ) * 2 ^ d ≤ ⌊Z * (2 ^ n * 2 ^ d)⌋ := by exact_mod_cast this
      nlinarith
    · rw [div_le_div_iff₀ (by positivity) hp]
      have : ⌈Z * (2 ^ n * 2 ^ d)⌉ ≤ (i.mul j).hi * 2 ^ d := by
        rw [Int.ceil_le]; push_cast
        nlinarith [pow_pos (show (0 : ℝ) < 2 by norm_num) d]
      have : (⌈Z * (2 ^ n * 2 ^ d)⌉ : ℝ) ≤ ((i.mul j).hi : ℝ) * 2 ^ d := by exact_mod_cast this
      nlinarith
  have l1 := low _ c1
  have l2 := low _ c2
  rw [DFI.lowerBound_real, DFI.upperBound_real, ← hn', h1, h2]
  refine ⟨⟨l1.1, le_trans ?_ c1.2⟩, ⟨le_trans c2.1 ?_, l2.2⟩⟩
  · rw [div_le_iff₀ hp']; exact f1
  · rw [le_div_iff₀ hp']; exact f2

theorem Represents.coeff_zero_ne (h : a.Represents x) (hx : x ≠ 0) : a.poly.toPoly.coeff 0 ≠ 0 := by
  intro h0
  obtain ⟨k, hk⟩ := X_dvd_iff.mpr h0
  have hr := h.root
  rcases (h.irreducible.isUnit_or_isUnit hk) with hu | hu
  · exact not_isUnit_X hu
  · obtain ⟨c, hc, hc'⟩ := isUnit_iff.mp hu
    rw [hk, ← hc', map_mul, aeval_X, aeval_C] at hr
    rcases mul_eq_zero.mp hr with hr | hr
    · exact hx hr
    · have : c = 0 := by simpa using hr
      exact hc.ne_zero this

/-- the interval of an irrational number is at least one unit wide -/
theorem unit_le_width {p : Poly ℤ} {s : Shrinker} {x : ℝ} (h : s.Valid p x) (hx : Irrational x) :
    1 / 2 ^ s.interval.log2Denom ≤ (s.interval.width : ℝ) := by
  have hlt : s.interval.lo < s.interval.hi := by
    refine lt_of_le_of_ne h.rep.lo_le_hi fun e => hx ⟨s.interval.lowerBound, ?_⟩
    have h1 := h.rep.lower_le
    have h2 := h.rep.le_upper
    have e2 : s.interval.lowerBound = s.interval.upperBound := by
      unfold DFI.lowerBound DFI.upperBound; rw [e]
    simp only at h1 h2
    rw [← e2] at h2
    linarith
  rw [DFI.width_real, DFI.lowerBound_real, DFI.upperBound_real, ← sub_div]
  apply div_le_div_of_nonneg_right _ (by positivity)
  have : (s.interval.lo : ℝ) + 1 ≤ s.interval.hi := by exact_mod_cast hlt
  linarith

/-- `mul`, up to the choice of a wrong rational root of the resultant. -/
theorem Represents.mul (ha : a.Represents x) (hb : b.Represents y) (F : FactorCall)
    (hF : ∀ R, mulResultant a.poly b.poly = some R → R.toPoly ≠ 0 →
      ∃ r, F R = .ok r ∧ FactorsOf r R.toPoly) :
    ∃ N, ∀ fuel ≥ N, ∃ c, a.mul F fuel b = .ok c ∧ (c.Represents (x * y) ∨
      ∃ q : ℚ, c = ofRat q ∧ (q : ℝ) ≠ x * y ∧ (a.interval.mul b.interval).Contains q ∧
        ∃ x' y' : ℂ, aeval x' a.poly.toPoly = 0 ∧ aeval y' b.poly.toPoly = 0 ∧ (q : ℂ) = x' * y') := by
  by_cases hrat : ∃ q r : ℚ, x = q ∧ y = r
  · obtain ⟨q, r, rfl, rfl⟩ := hrat
    refine ⟨0, fun fuel _ => ⟨ofRat (q * r), ?_, Or.inl ?_⟩⟩
    · unfold RealAlg.mul
      rw [ha.toRational_rat, hb.toRational_rat]
      rfl
    · have := ofRat_represents (q * r)
      push_cast at this
      exact this
  · have hirr : Irrational x ∨ Irrational y := by
      rcases ha.rat_or_irr with ⟨q, rfl, -⟩ | ⟨-, hx⟩
      · rcases hb.rat_or_irr with ⟨r, rfl, -⟩ | ⟨-, hy⟩
        · exact absurd ⟨q, r, rfl, rfl⟩ hrat
        · exact Or.inr hy
      · exact Or.inl hx
    have hrs : ∃ u v, a.toRational = .ok u ∧ b.toRational = .ok v ∧ (u = none ∨ v = none) := by
      rcases ha.rat_or_irr with ⟨q, rfl, -⟩ | ⟨-, hx⟩
      · rcases hb.rat_or_irr with ⟨r, rfl, -⟩ | ⟨-, hy⟩
        · exact absurd ⟨q, r, rfl, rfl⟩ hrat
        · exact ⟨_, _, ha.toRational_rat, hb.toRational_irr hy, Or.inr rfl⟩
      · rcases hb.rat_or_irr with ⟨r, rfl, -⟩ | ⟨-, hy⟩
        · exact ⟨_, _, ha.toRational_irr hx, hb.toRational_rat, Or.inl rfl⟩
        · exact ⟨_, _, ha.toRational_irr hx, hb.toRational_irr hy, Or.inr rfl⟩
    obtain ⟨u, v, hu, hv, huv⟩ := hrs
    have hmul : ∀ fuel, a.mul F fuel b = if (a.isZero || b.isZero) = true then .ok zero else
        if b.isOne then .ok a else if a.isOne then .ok b else
        (orPanic (mulResultant a.poly b.poly) >>= fun r => a.intervalShrinker >>= fun l =>
          b.intervalShrinker >>= fun s => selectRoot mulInterval shrinkBoth F fuel (l, s) r) := by
      intro fuel
      unfold RealAlg.mul
      rw [hu, hv]
      rcases huv with rfl | rfl
      · rfl
      · cases u <;> rfl
    by_cases h0 : (a.isZero || b.isZero) = true
    · refine ⟨0, fun fuel _ => ⟨zero, by rw [hmul, if_pos h0], Or.inl ?_⟩⟩
      have : x * y = 0 := by
        rw [Bool.or_eq_true, ha.isZero_iff, hb.isZero_iff] at h0
        rcases h0 with rfl | rfl <;> simp
      rw [this]
      have := ofInt_represents 0
      rwa [Int.cast_zero] at this
    by_cases hb1 : b.isOne = true
    · refine ⟨0, fun fuel _ => ⟨a, by rw [hmul, if_neg h0, if_pos hb1], Or.inl ?_⟩⟩
      rw [hb.isOne_iff.mp hb1, mul_one]; exact ha
    by_cases ha1 : a.isOne = true
    · refine ⟨0, fun fuel _ => ⟨b, by rw [hmul, if_neg h0, if_neg hb1, if_pos ha1], Or.inl ?_⟩⟩
      rw [ha.isOne_iff.mp ha1, one_mul]; exact hb
    have h0' := h0
    rw [Bool.or_eq_true, ha.isZero_iff, hb.isZero_iff, not_or] at h0'
    have pa := ha.coeff_zero_ne h0'.1
    have pb := hb.coeff_zero_ne h0'.2
    obtain ⟨R, hR⟩ := mulResultant_exists a.poly b.poly pa pb
    have hR0 := mulResultant_ne_zero a.poly b.poly R pa pb hR
    obtain ⟨r, hr1, hr2⟩ := hF R hR hR0
    obtain ⟨s, hs1, hs2, hs3⟩ := ha.intervalShrinker
    obtain ⟨t, ht1, ht2, ht3⟩ := hb.intervalShrinker
    have hroot := mulResultant_root a.poly b.poly R pa pb hR
    have hv : aeval (x * y) R.toPoly = 0 := by
      rw [← aeval_realCast, hroot]
      exact ⟨x, y, (aeval_realCast _ _).mpr ha.root, (aeval_realCast _ _).mpr hb.root, by push_cast; rfl⟩
    have hinv : PairInv a.poly b.poly x y a.interval b.interval (s, t) :=
      ⟨hs2, ht2, by rw [hs3], by rw [hs3], by rw [ht3], by rw [ht3], by rw [hs3], by rw [ht3]⟩
    obtain ⟨N, hN⟩ := selectRoot_spec (getInterval := mulInterval) (shrinkInterval := shrinkBoth)
      (Inv := PairInv a.poly b.poly x y a.interval b.interval)
      (P := fun k : DFI => (a.interval.mul b.interval).Contains k.lowerBound ∧
        (a.interval.mul b.interval).Contains k.upperBound) (v := x * y)
      (by
        intro st hst
        exact ⟨_, rfl, DFI.contains_mul hst.left.rep.mem hst.right.rep.mem,
          mul_within hst.left.rep.lo_le_hi hst.right.rep.lo_le_hi
            (Shrinker.within_of_bounds hst.leftLower hst.leftUpper)
            (Shrinker.within_of_bounds hst.rightLower hst.rightUpper) hst.leftDenom hst.rightDenom⟩)
      (fun st st' h1 h2 => h1.shrink_of_eq h2) F R hR0 r hr1 hr2 hv (s, t) hinv
      (by
        intro δ hδ
        obtain ⟨M, hM0, hM⟩ : ∃ M : ℝ, 0 ≤ M ∧
            |(a.interval.lowerBound : ℝ)| ≤ M ∧ |(a.interval.upperBound : ℝ)| ≤ M ∧
            |(b.interval.lowerBound : ℝ)| ≤ M ∧ |(b.interval.upperBound : ℝ)| ≤ M := by
          refine ⟨|(a.interval.lowerBound : ℝ)| + |(a.interval.upperBound : ℝ)| +
            |(b.interval.lowerBound : ℝ)| + |(b.interval.upperBound : ℝ)|, by positivity, ?_⟩
          have e1 := abs_nonneg (a.interval.lowerBound : ℝ)
          have e2 := abs_nonneg (a.interval.upperBound : ℝ)
          have e3 := abs_nonneg (b.interval.lowerBound : ℝ)
          have e4 := abs_nonneg (b.interval.upperBound : ℝ)
          refine ⟨?_, ?_, ?_, ?_⟩ <;> linarith
        have hη : 0 < δ / (2 * M + 3) := by positivity
        refine PairInv.small hη ?_ (s, t) hinv
        intro st hst h1 h2
        refine ⟨_, rfl, ?_⟩
        have l1 : (a.interval.lowerBound : ℝ) ≤ st.1.interval.lowerBound := by exact_mod_cast hst.leftLower
        have l2 : (st.1.interval.upperBound : ℝ) ≤ a.interval.upperBound := by exact_mod_cast hst.leftUpper
        have l3 : (b.interval.lowerBound : ℝ) ≤ st.2.interval.lowerBound := by exact_mod_cast hst.rightLower
        have l4 : (st.2.interval.upperBound : ℝ) ≤ b.interval.upperBound := by exact_mod_cast hst.rightUpper
        have o1 : (st.1.interval.lowerBound : ℝ) ≤ st.1.interval.upperBound :=
          hst.left.rep.lower_le.trans hst.left.rep.le_upper
        have o2 : (st.2.interval.lowerBound : ℝ) ≤ st.2.interval.upperBound :=
          hst.right.rep.lower_le.trans hst.right.rep.le_upper
        have hM' := hM
        simp only [abs_le] at hM'
        have hw := mul_width st.1.interval st.2.interval hst.left.rep.lo_le_hi hst.right.rep.lo_le_hi M
          ⟨by rw [abs_le]; constructor <;> linarith [hM'.1.1, hM'.2.1.2],
            by rw [abs_le]; constructor <;> linarith [hM'.1.1, hM'.2.1.2]⟩
          ⟨by rw [abs_le]; constructor <;> linarith [hM'.2.2.1.1, hM'.2.2.2.2],
            by rw [abs_le]; constructor <;> linarith [hM'.2.2.1.1, hM'.2.2.2.2]⟩
        have hd := (C03_mul st.1.interval st.2.interval).1
        have hu : 1 / 2 ^ (st.1.interval.mul st.2.interval).log2Denom < δ / (2 * M + 3) := by
          rcases hirr with hx | hy
          · refine lt_of_le_of_lt ?_ (lt_of_le_of_lt (unit_le_width hst.left hx) h1)
            exact one_div_le_one_div_of_le (by positivity)
              (pow_le_pow_right₀ (by norm_num) (by rw [hd]; exact le_max_left _ _))
          · refine lt_of_le_of_lt ?_ (lt_of_le_of_lt (unit_le_width hst.right hy) h2)
            exact one_div_le_one_div_of_le (by positivity)
              (pow_le_pow_right₀ (by norm_num) (by rw [hd]; exact le_max_right _ _))
        have e1 : (2 : ℝ) / 2 ^ (st.1.interval.mul st.2.interval).log2Denom =
          2 * (1 / 2 ^ (st.1.interval.mul st.2.interval).log2Denom) := by ring
        rw [e1] at hw
        set η := δ / (2 * M + 3) with hη'
        have e2 : δ = (2 * M + 3) * η := by rw [hη']; field_simp
        have e3 : M * ((st.1.interval.width : ℝ) + st.2.interval.width) ≤ M * (2 * η) :=
          mul_le_mul_of_nonneg_left (by linarith) hM0
        rw [e2]
        linarith)
    refine ⟨N, fun fuel hf => ?_⟩
    obtain ⟨c, h1, h2⟩ := hN fuel hf
    refine ⟨c, ?_, ?_⟩
    · rw [hmul, if_neg h0, if_neg hb1, if_neg ha1, hR, hs1, ht1]
      exact h1
    · rcases h2 with h2 | ⟨q, h2, h3, h4, k, ⟨h5, h6⟩, h7, -⟩
      · exact Or.inl h2
      · refine Or.inr ⟨q, h2, h3, ?_, (hroot q).mp ((aeval_ratCast _ _).mpr h4)⟩
        rcases h7 with rfl | rfl
        · exact h5
        · exact h6

end RealAlg

end Algebraics
