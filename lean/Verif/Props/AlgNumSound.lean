import Verif.Props.AlgNumRoot
import Verif.Props.AlgNumRem
import Verif.Props.AlgNumPowNeg
import Mathlib.FieldTheory.Minpoly.IsIntegrallyClosed

/-!
Properties C40, C43, C44, C45, C46, C47 and C58, continued: whatever the operations on algebraic numbers
(`/repo/src/algebraic_numbers.rs`) return is exact, with the code's own `factor`, for operands of coprime
degrees. Nothing is assumed about the calls of `factor`: if one of them did not return, then there
is no result.
-/

namespace Algebraics

open Polynomial

namespace RealAlg

variable {a b c : RealAlg} {x y : ℝ}

theorem add_mono (F : FactorCall) (a b c : RealAlg) (n : ℕ) (h : a.add F n b = .ok c) (m : ℕ)
    (hm : n ≤ m) : a.add F m b = .ok c := by
  unfold RealAlg.add at h ⊢
  simp only [bind, Except.bind] at h ⊢
  cases h1 : a.toRational with
  | error e => rw [h1] at h; simp at h
  | ok x =>
    rw [h1] at h
    simp only at h ⊢
    cases h2 : b.toRational with
    | error e => rw [h2] at h; simp at h
    | ok y =>
      rw [h2] at h
      simp only at h ⊢
      rcases x with _ | x <;> rcases y with _ | y
      on_goal 4 => exact h
      all_goals
        simp only at h ⊢
        by_cases e1 : b.isZero = true
        · rw [if_pos e1] at h ⊢; exact h
        rw [if_neg e1] at h ⊢
        by_cases e2 : a.isZero = true
        · rw [if_pos e2] at h ⊢; exact h
        rw [if_neg e2] at h ⊢
        cases h3 : orPanic (addResultant a.poly b.poly) with
        | error e => rw [h3] at h; simp at h
        | ok R =>
          rw [h3] at h
          simp only at h ⊢
          cases h4 : a.intervalShrinker with
          | error e => rw [h4] at h; simp at h
          | ok s =>
            rw [h4] at h
            simp only at h ⊢
            cases h5 : b.intervalShrinker with
            | error e => rw [h5] at h; simp at h
            | ok t =>
              rw [h5] at h
              exact selectRoot_mono _ _ F n _ R c h m hm

theorem selectRoot_returned {σ : Type} (g : σ → Option DFI) (sh : σ → Option σ) (F : FactorCall)
    (n : ℕ) (st : σ) (R : Poly ℤ) (c : RealAlg) (h : selectRoot g sh F n st R = .ok c) :
    ∃ r, F R = .ok r := by
  unfold selectRoot at h
  cases h1 : F R with
  | error e => rw [h1] at h; simp [bind, Except.bind] at h
  | ok r => exact ⟨r, rfl⟩

theorem orPanic_ok {α : Type} {o : Option α} {v : α} (h : orPanic o = .ok v) : o = some v := by
  cases o with
  | none => simp [orPanic] at h
  | some w => simp only [orPanic, Except.ok.injEq] at h; rw [h]

/-- when an addition returns, either `factor` returned on the resultant or it was not needed -/
theorem add_ok_cases (F : FactorCall) (n : ℕ) (ha : a.Represents x) (hb : b.Represents y)
    (h : a.add F n b = .ok c) :
    (∃ R r, addResultant a.poly b.poly = some R ∧ F R = .ok r) ∨ c.Represents (x + y) := by
  by_cases hrat : ∃ q r : ℚ, x = q ∧ y = r
  · obtain ⟨q, r, rfl, rfl⟩ := hrat
    obtain ⟨c', h1, h2⟩ := (C44_both_rational F a b q r ha hb n).1
    rw [h] at h1
    cases h1
    exact Or.inr h2
  · have hrs : ∃ u v, a.toRational = .ok u ∧ b.toRational = .ok v ∧ (u = none ∨ v = none) := by
      rcases ha.rat_or_irr with ⟨q, rfl, -⟩ | ⟨-, hx⟩
      · rcases hb.rat_or_irr with ⟨r, rfl, -⟩ | ⟨-, hy⟩
        · exact absurd ⟨q, r, rfl, rfl⟩ hrat
        · exact ⟨_, _, ha.toRational_rat, hb.toRational_irr hy, Or.inr rfl⟩
      · rcases hb.rat_or_irr with ⟨r, rfl, -⟩ | ⟨-, hy⟩
        · exact ⟨_, _, ha.toRational_irr hx, hb.toRational_rat, Or.inl rfl⟩
        · exact ⟨_, _, ha.toRational_irr hx, hb.toRational_irr hy, Or.inr rfl⟩
    obtain ⟨u, v, hu, hv, huv⟩ := hrs
    have hadd : a.add F n b = if b.isZero then .ok a else if a.isZero then .ok b else
        (orPanic (addResultant a.poly b.poly) >>= fun r => a.intervalShrinker >>= fun l =>
          b.intervalShrinker >>= fun s => selectRoot addInterval shrinkBoth F n (l, s) r) := by
      unfold RealAlg.add
      rw [hu, hv]
      rcases huv with rfl | rfl
      · rfl
      · cases u <;> rfl
    rw [hadd] at h
    by_cases hb0 : b.isZero = true
    · rw [if_pos hb0] at h
      cases h
      rw [hb.isZero_iff.mp hb0, add_zero]
      exact Or.inr ha
    rw [if_neg hb0] at h
    by_cases ha0 : a.isZero = true
    · rw [if_pos ha0] at h
      cases h
      rw [ha.isZero_iff.mp ha0, zero_add]
      exact Or.inr hb
    rw [if_neg ha0] at h
    left
    cases h1 : orPanic (addResultant a.poly b.poly) with
    | error e => rw [h1] at h; simp [bind, Except.bind] at h
    | ok R =>
      rw [h1] at h
      cases h2 : a.intervalShrinker with
      | error e => rw [h2] at h; simp [bind, Except.bind] at h
      | ok s =>
        rw [h2] at h
        cases h3 : b.intervalShrinker with
        | error e => rw [h3] at h; simp [bind, Except.bind] at h
        | ok t =>
          rw [h3] at h
          obtain ⟨r, hr⟩ := selectRoot_returned _ _ F n _ R c h
          exact ⟨R, r, orPanic_ok h1, hr⟩

/-- C44, in part: what addition returns is exact when the degrees of the operands have no common factor,
with the code's own `factor`. -/
theorem _root_.Algebraics.C44_add_sound_partial (choose : ℕ → List ℕ → ℕ) (hc : Poly.HeapOrder choose)
    (rng : ℕ → ℕ) (ffuel fuel : ℕ) (a b c : RealAlg) (x y : ℝ) (ha : a.Represents x) (hb : b.Represents y)
    (hd : a.poly.toPoly.natDegree.Coprime b.poly.toPoly.natDegree)
    (h : a.add (factorCall choose rng ffuel) fuel b = .ok c) : c.Represents (x + y) := by
  rcases add_ok_cases _ fuel ha hb h with ⟨R, r, h1, h2⟩ | h1
  · obtain ⟨N, hN⟩ := C44_add_coprime_partial choose hc rng ffuel a b x y ha hb hd (fun R' hR' => by
      rw [h1] at hR'
      cases hR'
      exact ⟨r, h2⟩)
    obtain ⟨c', h3, h4⟩ := hN (max fuel N) (le_max_right _ _)
    rw [add_mono _ a b c fuel h _ (le_max_left _ _)] at h3
    cases h3
    exact h4
  · exact h1

/-- C44, in part: the same for subtraction. -/
theorem _root_.Algebraics.C44_sub_sound_partial (choose : ℕ → List ℕ → ℕ) (hc : Poly.HeapOrder choose)
    (rng : ℕ → ℕ) (ffuel fuel : ℕ) (a b c : RealAlg) (x y : ℝ) (ha : a.Represents x) (hb : b.Represents y)
    (hd : a.poly.toPoly.natDegree.Coprime b.poly.toPoly.natDegree)
    (h : a.sub (factorCall choose rng ffuel) fuel b = .ok c) : c.Represents (x - y) := by
  obtain ⟨n, h1, h2, -⟩ := hb.neg
  unfold RealAlg.sub at h
  rw [h1] at h
  rw [sub_eq_add_neg]
  exact C44_add_sound_partial choose hc rng ffuel fuel a n c x (-y) ha h2
    (by rwa [neg_natDegree hb h1]) h

/-- when a multiplication returns, either `factor` returned on the resultant or it was not needed -/
theorem mul_ok_cases (F : FactorCall) (n : ℕ) (ha : a.Represents x) (hb : b.Represents y)
    (h : a.mul F n b = .ok c) :
    (∃ R r, mulResultant a.poly b.poly = some R ∧ F R = .ok r) ∨ c.Represents (x * y) := by
  by_cases hrat : ∃ q r : ℚ, x = q ∧ y = r
  · obtain ⟨q, r, rfl, rfl⟩ := hrat
    unfold RealAlg.mul at h
    rw [ha.toRational_rat, hb.toRational_rat] at h
    simp only [bind, Except.bind, pure, Except.pure, Except.ok.injEq] at h
    right
    rw [← h, ← Rat.cast_mul]
    exact ofRat_represents _
  · have hrs : ∃ u v, a.toRational = .ok u ∧ b.toRational = .ok v ∧ (u = none ∨ v = none) := by
      rcases ha.rat_or_irr with ⟨q, rfl, -⟩ | ⟨-, hx⟩
      · rcases hb.rat_or_irr with ⟨r, rfl, -⟩ | ⟨-, hy⟩
        · exact absurd ⟨q, r, rfl, rfl⟩ hrat
        · exact ⟨_, _, ha.toRational_rat, hb.toRational_irr hy, Or.inr rfl⟩
      · rcases hb.rat_or_irr with ⟨r, rfl, -⟩ | ⟨-, hy⟩
        · exact ⟨_, _, ha.toRational_irr hx, hb.toRational_rat, Or.inl rfl⟩
        · exact ⟨_, _, ha.toRational_irr hx, hb.toRational_irr hy, Or.inr rfl⟩
    obtain ⟨u, v, hu, hv, huv⟩ := hrs
    have hmul : a.mul F n b = if (a.isZero || b.isZero) = true then .ok zero else
        if b.isOne = true then .ok a else if a.isOne = true then .ok b else
        (orPanic (mulResultant a.poly b.poly) >>= fun r => a.intervalShrinker >>= fun l =>
          b.intervalShrinker >>= fun s => selectRoot mulInterval shrinkBoth F n (l, s) r) := by
      unfold RealAlg.mul
      rw [hu, hv]
      rcases huv with rfl | rfl
      · rfl
      · cases u <;> rfl
    rw [hmul] at h
    by_cases e0 : (a.isZero || b.isZero) = true
    · rw [if_pos e0] at h
      cases h
      right
      rw [Bool.or_eq_true, ha.isZero_iff, hb.isZero_iff] at e0
      rw [mul_eq_zero.mpr e0]
      exact zero_represents
    rw [if_neg e0] at h
    by_cases e1 : b.isOne = true
    · rw [if_pos e1] at h
      cases h
      rw [hb.isOne_iff.mp e1, mul_one]
      exact Or.inr ha
    rw [if_neg e1] at h
    by_cases e2 : a.isOne = true
    · rw [if_pos e2] at h
      cases h
      rw [ha.isOne_iff.mp e2, one_mul]
      exact Or.inr hb
    rw [if_neg e2] at h
    left
    cases h1 : orPanic (mulResultant a.poly b.poly) with
    | error e => rw [h1] at h; simp [bind, Except.bind] at h
    | ok R =>
      rw [h1] at h
      cases h2 : a.intervalShrinker with
      | error e => rw [h2] at h; simp [bind, Except.bind] at h
      | ok s =>
        rw [h2] at h
        cases h3 : b.intervalShrinker with
        | error e => rw [h3] at h; simp [bind, Except.bind] at h
        | ok t =>
          rw [h3] at h
          obtain ⟨r, hr⟩ := selectRoot_returned _ _ F n _ R c h
          exact ⟨R, r, orPanic_ok h1, hr⟩

/-- C45, in part: what multiplication returns is exact when the degrees of the operands have no common
factor, with the code's own `factor`. -/
theorem _root_.Algebraics.C45_mul_sound_partial (choose : ℕ → List ℕ → ℕ) (hc : Poly.HeapOrder choose)
    (rng : ℕ → ℕ) (ffuel fuel : ℕ) (a b c : RealAlg) (x y : ℝ) (ha : a.Represents x) (hb : b.Represents y)
    (hd : a.poly.toPoly.natDegree.Coprime b.poly.toPoly.natDegree)
    (h : a.mul (factorCall choose rng ffuel) fuel b = .ok c) : c.Represents (x * y) := by
  rcases mul_ok_cases _ fuel ha hb h with ⟨R, r, h1, h2⟩ | h1
  · obtain ⟨N, hN⟩ := C45_mul_coprime_partial choose hc rng ffuel a b x y ha hb hd (fun R' hR' _ => by
      rw [h1] at hR'
      cases hR'
      exact ⟨r, h2⟩)
    obtain ⟨c', h3, h4⟩ := hN (max fuel N) (le_max_right _ _)
    rw [mul_mono _ a b c fuel h _ (le_max_left _ _)] at h3
    cases h3
    exact h4
  · exact h1

/-- C40, in part: what the reciprocal returns is exact for a rational number, and for an irrational one
that is the only root of its sign of its polynomial. -/
theorem _root_.Algebraics.C40_recip_sound_partial (fuel : ℕ) (a c : RealAlg) (x : ℝ) (h : a.Represents x)
    (hs : Irrational x → ∀ y : ℝ, aeval y a.poly.toPoly = 0 → 0 < x * y → y = x)
    (hr : a.checkedRecip fuel = .ok (some c)) : x ≠ 0 ∧ c.Represents x⁻¹ := by
  by_cases hx : Irrational x
  · obtain ⟨N, hN⟩ := C40_recip_one_sign_partial a x h hx (hs hx)
    obtain ⟨c', h1, h2⟩ := hN (max fuel N) (le_max_right _ _)
    rw [checkedRecip_mono a fuel _ hr _ (le_max_left _ _)] at h1
    cases h1
    exact ⟨hx.ne_zero, h2⟩
  · obtain ⟨q, rfl⟩ := not_not.mp hx
    rw [h.checkedRecip_rat] at hr
    by_cases hq : q = 0
    · rw [if_pos hq] at hr; simp at hr
    · rw [if_neg hq] at hr
      cases hr
      refine ⟨by exact_mod_cast hq, ?_⟩
      rw [← Rat.cast_inv]
      exact ofRat_represents _

theorem recip_natDegree (ha : a.Represents x) (hx : x ≠ 0) (hb : b.Represents x⁻¹) :
    b.poly.toPoly.natDegree = a.poly.toPoly.natDegree := by
  have hr := (aeval_realCast _ _).mpr hb.root
  refine (degree_of_rat_div ha.irreducible hb.irreducible ha.natDegree_pos hb.natDegree_pos
    ((aeval_realCast _ _).mpr ha.root) one_ne_zero ?_).symm
  push_cast at hr ⊢
  rwa [one_div]

/-- C45, in part: what division returns is exact when the degrees of the operands have no common factor and
the divisor is rational or the only root of its sign of its polynomial, with the code's own `factor`. -/
theorem _root_.Algebraics.C45_div_sound_partial (choose : ℕ → List ℕ → ℕ) (hc : Poly.HeapOrder choose)
    (rng : ℕ → ℕ) (ffuel fuel : ℕ) (a b c : RealAlg) (x y : ℝ) (ha : a.Represents x) (hb : b.Represents y)
    (hd : a.poly.toPoly.natDegree.Coprime b.poly.toPoly.natDegree)
    (hs : Irrational y → ∀ z : ℝ, aeval z b.poly.toPoly = 0 → 0 < y * z → z = y)
    (h : a.div (factorCall choose rng ffuel) fuel b = .ok c) : y ≠ 0 ∧ c.Represents (x / y) := by
  unfold RealAlg.div checkedExactDiv at h
  cases h1 : b.checkedRecip fuel with
  | error e => rw [h1] at h; simp [bind, Except.bind] at h
  | ok r =>
    rw [h1] at h
    cases r with
    | none => simp [bind, Except.bind, pure, Except.pure, orPanic] at h
    | some r =>
      obtain ⟨hy, h2⟩ := C40_recip_sound_partial fuel b r y hb hs h1
      cases h3 : a.mul (factorCall choose rng ffuel) fuel r with
      | error e => simp [bind, Except.bind, h3] at h
      | ok m =>
        simp only [bind, Except.bind, h3, pure, Except.pure, orPanic, Except.ok.injEq] at h
        rw [h] at h3
        refine ⟨hy, ?_⟩
        rw [div_eq_mul_inv]
        exact C45_mul_sound_partial choose hc rng ffuel fuel a r c x y⁻¹ ha h2
          (by rwa [recip_natDegree hb hy h2]) h3

/-- C46, in part: what `==` and `cmp` return is right when the degrees of the operands have no common
factor, with the code's own `factor`. -/
theorem _root_.Algebraics.C46_sound_partial (choose : ℕ → List ℕ → ℕ) (hc : Poly.HeapOrder choose)
    (rng : ℕ → ℕ) (ffuel fuel : ℕ) (a b : RealAlg) (x y : ℝ) (ha : a.Represents x) (hb : b.Represents y)
    (hd : a.poly.toPoly.natDegree.Coprime b.poly.toPoly.natDegree) :
    (∀ r, a.eq (factorCall choose rng ffuel) fuel b = .ok r → (r = true ↔ x = y)) ∧
    (∀ o, a.cmp (factorCall choose rng ffuel) fuel b = .ok o →
      (o = .lt ↔ x < y) ∧ (o = .eq ↔ x = y) ∧ (o = .gt ↔ y < x)) := by
  unfold RealAlg.eq RealAlg.cmp
  cases h1 : a.sub (factorCall choose rng ffuel) fuel b with
  | error e => simp [bind, Except.bind]
  | ok d =>
    have h2 := C44_sub_sound_partial choose hc rng ffuel fuel a b d x y ha hb hd h1
    simp only [bind, Except.bind, pure, Except.pure, Except.ok.injEq]
    constructor
    · rintro r rfl
      rw [h2.isZero_iff, sub_eq_zero]
    · intro o ho
      obtain ⟨o', h3, h4, h5, h6⟩ := C41_cmp_with_zero d _ h2
      rw [ho] at h3
      cases h3
      rw [sub_neg] at h4
      rw [sub_eq_zero] at h5
      rw [sub_pos] at h6
      exact ⟨h4, h5, h6⟩

/-! ## Rounding -/

theorem floorLoop_mono (n : ℕ) : ∀ (s : Shrinker) (v : ℤ × Shrinker), floorLoop n s = .ok v →
    ∀ m ≥ n, floorLoop m s = .ok v := by
  induction n with
  | zero => intro s v h; simp [floorLoop] at h
  | succ n ih =>
    intro s v h m hm
    obtain ⟨m, rfl⟩ : ∃ k, m = k + 1 := ⟨m - 1, by omega⟩
    simp only [floorLoop] at h ⊢
    by_cases hz : (s.interval.floor 0).lo = (s.interval.floor 0).hi
    · rw [if_pos hz] at h ⊢
      exact h
    · rw [if_neg hz] at h ⊢
      cases hs : s.shrink with
      | none => rw [hs] at h; simp at h
      | some w =>
        rw [hs] at h
        exact ih w.1 v h m (by omega)

theorem integerFloor_sound (fuel : ℕ) (h : a.Represents x) {k : ℤ} (hk : a.integerFloor fuel = .ok k) :
    k = ⌊x⌋ := by
  obtain ⟨N, hN⟩ := h.integerFloor
  have h1 := hN (max fuel N) (le_max_right _ _)
  have h2 : a.integerFloor (max fuel N) = .ok k := by
    unfold integerFloor at hk ⊢
    cases h3 : a.toRational with
    | error e => rw [h3] at hk; simp [bind, Except.bind] at hk
    | ok o =>
      rw [h3] at hk
      cases o with
      | some q => exact hk
      | none =>
        simp only [bind, Except.bind] at hk ⊢
        cases h4 : a.intervalShrinker with
        | error e => rw [h4] at hk; simp at hk
        | ok s =>
          rw [h4] at hk
          simp only at hk ⊢
          cases h5 : floorLoop fuel s with
          | error e => rw [h5] at hk; simp at hk
          | ok v =>
            rw [h5] at hk
            rw [floorLoop_mono fuel s v h5 _ (le_max_left _ _)]
            exact hk
  rw [h1] at h2
  cases h2
  rfl

theorem integerCeil_sound (fuel : ℕ) (h : a.Represents x) {k : ℤ} (hk : a.integerCeil fuel = .ok k) :
    k = ⌈x⌉ := by
  unfold integerCeil at hk
  obtain ⟨n, h1, h2, -⟩ := h.neg
  rw [h1] at hk
  simp only [bind, Except.bind] at hk
  cases h3 : n.integerFloor fuel with
  | error e => rw [h3] at hk; simp at hk
  | ok f =>
    rw [h3] at hk
    simp only [pure, Except.pure, Except.ok.injEq] at hk
    rw [← hk, integerFloor_sound fuel h2 h3, Int.floor_neg, neg_neg]

theorem integerTrunc_sound (fuel : ℕ) (h : a.Represents x) {k : ℤ} (hk : a.integerTrunc fuel = .ok k) :
    k = truncate x := by
  unfold integerTrunc at hk
  unfold truncate
  obtain ⟨o, h1, h2, h3, h4⟩ := C41_cmp_with_zero a x h
  rw [h1] at hk
  cases o with
  | lt =>
    rw [if_neg (by rw [not_le]; exact h2.mp rfl)]
    exact integerCeil_sound fuel h hk
  | eq =>
    simp only [bind, Except.bind, pure, Except.pure, Except.ok.injEq] at hk
    rw [h3.mp rfl, ← hk]
    simp
  | gt =>
    rw [if_pos (h4.mp rfl).le]
    exact integerFloor_sound fuel h hk

/-- C43: whatever floor, ceiling and truncation return is right. -/
theorem _root_.Algebraics.C43_round_sound (fuel : ℕ) (a c : RealAlg) (x : ℝ) (h : a.Represents x) :
    (a.floor fuel = .ok c → c.Represents ⌊x⌋) ∧ (a.ceil fuel = .ok c → c.Represents ⌈x⌉) ∧
    (a.trunc fuel = .ok c → c.Represents (truncate x)) := by
  refine ⟨fun hc => ?_, fun hc => ?_, fun hc => ?_⟩
  · unfold RealAlg.floor at hc
    cases h1 : a.integerFloor fuel with
    | error e => rw [h1] at hc; simp [bind, Except.bind] at hc
    | ok k =>
      rw [h1] at hc
      simp only [bind, Except.bind, pure, Except.pure, Except.ok.injEq] at hc
      rw [← hc, integerFloor_sound fuel h h1]
      exact ofInt_represents _
  · unfold RealAlg.ceil RealAlg.floor at hc
    obtain ⟨n, h1, h2, -⟩ := h.neg
    rw [h1] at hc
    simp only [bind, Except.bind] at hc
    cases h3 : n.integerFloor fuel with
    | error e => rw [h3] at hc; simp at hc
    | ok k =>
      rw [h3] at hc
      simp only [pure, Except.pure] at hc
      obtain ⟨n', h4, h5, -⟩ := (ofInt_represents k).neg
      rw [hc] at h4
      cases h4
      rw [integerFloor_sound fuel h2 h3, Int.floor_neg] at h5
      push_cast at h5
      rwa [neg_neg] at h5
  · unfold RealAlg.trunc at hc
    cases h1 : a.integerTrunc fuel with
    | error e => rw [h1] at hc; simp [bind, Except.bind] at hc
    | ok k =>
      rw [h1] at hc
      simp only [bind, Except.bind, pure, Except.pure, Except.ok.injEq] at hc
      rw [← hc, integerTrunc_sound fuel h h1]
      exact ofInt_represents _

/-- C43, in part: whatever `fract` returns for a number that is not a negative fraction is exactly
`x - floor(x)`, with the code's own `factor`. Missing: negative fractions (`C43_fract_false`). -/
theorem _root_.Algebraics.C43_fract_sound_partial (choose : ℕ → List ℕ → ℕ) (hc : Poly.HeapOrder choose)
    (rng : ℕ → ℕ) (ffuel fuel : ℕ) (a c : RealAlg) (x : ℝ) (h : a.Represents x)
    (hx : Irrational x ∨ 0 ≤ x) (hr : a.fract (factorCall choose rng ffuel) fuel = .ok c) :
    c.Represents (x - ⌊x⌋) := by
  by_cases hi : Irrational x
  · unfold RealAlg.fract at hr
    rw [h.toRational_irr hi] at hr
    obtain ⟨s, h1, h2, -⟩ := h.intervalShrinker
    rw [h1] at hr
    simp only [bind, Except.bind] at hr
    cases h3 : floorLoop fuel s with
    | error e => rw [h3] at hr; simp at hr
    | ok v =>
      rw [h3] at hr
      simp only at hr
      obtain ⟨M, hM⟩ := floorLoop_spec hi s h2
      obtain ⟨t, h4, h5, -⟩ := hM (max fuel M) (le_max_right _ _)
      rw [floorLoop_mono fuel s v h3 _ (le_max_left _ _)] at h4
      cases h4
      have h6 := C44_sub_sound_partial choose hc rng ffuel fuel ⟨a.poly, t.interval⟩ (ofInt ⌊x⌋) c x _ h5.rep
        (ofInt_represents _)
        (coprime_of_rat h5.rep (ofInt_represents _) (Or.inr (not_not.mpr ⟨(⌊x⌋ : ℚ), by push_cast; rfl⟩))) hr
      exact h6
  · have h0 := hx.resolve_left hi
    obtain ⟨q, rfl⟩ := not_not.mp hi
    obtain ⟨b, h1, -, h2⟩ := C43_fract_rational_partial a q h (factorCall choose rng ffuel) fuel
    rw [hr] at h1
    cases h1
    exact h2 (Or.inl (by exact_mod_cast h0))

/-! ## Remainder, positive difference, powers -/

/-- C58, in part: whatever the remainder returns is `x - trunc(x / y) * y` when the degrees have no common
factor and the divisor is rational or the only root of its sign, with the code's own `factor`. -/
theorem _root_.Algebraics.C58_rem_sound_partial (choose : ℕ → List ℕ → ℕ) (hc : Poly.HeapOrder choose)
    (rng : ℕ → ℕ) (ffuel fuel : ℕ) (a b c : RealAlg) (x y : ℝ) (ha : a.Represents x) (hb : b.Represents y)
    (hd : a.poly.toPoly.natDegree.Coprime b.poly.toPoly.natDegree)
    (hs : Irrational y → ∀ z : ℝ, aeval z b.poly.toPoly = 0 → 0 < y * z → z = y)
    (h : a.rem (factorCall choose rng ffuel) fuel b = .ok c) :
    y ≠ 0 ∧ c.Represents (x - truncate (x / y) * y) := by
  unfold RealAlg.rem at h
  cases h1 : a.div (factorCall choose rng ffuel) fuel b with
  | error e => rw [h1] at h; simp [bind, Except.bind] at h
  | ok q =>
    obtain ⟨hy, hq⟩ := C45_div_sound_partial choose hc rng ffuel fuel a b q x y ha hb hd hs h1
    rw [h1] at h
    simp only [bind, Except.bind] at h
    cases h2 : q.trunc fuel with
    | error e => rw [h2] at h; simp at h
    | ok t =>
      have ht := (C43_round_sound fuel q t _ hq).2.2 h2
      rw [h2] at h
      simp only at h
      cases h3 : t.mul (factorCall choose rng ffuel) fuel b with
      | error e => rw [h3] at h; simp at h
      | ok m =>
        rw [h3] at h
        simp only at h
        have hm := C45_mul_sound_partial choose hc rng ffuel fuel t b m _ y ht hb
          (coprime_of_rat ht hb (Or.inl (not_not.mpr ⟨truncate (x / y), by push_cast; rfl⟩))) h3
        exact ⟨hy, C44_sub_sound_partial choose hc rng ffuel fuel a m c x _ ha hm
          (coprime_multiple ha hb hm hy hd) h⟩

/-- C58, in part: whatever `abs_sub` returns is the difference, or zero where that is negative, when the
degrees have no common factor, with the code's own `factor`. -/
theorem _root_.Algebraics.C58_abs_sub_sound_partial (choose : ℕ → List ℕ → ℕ) (hc : Poly.HeapOrder choose)
    (rng : ℕ → ℕ) (ffuel fuel : ℕ) (a b c : RealAlg) (x y : ℝ) (ha : a.Represents x) (hb : b.Represents y)
    (hd : a.poly.toPoly.natDegree.Coprime b.poly.toPoly.natDegree)
    (h : a.absSub (factorCall choose rng ffuel) fuel b = .ok c) : c.Represents (max (x - y) 0) := by
  classical
  unfold RealAlg.absSub at h
  cases h1 : a.sub (factorCall choose rng ffuel) fuel b with
  | error e => rw [h1] at h; simp [bind, Except.bind] at h
  | ok d =>
    have h2 := C44_sub_sound_partial choose hc rng ffuel fuel a b d x y ha hb hd h1
    have h3 := h2.isNegative_eq
    rw [h1] at h
    simp only [bind, Except.bind, h3] at h
    by_cases h0 : x - y < 0
    · simp only [h0, decide_true, if_true, pure, Except.pure, Except.ok.injEq] at h
      rw [← h, max_eq_right h0.le]
      exact zero_represents
    · simp only [h0, decide_false, pure, Except.pure, Bool.false_eq_true, if_false, Except.ok.injEq] at h
      rw [← h, max_eq_left (not_lt.mp h0)]
      exact h2

/-! ## Algebraic integers -/

/-- the polynomial of an algebraic integer is monic, up to the sign -/
theorem Represents.leading_of_integral (h : a.Represents x) (hi : IsIntegral ℤ x) :
    |a.poly.toPoly.leadingCoeff| = 1 := by
  obtain ⟨g, hg⟩ := minpoly.isIntegrallyClosed_dvd hi h.root
  rcases h.irreducible.isUnit_or_isUnit hg with hu | hu
  · exact absurd hu (minpoly.not_isUnit ℤ x)
  · have h1 : IsUnit a.poly.toPoly.leadingCoeff := by
      rw [hg, leadingCoeff_mul, (minpoly.monic hi).leadingCoeff, one_mul]
      obtain ⟨r, hr, rfl⟩ := isUnit_iff.mp hu
      rwa [leadingCoeff_C]
    exact Int.isUnit_iff_abs_eq.mp h1

theorem Represents.conj_real_iff (h : a.Represents x) (z : ℝ) :
    aeval z a.poly.toPoly = 0 ↔ aeval z (minpoly ℚ x) = 0 := by
  rw [← aeval_realCast, h.conj_iff]
  rw [show (z : ℂ) = algebraMap ℝ ℂ z from rfl, aeval_algebraMap_apply]
  simp

theorem Represents.minpoly_degree (h : a.Represents x) :
    (minpoly ℚ x).natDegree = a.poly.toPoly.natDegree := by
  rw [← minpoly_realCast]
  exact minpoly_natDegree h.irreducible h.natDegree_pos ((aeval_realCast _ _).mpr h.root)

/-- C44, in part: what addition returns is exact for algebraic integers, unless a conjugate of `y` differs
from `-x` by a rational number other than `x + y`, with the code's own `factor`. -/
theorem _root_.Algebraics.C44_add_sound_integers_partial (choose : ℕ → List ℕ → ℕ)
    (hc : Poly.HeapOrder choose) (rng : ℕ → ℕ) (ffuel fuel : ℕ) (a b c : RealAlg) (x y : ℝ)
    (ha : a.Represents x) (hb : b.Represents y) (hx : IsIntegral ℤ x) (hy : IsIntegral ℤ y)
    (hq : ∀ q : ℚ, aeval ((q : ℝ) - x) (minpoly ℚ y) = 0 → (q : ℝ) = x + y)
    (h : a.add (factorCall choose rng ffuel) fuel b = .ok c) : c.Represents (x + y) := by
  rcases add_ok_cases _ fuel ha hb h with ⟨R, r, h1, h2⟩ | h1
  · obtain ⟨N, hN⟩ := C44_add_unrelated_partial (factorCall choose rng ffuel) a b x y ha hb (fun R' hR' => by
      rw [h1] at hR'
      cases hR'
      refine factorCall_right choose hc rng ffuel R ?_ ⟨r, h2⟩
      rw [addResultant_leading _ _ R ha.ne_zero hb.ne_zero h1, abs_mul, abs_pow, abs_pow,
        ha.leading_of_integral hx, hb.leading_of_integral hy]
      norm_num) (fun q h => hq q ((hb.conj_real_iff _).mp h))
    obtain ⟨c', h3, h4⟩ := hN (max fuel N) (le_max_right _ _)
    rw [add_mono _ a b c fuel h _ (le_max_left _ _)] at h3
    cases h3
    exact h4
  · exact h1

/-- C45, in part: what multiplication returns is exact for algebraic integers, unless a conjugate of `y` is
a rational multiple of `1 / x` other than `y`, with the code's own `factor`. -/
theorem _root_.Algebraics.C45_mul_sound_integers_partial (choose : ℕ → List ℕ → ℕ)
    (hc : Poly.HeapOrder choose) (rng : ℕ → ℕ) (ffuel fuel : ℕ) (a b c : RealAlg) (x y : ℝ)
    (ha : a.Represents x) (hb : b.Represents y) (hx : IsIntegral ℤ x) (hy : IsIntegral ℤ y)
    (hq : ∀ q : ℚ, aeval ((q : ℝ) / x) (minpoly ℚ y) = 0 → (q : ℝ) = x * y)
    (h : a.mul (factorCall choose rng ffuel) fuel b = .ok c) : c.Represents (x * y) := by
  by_cases h0 : x = 0 ∨ y = 0
  · obtain ⟨c', h1, h2⟩ := C45_mul_zero _ a b x y ha hb h0 fuel
    rw [h] at h1
    cases h1
    rwa [mul_eq_zero.mpr h0]
  push Not at h0
  rcases mul_ok_cases _ fuel ha hb h with ⟨R, r, h1, h2⟩ | h1
  · obtain ⟨N, hN⟩ := C45_mul_unrelated_partial (factorCall choose rng ffuel) a b x y ha hb (fun R' hR' _ => by
      rw [h1] at hR'
      cases hR'
      refine factorCall_right choose hc rng ffuel R ?_ ⟨r, h2⟩
      rw [mulResultant_leading _ _ R (ha.coeff_zero_ne h0.1) (hb.coeff_zero_ne h0.2) h1, abs_mul, abs_pow,
        abs_pow, ha.leading_of_integral hx, hb.leading_of_integral hy]
      norm_num) (fun q h => hq q ((hb.conj_real_iff _).mp h))
    obtain ⟨c', h3, h4⟩ := hN (max fuel N) (le_max_right _ _)
    rw [mul_mono _ a b c fuel h _ (le_max_left _ _)] at h3
    cases h3
    exact h4
  · exact h1

/-- C47, in part: whatever `checked_pow` returns for a positive power of a positive algebraic integer whose
power stands alone is exact, with the code's own `factor`. -/
theorem _root_.Algebraics.C47_sound_integers_partial (ln2 : ℕ → ℕ → DFI) (hln2 : ∀ t, IsLn2 (ln2 t))
    (choose : ℕ → List ℕ → ℕ) (hc : Poly.HeapOrder choose) (rng : ℕ → ℕ) (ffuel fuel : ℕ)
    (a c : RealAlg) (x : ℝ) (h : a.Represents x) (hx : 0 < x) (hi : IsIntegral ℤ x) (e : ℚ) (he : 0 < e)
    (hal : PowerAlone x e.num.natAbs)
    (hr : a.checkedPow ln2 (factorCall choose rng ffuel) fuel e = .ok (some c)) :
    c.Represents (powValue x e) := by
  classical
  have hnum : 0 < e.num.natAbs := by
    have := Rat.num_pos.mpr he
    omega
  rcases checkedPow_cases ln2 (factorCall choose rng ffuel) fuel a _ h hx.ne' e (Or.inl hx) with
    ⟨c', h1, h2⟩ | ⟨h1, -⟩ | ⟨-, -, h1⟩
  · rw [hr] at h1
    cases h1
    exact h2
  · linarith
  · have hs : ∀ R, powResultant a.poly e.num.natAbs e.den = some R →
        ∃ r, factorCall choose rng ffuel R = .ok r := by
      intro R hR
      rw [hr] at h1
      unfold powGeneral at h1
      rw [show decide (e < 0) = false by simp [he.le]] at h1
      simp only [bind, Except.bind, Bool.false_eq_true, if_false, hR, orPanic] at h1
      cases h2 : a.intervalShrinker with
      | error e => rw [h2] at h1; simp at h1
      | ok s =>
        rw [h2] at h1
        simp only at h1
        generalize hsel : selectRoot _ _ (factorCall choose rng ffuel) fuel (s, 0) R = o at h1
        cases o with
        | error e => simp at h1
        | ok v => exact selectRoot_returned _ _ _ fuel (s, 0) R v hsel
    refine C47_alone_sound_partial ln2 hln2 _ fuel a x h hx e hal (fun b R hb hR => ?_) c hr
    unfold powBase at hb
    rw [if_neg (by linarith)] at hb
    cases hb
    refine factorCall_right choose hc rng ffuel R ?_ (hs R hR)
    rw [powResultant_leading _ R _ _ hnum e.den_pos h.ne_zero hR, abs_pow, h.leading_of_integral hi]
    norm_num

/-- C47, in part: whatever `checked_pow` returns for a positive integer power of a negative algebraic integer whose
power stands alone on its side of zero is exact, with the code's own `factor`. -/
theorem _root_.Algebraics.C47_sound_integers_negative_partial (ln2 : ℕ → ℕ → DFI) (hln2 : ∀ t, IsLn2 (ln2 t))
    (choose : ℕ → List ℕ → ℕ) (hc : Poly.HeapOrder choose) (rng : ℕ → ℕ) (ffuel fuel : ℕ)
    (a c : RealAlg) (x : ℝ) (h : a.Represents x) (hx : x < 0) (hi : IsIntegral ℤ x) (k : ℕ) (hk : 0 < k)
    (hal : PowerAloneOfSign x k)
    (hr : a.checkedPow ln2 (factorCall choose rng ffuel) fuel k = .ok (some c)) : c.Represents (x ^ k) := by
  classical
  have hk0 : (0 : ℚ) < k := by exact_mod_cast hk
  have hnum : (k : ℚ).num.natAbs = k := by simp
  have hden : (k : ℚ).den = 1 := by simp
  rcases checkedPow_cases ln2 (factorCall choose rng ffuel) fuel a _ h hx.ne k (Or.inr hden) with
    ⟨c', h1, h2⟩ | ⟨h1, -⟩ | ⟨-, -, h1⟩
  · rw [hr] at h1
    cases h1
    rwa [show (k : ℚ) = ((k : ℤ) : ℚ) by simp, powValue_int, zpow_natCast] at h2
  · linarith
  · have hs : ∀ R, powResultant a.poly k 1 = some R → ∃ r, factorCall choose rng ffuel R = .ok r := by
      intro R hR
      rw [hr] at h1
      unfold powGeneral at h1
      rw [show decide ((k : ℚ) < 0) = false by simp] at h1
      simp only [bind, Except.bind, Bool.false_eq_true, if_false, hnum, hden, hR, orPanic] at h1
      cases h2 : a.intervalShrinker with
      | error e => rw [h2] at h1; simp at h1
      | ok s =>
        rw [h2] at h1
        simp only at h1
        generalize hsel : selectRoot _ _ (factorCall choose rng ffuel) fuel (s, 0) R = o at h1
        cases o with
        | error e => simp at h1
        | ok v => exact selectRoot_returned _ _ _ fuel (s, 0) R v hsel
    have key := C47_negative_sound_partial ln2 hln2 (factorCall choose rng ffuel) fuel a x h hx k
      (by rwa [Int.natAbs_natCast]) (fun b R hb hR => by
        unfold powBase at hb
        rw [if_neg (by simp)] at hb
        cases hb
        rw [Int.natAbs_natCast] at hR
        refine factorCall_right choose hc rng ffuel R ?_ (hs R hR)
        rw [powResultant_leading _ R _ _ hk one_pos h.ne_zero hR, abs_pow, h.leading_of_integral hi]
        norm_num) c (by simpa using hr)
    rwa [zpow_natCast] at key

/-! ## The theorems apply: `√2` and `∛2`, `√2` and `√3` -/

theorem cbrtTwo_only (z : ℝ) (hz : aeval z cbrtTwo.poly.toPoly = 0) : z = 2 ^ (1 / 3 : ℝ) := by
  have h1 := cbrtTwo_represents.root
  rw [cbrtTwo_poly] at hz h1
  simp only [map_sub, map_pow, aeval_X, aeval_C] at hz h1
  exact cube_inj (by linarith)

example : ∃ rng ffuel fuel c, sqrtTwo.add (factorCall firstSmallest rng ffuel) fuel cbrtTwo = .ok c ∧
    c.Represents (√2 + 2 ^ (1 / 3 : ℝ)) := by
  obtain ⟨rng, hfair⟩ := exists_fair
  obtain ⟨M, hM⟩ := C44_add_total_partial firstSmallest firstSmallest_order rng hfair sqrtTwo cbrtTwo _ _
    sqrtTwo_represents cbrtTwo_represents sqrtTwo_cbrtTwo sqrtTwo_cbrtTwo_moderate
  obtain ⟨N, hN⟩ := hM M le_rfl
  obtain ⟨c, h1, -⟩ := hN N le_rfl
  exact ⟨rng, M, N, c, h1, C44_add_sound_partial _ firstSmallest_order rng M N sqrtTwo cbrtTwo c _ _
    sqrtTwo_represents cbrtTwo_represents sqrtTwo_cbrtTwo h1⟩

example : ∃ rng ffuel fuel c, sqrtTwo.sub (factorCall firstSmallest rng ffuel) fuel cbrtTwo = .ok c ∧
    c.Represents (√2 - 2 ^ (1 / 3 : ℝ)) := by
  obtain ⟨rng, hfair⟩ := exists_fair
  obtain ⟨M, hM⟩ := C44_sub_total_partial firstSmallest firstSmallest_order rng hfair sqrtTwo cbrtTwo _ _
    sqrtTwo_represents cbrtTwo_represents sqrtTwo_cbrtTwo sqrtTwo_cbrtTwo_moderate
  obtain ⟨N, hN⟩ := hM M le_rfl
  obtain ⟨c, h1, -⟩ := hN N le_rfl
  exact ⟨rng, M, N, c, h1, C44_sub_sound_partial _ firstSmallest_order rng M N sqrtTwo cbrtTwo c _ _
    sqrtTwo_represents cbrtTwo_represents sqrtTwo_cbrtTwo h1⟩

example : ∃ rng ffuel fuel c, sqrtTwo.mul (factorCall firstSmallest rng ffuel) fuel cbrtTwo = .ok c ∧
    c.Represents (√2 * 2 ^ (1 / 3 : ℝ)) := by
  obtain ⟨rng, hfair⟩ := exists_fair
  obtain ⟨M, hM⟩ := C45_mul_total_partial firstSmallest firstSmallest_order rng hfair sqrtTwo cbrtTwo _ _
    sqrtTwo_represents cbrtTwo_represents sqrtTwo_cbrtTwo sqrtTwo_cbrtTwo_moderate
  obtain ⟨N, hN⟩ := hM M le_rfl
  obtain ⟨c, h1, -⟩ := hN N le_rfl
  exact ⟨rng, M, N, c, h1, C45_mul_sound_partial _ firstSmallest_order rng M N sqrtTwo cbrtTwo c _ _
    sqrtTwo_represents cbrtTwo_represents sqrtTwo_cbrtTwo h1⟩

example : ∃ rng ffuel fuel c, sqrtTwo.div (factorCall firstSmallest rng ffuel) fuel cbrtTwo = .ok c ∧
    c.Represents (√2 / 2 ^ (1 / 3 : ℝ)) := by
  obtain ⟨rng, hfair⟩ := exists_fair
  obtain ⟨M, hM⟩ := C45_div_total_partial firstSmallest firstSmallest_order rng hfair sqrtTwo cbrtTwo _ _
    sqrtTwo_represents cbrtTwo_represents (by positivity) (fun z hz _ => cbrtTwo_only z hz) sqrtTwo_cbrtTwo
    sqrtTwo_cbrtTwo_moderate
  obtain ⟨N, hN⟩ := hM M le_rfl
  obtain ⟨c, -, h1, -⟩ := hN N le_rfl
  exact ⟨rng, M, N, c, h1, (C45_div_sound_partial _ firstSmallest_order rng M N sqrtTwo cbrtTwo c _ _
    sqrtTwo_represents cbrtTwo_represents sqrtTwo_cbrtTwo (fun _ z hz _ => cbrtTwo_only z hz) h1).2⟩

example : ∃ fuel c, cbrtTwo.checkedRecip fuel = .ok (some c) ∧ c.Represents ((2 : ℝ) ^ (1 / 3 : ℝ))⁻¹ := by
  have hirr : Irrational ((2 : ℝ) ^ (1 / 3 : ℝ)) := by
    intro h
    have := degree_one_of_rat cbrtTwo_represents (not_not.mpr h)
    rw [cbrtTwo_degree] at this
    omega
  obtain ⟨N, hN⟩ := C40_recip_one_sign_partial cbrtTwo _ cbrtTwo_represents hirr
    (fun z hz _ => cbrtTwo_only z hz)
  obtain ⟨c, h1, -⟩ := hN N le_rfl
  exact ⟨N, c, h1, (C40_recip_sound_partial N cbrtTwo c _ cbrtTwo_represents
    (fun _ z hz _ => cbrtTwo_only z hz) h1).2⟩

example : ∃ rng ffuel fuel, sqrtTwo.cmp (factorCall firstSmallest rng ffuel) fuel cbrtTwo = .ok .gt := by
  obtain ⟨rng, hfair⟩ := exists_fair
  obtain ⟨M, hM⟩ := C46_total_partial firstSmallest firstSmallest_order rng hfair sqrtTwo cbrtTwo _ _
    sqrtTwo_represents cbrtTwo_represents sqrtTwo_cbrtTwo sqrtTwo_cbrtTwo_moderate
  obtain ⟨N, hN⟩ := hM M le_rfl
  obtain ⟨-, o, h1, -⟩ := hN N le_rfl
  have h2 := ((C46_sound_partial _ firstSmallest_order rng M N sqrtTwo cbrtTwo _ _ sqrtTwo_represents
    cbrtTwo_represents sqrtTwo_cbrtTwo).2 o h1).2.2
  refine ⟨rng, M, N, ?_⟩
  rw [h1, h2.mpr ?_]
  rw [Real.sqrt_eq_rpow]
  exact Real.rpow_lt_rpow_of_exponent_lt (by norm_num) (by norm_num)

example : ∃ fuel c, sqrtTwo.floor fuel = .ok c ∧ c.Represents ⌊√2⌋ := by
  obtain ⟨N, hN⟩ := sqrtTwo_represents.integerFloor
  have h : sqrtTwo.floor N = .ok (ofInt ⌊√2⌋) := by
    unfold RealAlg.floor
    rw [hN N le_rfl]
    rfl
  exact ⟨N, _, h, (C43_round_sound N sqrtTwo _ _ sqrtTwo_represents).1 h⟩

example : ∃ rng ffuel fuel c, sqrtTwo.absSub (factorCall firstSmallest rng ffuel) fuel cbrtTwo = .ok c ∧
    c.Represents (max (√2 - 2 ^ (1 / 3 : ℝ)) 0) := by
  obtain ⟨rng, hfair⟩ := exists_fair
  obtain ⟨M, hM⟩ := C58_abs_sub_total_partial firstSmallest firstSmallest_order rng hfair sqrtTwo cbrtTwo _ _
    sqrtTwo_represents cbrtTwo_represents sqrtTwo_cbrtTwo sqrtTwo_cbrtTwo_moderate
  obtain ⟨N, hN⟩ := hM M le_rfl
  obtain ⟨c, h1, -⟩ := hN N le_rfl
  exact ⟨rng, M, N, c, h1, C58_abs_sub_sound_partial _ firstSmallest_order rng M N sqrtTwo cbrtTwo c _ _
    sqrtTwo_represents cbrtTwo_represents sqrtTwo_cbrtTwo h1⟩

example : ∃ rng ffuel fuel c, sqrtTwo.rem (factorCall firstSmallest rng ffuel) fuel cbrtTwo = .ok c ∧
    c.Represents (√2 - truncate (√2 / 2 ^ (1 / 3 : ℝ)) * 2 ^ (1 / 3 : ℝ)) := by
  obtain ⟨rng, hfair⟩ := exists_fair
  obtain ⟨M, hM⟩ := sqrtTwo_rem_cbrtTwo rng hfair
  obtain ⟨N, hN⟩ := hM M le_rfl
  obtain ⟨c, h1, -⟩ := hN N le_rfl
  exact ⟨rng, M, N, c, h1, (C58_rem_sound_partial _ firstSmallest_order rng M N sqrtTwo cbrtTwo c _ _
    sqrtTwo_represents cbrtTwo_represents sqrtTwo_cbrtTwo (fun _ z hz _ => cbrtTwo_only z hz) h1).2⟩

theorem sqrtThree_integral : IsIntegral ℤ (√3) :=
  ⟨X ^ 2 - C 3, monic_X_pow_sub_C _ two_ne_zero, by simp⟩

theorem sqrtTwo_integral : IsIntegral ℤ (√2) :=
  ⟨X ^ 2 - C 2, monic_X_pow_sub_C _ two_ne_zero, by simp⟩

example : ∃ rng ffuel fuel c, sqrtTwo.add (factorCall firstSmallest rng ffuel) fuel sqrtThree = .ok c ∧
    c.Represents (√2 + √3) := by
  have hq : ∀ q : ℚ, aeval ((q : ℝ) - √2) sqrtThree.poly.toPoly = 0 → (q : ℝ) = √2 + √3 := fun q h => by
    rw [sqrtThree_poly, quadratic_aeval] at h
    exact absurd (by push_cast at h; linarith) (sqrt_apart q)
  obtain ⟨rng, hfair⟩ := exists_fair
  obtain ⟨M, hM⟩ := C44_add_total_integers_partial firstSmallest firstSmallest_order rng hfair sqrtTwo
    sqrtThree _ _ sqrtTwo_represents sqrtThree_represents monic_pair hq sqrtTwo_sqrtThree_moderate
  obtain ⟨N, hN⟩ := hM M le_rfl
  obtain ⟨c, h1, -⟩ := hN N le_rfl
  exact ⟨rng, M, N, c, h1, C44_add_sound_integers_partial _ firstSmallest_order rng M N sqrtTwo sqrtThree c _
    _ sqrtTwo_represents sqrtThree_represents sqrtTwo_integral sqrtThree_integral
    (fun q h => hq q ((sqrtThree_represents.conj_real_iff _).mpr h)) h1⟩

/-- the product of `√2` with `1`, both algebraic integers -/
example (rng : ℕ → ℕ) : ∃ c, sqrtTwo.mul (factorCall firstSmallest rng 0) 0 (ofInt 1) = .ok c ∧
    c.Represents (√2 * ((1 : ℤ) : ℝ)) := by
  have h : sqrtTwo.mul (factorCall firstSmallest rng 0) 0 (ofInt 1) = .ok sqrtTwo := rfl
  refine ⟨_, h, C45_mul_sound_integers_partial _ firstSmallest_order rng 0 0 _ _ _ _ _ sqrtTwo_represents
    (ofInt_represents 1) sqrtTwo_integral isIntegral_algebraMap (fun q hq => ?_) h⟩
  rw [← (ofInt_represents 1).conj_real_iff, show (ofInt 1).poly.toPoly = _ from toPoly_linear (-1) 1] at hq
  simp at hq
  have h0 : (0 : ℝ) < √2 := by positivity
  field_simp at hq
  push_cast
  linarith

/-- `√2` out of `2` -/
example (ln2 : ℕ → ℕ → DFI) (hln2 : ∀ t, IsLn2 (ln2 t)) : ∃ rng ffuel c,
    (ofInt (2 : ℕ)).checkedPow ln2 (factorCall firstSmallest rng ffuel) 1 (1 / 2) = .ok (some c) ∧
      c.Represents (powValue 2 (1 / 2)) := by
  obtain ⟨rng, hfair⟩ := exists_fair
  obtain ⟨M, hM⟩ := C47_integer_root_total_partial ln2 hln2 firstSmallest firstSmallest_order
    rng hfair 2 (by norm_num) (1 / 2) (by norm_num) (by norm_num)
    (by rw [show Nat.log 2 2 = 1 by decide +kernel]; norm_num)
  obtain ⟨c, h1, -⟩ := hM M le_rfl 1 le_rfl
  exact ⟨rng, M, c, h1, C47_sound_integers_partial ln2 hln2 _ firstSmallest_order rng M 1 _ c 2
    (by simpa using ofInt_represents 2) (by norm_num)
    (by simpa using isIntegral_algebraMap (R := ℤ) (A := ℝ) (x := 2)) _ (by norm_num)
    (PowerAlone.of_root (by norm_num) 1 one_pos 2 (by norm_num) _) h1⟩

end RealAlg

end Algebraics
