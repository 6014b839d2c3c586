import Verif.Lemmas.AlgNumConj
import Verif.Lemmas.AlgLeading
import Verif.Lemmas.FactorDistinct
import Verif.Lemmas.FactorRuns
import Verif.Props.AlgNum

/-!
Properties C44, C45, C46, C57, C58 and the rest of C43: arithmetic and comparison of algebraic numbers
(`/repo/src/algebraic_numbers.rs`).

`F` is the call of `Polynomial::factor`. What is needed of it is asked of the one polynomial it is called
with, the resultant of the two operands: `FactorsRight F R`. The theorems named `own_factor` put the model
of the code's own `factor` in its place. `fuel` bounds the number of turns of the unbounded loops;
"there is an `N` such that for all `fuel ≥ N`" says that the loops end.
-/

namespace Algebraics

open Polynomial

open RealAlg

/-! ## C57 the factors are distinct -/

/-- C57: no two factors returned by `factor` have a common divisor over the rational numbers, and each of
them is square-free, for every stream of random numbers and every order of the heap. -/
theorem C57_factors_distinct (choose : ℕ → List ℕ → ℕ) (hc : Poly.HeapOrder choose) (rng : ℕ → ℕ)
    (fuel pos : ℕ) (f : Poly ℤ) (r : Poly.Factors) (pos' : ℕ)
    (h : f.factor choose rng fuel pos = .ok (r, pos')) :
    (r.factors.Pairwise fun e e' =>
      IsCoprime (e.1.toPoly.map (Int.castRingHom ℚ)) (e'.1.toPoly.map (Int.castRingHom ℚ))) ∧
    ∀ e ∈ r.factors, Squarefree (e.1.toPoly.map (Int.castRingHom ℚ)) :=
  Poly.factor_distinct choose hc rng fuel pos f r pos' h

example (rng : ℕ → ℕ) : IsCoprime (SumRun.quad.toPoly.map (Int.castRingHom ℚ))
    (SumRun.lin.toPoly.map (Int.castRingHom ℚ)) := by
  have := (C57_factors_distinct firstSmallest firstSmallest_order rng 0 0 sumRes _ _
    (SumRun.factor_eq firstSmallest firstSmallest_order rng 0 0)).1
  simpa using this

/-- the code's own `factor` is right on every polynomial with leading coefficient up to 4 for which it
returns. -/
theorem RealAlg.factorCall_right (choose : ℕ → List ℕ → ℕ) (hc : Poly.HeapOrder choose) (rng : ℕ → ℕ)
    (fuel : ℕ) (R : Poly ℤ) (hl : |R.toPoly.leadingCoeff| ≤ 4)
    (hret : ∃ r, factorCall choose rng fuel R = .ok r) : FactorsRight (factorCall choose rng fuel) R := by
  obtain ⟨r, hr⟩ := hret
  refine ⟨r, hr, ?_⟩
  unfold factorCall at hr
  cases hfac : Poly.factor choose rng fuel 0 R with
  | error e => rw [hfac] at hr; simp [Except.map] at hr
  | ok v =>
    obtain ⟨r', pos'⟩ := v
    rw [hfac] at hr
    simp only [Except.map, Except.ok.injEq] at hr
    subst hr
    obtain ⟨h1, h2⟩ := C26_multiplies_back choose hc rng fuel 0 R r' pos' hfac
    exact ⟨h1, C27_small_leading_partial choose hc rng fuel 0 R hl r' pos' hfac,
      fun e he => (h2 e he).2.1, fun e he => (h2 e he).2.2.2,
      (C57_factors_distinct choose hc rng fuel 0 R r' pos' hfac).1⟩

/-! ## C44 addition and subtraction -/

/-- C44, in part: addition ends without panic, and the result represents the sum unless it is a rational
number that is the sum of two other roots of the polynomials of the operands and lies in the sum of their
intervals. Missing: that case, which occurs (`C44_add_false`); and the factoring of the resultant is
assumed to be right. -/
theorem C44_add_partial (F : FactorCall) (a b : RealAlg) (x y : ℝ) (ha : a.Represents x)
    (hb : b.Represents y) (hF : ∀ R, addResultant a.poly b.poly = some R → FactorsRight F R) :
    ∃ N, ∀ fuel ≥ N, ∃ c, a.add F fuel b = .ok c ∧
      (c.Represents (x + y) ∨ WrongConjugate (· + ·) a b (a.interval.add b.interval) (x + y) c) :=
  ha.add hb F hF

/-- C44, in part: the same for subtraction. -/
theorem C44_sub_partial (F : FactorCall) (a b : RealAlg) (x y : ℝ) (ha : a.Represents x)
    (hb : b.Represents y)
    (hF : ∀ n R, b.neg = .ok n → addResultant a.poly n.poly = some R → FactorsRight F R) :
    ∃ N, ∀ fuel ≥ N, ∃ c, a.sub F fuel b = .ok c ∧
      (c.Represents (x - y) ∨ WrongConjugate (· - ·) a b (a.interval.sub b.interval) (x - y) c) :=
  ha.sub hb F hF

/-- C44, in part: addition is exact when no rational number in the sum of the two intervals, other than
`x + y`, is the sum of two roots of the polynomials. -/
theorem C44_add_exact_partial (F : FactorCall) (a b : RealAlg) (x y : ℝ) (ha : a.Represents x)
    (hb : b.Represents y) (hF : ∀ R, addResultant a.poly b.poly = some R → FactorsRight F R)
    (hq : ∀ (q : ℚ) (x' y' : ℂ), (a.interval.add b.interval).Contains q → aeval x' a.poly.toPoly = 0 →
      aeval y' b.poly.toPoly = 0 → (q : ℂ) = x' + y' → (q : ℝ) = x + y) :
    ∃ N, ∀ fuel ≥ N, ∃ c, a.add F fuel b = .ok c ∧ c.Represents (x + y) := by
  obtain ⟨N, hN⟩ := C44_add_partial F a b x y ha hb hF
  refine ⟨N, fun fuel hf => ?_⟩
  obtain ⟨c, h1, h2 | ⟨q, -, h3, h4, x', y', h5, h6, h7⟩⟩ := hN fuel hf
  · exact ⟨c, h1, h2⟩
  · exact absurd (hq q x' y' h4 h5 h6 h7) h3

/-- C44: addition is exact when one of the two numbers is rational. -/
theorem C44_add_rational (F : FactorCall) (a b : RealAlg) (x y : ℝ) (ha : a.Represents x)
    (hb : b.Represents y) (hr : ¬ Irrational x ∨ ¬ Irrational y)
    (hF : ∀ R, addResultant a.poly b.poly = some R → FactorsRight F R) :
    ∃ N, ∀ fuel ≥ N, ∃ c, a.add F fuel b = .ok c ∧ c.Represents (x + y) :=
  ha.add_rat hb (hr.imp (fun h => by
    obtain ⟨q, hq⟩ := not_not.mp h; exact ⟨q, hq.symm⟩) (fun h => by
    obtain ⟨q, hq⟩ := not_not.mp h; exact ⟨q, hq.symm⟩)) F hF

/-- C44: subtraction is exact when one of the two numbers is rational. -/
theorem C44_sub_rational (F : FactorCall) (a b : RealAlg) (x y : ℝ) (ha : a.Represents x)
    (hb : b.Represents y) (hr : ¬ Irrational x ∨ ¬ Irrational y)
    (hF : ∀ n R, b.neg = .ok n → addResultant a.poly n.poly = some R → FactorsRight F R) :
    ∃ N, ∀ fuel ≥ N, ∃ c, a.sub F fuel b = .ok c ∧ c.Represents (x - y) :=
  ha.sub_rat hb (hr.imp (fun h => by
    obtain ⟨q, hq⟩ := not_not.mp h; exact ⟨q, hq.symm⟩) (fun h => by
    obtain ⟨q, hq⟩ := not_not.mp h; exact ⟨q, hq.symm⟩)) F hF

/-- C44: adding two rational numbers needs no factoring and is exact, for every fuel. -/
theorem C44_both_rational (F : FactorCall) (a b : RealAlg) (p q : ℚ) (ha : a.Represents p)
    (hb : b.Represents q) (fuel : ℕ) :
    (∃ c, a.add F fuel b = .ok c ∧ c.Represents ((p : ℝ) + q)) ∧
    ∃ c, a.sub F fuel b = .ok c ∧ c.Represents ((p : ℝ) - q) := by
  have key : ∀ (b : RealAlg) (q : ℚ), b.Represents q →
      a.add F fuel b = .ok (ofRat (p + q)) := by
    intro b q hb
    unfold RealAlg.add
    rw [ha.toRational_rat, hb.toRational_rat]
    rfl
  refine ⟨⟨_, key b q hb, by have := ofRat_represents (p + q); rwa [Rat.cast_add] at this⟩, ?_⟩
  obtain ⟨n, h1, h2, -⟩ := hb.neg
  have h2' : n.Represents ((-q : ℚ) : ℝ) := by rwa [Rat.cast_neg]
  refine ⟨ofRat (p + -q), ?_, ?_⟩
  · unfold RealAlg.sub
    rw [h1]
    exact key n (-q) h2'
  · rw [sub_eq_add_neg, ← Rat.cast_neg, ← Rat.cast_add]
    exact ofRat_represents _

/-- C44, in part, with the code's own `factor`: whenever `factor` returns on the resultant, and the
leading coefficients of the operands are small, for example for algebraic integers. -/
theorem C44_add_own_factor_partial (choose : ℕ → List ℕ → ℕ) (hc : Poly.HeapOrder choose)
    (rng : ℕ → ℕ) (ffuel : ℕ) (a b : RealAlg) (x y : ℝ) (ha : a.Represents x) (hb : b.Represents y)
    (hl : |a.poly.toPoly.leadingCoeff| ^ b.poly.toPoly.natDegree *
      |b.poly.toPoly.leadingCoeff| ^ a.poly.toPoly.natDegree ≤ 4)
    (hret : ∀ R, addResultant a.poly b.poly = some R → ∃ r, factorCall choose rng ffuel R = .ok r) :
    ∃ N, ∀ fuel ≥ N, ∃ c, a.add (factorCall choose rng ffuel) fuel b = .ok c ∧
      (c.Represents (x + y) ∨ WrongConjugate (· + ·) a b (a.interval.add b.interval) (x + y) c) := by
  refine C44_add_partial _ a b x y ha hb fun R hR => ?_
  refine factorCall_right choose hc rng ffuel R ?_ (hret R hR)
  rw [addResultant_leading _ _ R ha.ne_zero hb.ne_zero hR, abs_mul, abs_pow, abs_pow]
  exact hl

/-! ## C45 multiplication and division -/

/-- C45, in part: multiplication ends without panic, and the result represents the product unless it is a
rational number that is the product of two other roots of the polynomials of the operands and lies in the
product of their intervals. Missing: that case, which occurs (`C45_mul_false`); and the factoring of the
resultant is assumed to be right. -/
theorem C45_mul_partial (F : FactorCall) (a b : RealAlg) (x y : ℝ) (ha : a.Represents x)
    (hb : b.Represents y)
    (hF : ∀ R, mulResultant a.poly b.poly = some R → R.toPoly ≠ 0 → FactorsRight F R) :
    ∃ N, ∀ fuel ≥ N, ∃ c, a.mul F fuel b = .ok c ∧
      (c.Represents (x * y) ∨ WrongConjugate (· * ·) a b (a.interval.mul b.interval) (x * y) c) :=
  ha.mul hb F hF

/-- C45, in part: multiplication is exact when no rational number in the product of the two intervals,
other than `x * y`, is the product of two roots of the polynomials. -/
theorem C45_mul_exact_partial (F : FactorCall) (a b : RealAlg) (x y : ℝ) (ha : a.Represents x)
    (hb : b.Represents y)
    (hF : ∀ R, mulResultant a.poly b.poly = some R → R.toPoly ≠ 0 → FactorsRight F R)
    (hq : ∀ (q : ℚ) (x' y' : ℂ), (a.interval.mul b.interval).Contains q → aeval x' a.poly.toPoly = 0 →
      aeval y' b.poly.toPoly = 0 → (q : ℂ) = x' * y' → (q : ℝ) = x * y) :
    ∃ N, ∀ fuel ≥ N, ∃ c, a.mul F fuel b = .ok c ∧ c.Represents (x * y) := by
  obtain ⟨N, hN⟩ := C45_mul_partial F a b x y ha hb hF
  refine ⟨N, fun fuel hf => ?_⟩
  obtain ⟨c, h1, h2 | ⟨q, -, h3, h4, x', y', h5, h6, h7⟩⟩ := hN fuel hf
  · exact ⟨c, h1, h2⟩
  · exact absurd (hq q x' y' h4 h5 h6 h7) h3

/-- C45: multiplication is exact when one of the two numbers is rational. -/
theorem C45_mul_rational (F : FactorCall) (a b : RealAlg) (x y : ℝ) (ha : a.Represents x)
    (hb : b.Represents y) (hr : ¬ Irrational x ∨ ¬ Irrational y)
    (hF : ∀ R, mulResultant a.poly b.poly = some R → R.toPoly ≠ 0 → FactorsRight F R) :
    ∃ N, ∀ fuel ≥ N, ∃ c, a.mul F fuel b = .ok c ∧ c.Represents (x * y) :=
  ha.mul_rat hb (hr.imp (fun h => by
    obtain ⟨q, hq⟩ := not_not.mp h; exact ⟨q, hq.symm⟩) (fun h => by
    obtain ⟨q, hq⟩ := not_not.mp h; exact ⟨q, hq.symm⟩)) F hF

/-- C45: division by zero is `None`, and the operator `/` panics. -/
theorem C45_div_zero (F : FactorCall) (a b : RealAlg) (hb : b.Represents 0) (fuel : ℕ) :
    a.checkedExactDiv F fuel b = .ok none ∧ a.div F fuel b = .error .panic := by
  have h1 : b.checkedRecip fuel = .ok none :=
    (C40_recip_rational b 0 (by rwa [Rat.cast_zero]) fuel).1 rfl
  have h2 : a.checkedExactDiv F fuel b = .ok none := by
    unfold checkedExactDiv
    rw [h1]
    rfl
  refine ⟨h2, ?_⟩
  unfold RealAlg.div
  rw [h2]
  rfl

/-- C45: division by a rational number other than zero ends without panic and is exact. -/
theorem C45_div_rational (F : FactorCall) (a b : RealAlg) (x : ℝ) (q : ℚ) (ha : a.Represents x)
    (hb : b.Represents q) (hq : q ≠ 0)
    (hF : ∀ R, mulResultant a.poly (ofRat q⁻¹).poly = some R → R.toPoly ≠ 0 → FactorsRight F R) :
    ∃ N, ∀ fuel ≥ N, ∃ c, a.checkedExactDiv F fuel b = .ok (some c) ∧ a.div F fuel b = .ok c ∧
      c.Represents (x / q) := by
  have hr := ofRat_represents q⁻¹
  obtain ⟨N, hN⟩ := C45_mul_rational F a (ofRat q⁻¹) x _ ha hr (Or.inr (not_not.mpr ⟨_, rfl⟩)) hF
  refine ⟨N, fun fuel hf => ?_⟩
  obtain ⟨c, h1, h2⟩ := hN fuel hf
  have h3 : b.checkedRecip fuel = .ok (some (ofRat q⁻¹)) := by
    rw [hb.checkedRecip_rat, if_neg hq]
  have h4 : a.checkedExactDiv F fuel b = .ok (some c) := by
    unfold checkedExactDiv
    rw [h3]
    simp [bind, Except.bind, pure, Except.pure, h1]
  refine ⟨c, h4, ?_, ?_⟩
  · unfold RealAlg.div
    rw [h4]
    rfl
  · rw [div_eq_mul_inv]
    rwa [Rat.cast_inv] at h2

theorem RealAlg.removeZeroLoop_mono (n : ℕ) : ∀ (s t : Shrinker), removeZeroLoop n s = .ok t →
    ∀ m ≥ n, removeZeroLoop m s = .ok t := by
  induction n with
  | zero => intro s t h; simp [removeZeroLoop] at h
  | succ n ih =>
    intro s t h m hm
    obtain ⟨m, rfl⟩ : ∃ k, m = k + 1 := ⟨m - 1, by omega⟩
    unfold removeZeroLoop at h ⊢
    by_cases hz : s.interval.containsZero = true
    · rw [if_pos hz] at h ⊢
      cases hs : s.shrink with
      | none => rw [hs] at h; simp at h
      | some v =>
        rw [hs] at h
        exact ih v.1 t h m (by omega)
    · rw [if_neg hz] at h ⊢
      exact h

theorem RealAlg.removeZeroFromInterval_mono (b : RealAlg) (n : ℕ) (r : Option Shrinker)
    (h : b.removeZeroFromInterval n = .ok r) : ∀ m ≥ n, b.removeZeroFromInterval m = .ok r := by
  intro m hm
  unfold removeZeroFromInterval at h ⊢
  have key : ∀ o : Ordering, o ≠ .eq →
      ((orPanic (clipToSign (decide (o = .lt)) b.interval)) >>= fun i =>
        intervalShrinker ⟨b.poly, i⟩ >>= fun s => removeZeroLoop n s >>= fun s =>
          (pure (some s) : Except Stop (Option Shrinker))) = .ok r →
      ((orPanic (clipToSign (decide (o = .lt)) b.interval)) >>= fun i =>
        intervalShrinker ⟨b.poly, i⟩ >>= fun s => removeZeroLoop m s >>= fun s =>
          (pure (some s) : Except Stop (Option Shrinker))) = .ok r := by
    intro o _ h
    cases h1 : orPanic (clipToSign (decide (o = .lt)) b.interval) with
    | error e => rw [h1] at h; simp [bind, Except.bind] at h
    | ok i =>
      rw [h1] at h
      simp only [bind, Except.bind] at h ⊢
      cases h2 : intervalShrinker ⟨b.poly, i⟩ with
      | error e => rw [h2] at h; simp at h
      | ok s =>
        rw [h2] at h
        simp only at h ⊢
        cases h3 : removeZeroLoop n s with
        | error e => rw [h3] at h; simp at h
        | ok t =>
          rw [h3] at h
          rw [removeZeroLoop_mono n s t h3 m hm]
          exact h
  cases h1 : b.cmpWithZero with
  | error e => rw [h1] at h; simp [bind, Except.bind] at h
  | ok o =>
    rw [h1] at h
    cases o with
    | eq => exact h
    | lt => exact key .lt (by decide) h
    | gt => exact key .gt (by decide) h

theorem RealAlg.checkedRecip_mono (b : RealAlg) (n : ℕ) (r : Option RealAlg)
    (h : b.checkedRecip n = .ok r) : ∀ m ≥ n, b.checkedRecip m = .ok r := by
  intro m hm
  unfold checkedRecip at h ⊢
  cases h1 : b.toRational with
  | error e => rw [h1] at h; simp [bind, Except.bind] at h
  | ok v =>
    rw [h1] at h
    cases v with
    | some q => exact h
    | none =>
      cases h2 : b.removeZeroFromInterval n with
      | error e => simp only [bind, Except.bind] at h; rw [h2] at h; simp at h
      | ok s =>
        simp only [bind, Except.bind] at h ⊢
        rw [h2] at h
        rw [removeZeroFromInterval_mono b n s h2 m hm]
        exact h

/-- C45, in part: division by an irrational number `y` that is the only root of its sign of its
polynomial ends without panic, and its result represents `x / y` up to the wrong rational numbers of
`C45_mul_partial`. Missing: other irrational divisors, where the reciprocal itself is wrong
(`C40_recip_false`). -/
theorem C45_div_partial (F : FactorCall) (a b : RealAlg) (x y : ℝ) (ha : a.Represents x)
    (hb : b.Represents y) (hy : Irrational y)
    (hs : ∀ z : ℝ, aeval z b.poly.toPoly = 0 → 0 < y * z → z = y)
    (hF : ∀ (fuel : ℕ) (r : RealAlg) R, b.checkedRecip fuel = .ok (some r) →
      mulResultant a.poly r.poly = some R → R.toPoly ≠ 0 → FactorsRight F R) :
    ∃ r : RealAlg, r.Represents y⁻¹ ∧ ∃ N, ∀ fuel ≥ N, ∃ c, a.checkedExactDiv F fuel b = .ok (some c) ∧
      a.div F fuel b = .ok c ∧
      (c.Represents (x / y) ∨ WrongConjugate (· * ·) a r (a.interval.mul r.interval) (x / y) c) := by
  obtain ⟨M, hM⟩ := C40_recip_one_sign_partial b y hb hy hs
  obtain ⟨r, h1, h2⟩ := hM M le_rfl
  obtain ⟨N, hN⟩ := C45_mul_partial F a r x _ ha h2 (fun R => hF M r R h1)
  refine ⟨r, h2, max M N, fun fuel hf => ?_⟩
  obtain ⟨c, h3, h4⟩ := hN fuel (le_trans (le_max_right _ _) hf)
  have h5 := checkedRecip_mono b M _ h1 fuel (le_trans (le_max_left _ _) hf)
  have h6 : a.checkedExactDiv F fuel b = .ok (some c) := by
    unfold checkedExactDiv
    rw [h5]
    simp [bind, Except.bind, pure, Except.pure, h3]
  refine ⟨c, h6, ?_, by rwa [div_eq_mul_inv]⟩
  unfold RealAlg.div
  rw [h6]
  rfl

/-- C45, in part, with the code's own `factor`: whenever `factor` returns on the resultant, and the
leading coefficients of the operands are small, for example for algebraic integers. -/
theorem C45_mul_own_factor_partial (choose : ℕ → List ℕ → ℕ) (hc : Poly.HeapOrder choose)
    (rng : ℕ → ℕ) (ffuel : ℕ) (a b : RealAlg) (x y : ℝ) (ha : a.Represents x) (hb : b.Represents y)
    (hx : x ≠ 0) (hy : y ≠ 0)
    (hl : |a.poly.toPoly.leadingCoeff| ^ b.poly.toPoly.natDegree *
      |b.poly.toPoly.leadingCoeff| ^ a.poly.toPoly.natDegree ≤ 4)
    (hret : ∀ R, mulResultant a.poly b.poly = some R → ∃ r, factorCall choose rng ffuel R = .ok r) :
    ∃ N, ∀ fuel ≥ N, ∃ c, a.mul (factorCall choose rng ffuel) fuel b = .ok c ∧
      (c.Represents (x * y) ∨ WrongConjugate (· * ·) a b (a.interval.mul b.interval) (x * y) c) := by
  refine C45_mul_partial _ a b x y ha hb fun R hR _ => ?_
  refine factorCall_right choose hc rng ffuel R ?_ (hret R hR)
  rw [mulResultant_leading _ _ R (ha.coeff_zero_ne hx) (hb.coeff_zero_ne hy) hR, abs_mul, abs_pow, abs_pow]
  exact hl

/-! ## C46 comparison -/

/-- C46: two representations of the same number always compare as equal. -/
theorem C46_equal (F : FactorCall) (a b : RealAlg) (x : ℝ) (ha : a.Represents x) (hb : b.Represents x)
    (hF : ∀ n R, b.neg = .ok n → addResultant a.poly n.poly = some R → FactorsRight F R) :
    ∃ N, ∀ fuel ≥ N, a.eq F fuel b = .ok true ∧ a.cmp F fuel b = .ok .eq := by
  obtain ⟨N, hN⟩ := ha.sub_self hb F hF
  refine ⟨N, fun fuel hf => ?_⟩
  obtain ⟨c, h1, h2⟩ := hN fuel hf
  constructor
  · unfold RealAlg.eq
    rw [h1]
    simp [bind, Except.bind, pure, Except.pure, h2.isZero_iff]
  · unfold RealAlg.cmp
    rw [h1]
    rcases h2.cmpWithZero with ⟨h3, h4⟩ | ⟨h3, h4⟩ | ⟨h3, h4⟩
    · exact absurd h4 (lt_irrefl _)
    · exact h3
    · exact absurd h4 (lt_irrefl _)

theorem RealAlg.cmp_of_sub (F : FactorCall) (a b c : RealAlg) (x y : ℝ) (fuel : ℕ)
    (h1 : a.sub F fuel b = .ok c) (h2 : c.Represents (x - y)) :
    (∃ e, a.eq F fuel b = .ok e ∧ (e = true ↔ x = y)) ∧
    ∃ o, a.cmp F fuel b = .ok o ∧ (o = .lt ↔ x < y) ∧ (o = .eq ↔ x = y) ∧ (o = .gt ↔ y < x) := by
  constructor
  · refine ⟨c.isZero, ?_, ?_⟩
    · unfold RealAlg.eq
      rw [h1]
      rfl
    · rw [h2.isZero_iff, sub_eq_zero]
  · obtain ⟨o, h3, h4, h5, h6⟩ := C41_cmp_with_zero c _ h2
    refine ⟨o, ?_, by rw [h4, sub_neg], by rw [h5, sub_eq_zero], by rw [h6, sub_pos]⟩
    unfold RealAlg.cmp
    rw [h1]
    exact h3

/-- C46: equality and order are those of the real numbers when one of the two numbers is rational. -/
theorem C46_rational (F : FactorCall) (a b : RealAlg) (x y : ℝ) (ha : a.Represents x)
    (hb : b.Represents y) (hr : ¬ Irrational x ∨ ¬ Irrational y)
    (hF : ∀ n R, b.neg = .ok n → addResultant a.poly n.poly = some R → FactorsRight F R) :
    ∃ N, ∀ fuel ≥ N, (∃ e, a.eq F fuel b = .ok e ∧ (e = true ↔ x = y)) ∧
      ∃ o, a.cmp F fuel b = .ok o ∧ (o = .lt ↔ x < y) ∧ (o = .eq ↔ x = y) ∧ (o = .gt ↔ y < x) := by
  obtain ⟨N, hN⟩ := C44_sub_rational F a b x y ha hb hr hF
  refine ⟨N, fun fuel hf => ?_⟩
  obtain ⟨c, h1, h2⟩ := hN fuel hf
  exact cmp_of_sub F a b c x y fuel h1 h2

/-- C46, in part: `==` ends without panic and is equality of the real numbers, unless the two numbers are
different roots of the same polynomial. Missing: that case, where it can be wrong (`C46_eq_false`). -/
theorem C46_eq_partial (F : FactorCall) (a b : RealAlg) (x y : ℝ) (ha : a.Represents x)
    (hb : b.Represents y)
    (hF : ∀ n R, b.neg = .ok n → addResultant a.poly n.poly = some R → FactorsRight F R)
    (hxy : x = y ∨ aeval x b.poly.toPoly ≠ 0) :
    ∃ N, ∀ fuel ≥ N, ∃ e, a.eq F fuel b = .ok e ∧ (e = true ↔ x = y) := by
  rcases hxy with rfl | hxy
  · obtain ⟨N, hN⟩ := C46_equal F a b x ha hb hF
    exact ⟨N, fun fuel hf => ⟨true, (hN fuel hf).1, by simp⟩⟩
  · obtain ⟨N, hN⟩ := C44_sub_partial F a b x y ha hb hF
    have hne : x ≠ y := by rintro rfl; exact hxy hb.root
    refine ⟨N, fun fuel hf => ?_⟩
    obtain ⟨c, h1, h2 | ⟨q, h2, h3, -, x', y', h4, h5, h6⟩⟩ := hN fuel hf
    · exact (cmp_of_sub F a b c x y fuel h1 h2).1
    · refine ⟨c.isZero, ?_, ?_⟩
      · unfold RealAlg.eq
        rw [h1]
        rfl
      · subst h2
        rw [(ofRat_represents q).isZero_iff]
        refine ⟨fun h0 => ?_, fun h => absurd h hne⟩
        exfalso
        have hq : q = 0 := by exact_mod_cast h0
        rw [hq, Rat.cast_zero, eq_comm, sub_eq_zero] at h6
        subst h6
        have e := (minpoly_root ha.irreducible ha.natDegree_pos h4).symm.trans
          (minpoly_root hb.irreducible hb.natDegree_pos h5)
        apply hxy
        have hx0 : aeval x (a.poly.toPoly.map (Int.castRingHom ℚ)) = 0 := by
          rw [show (Int.castRingHom ℚ) = algebraMap ℤ ℚ from rfl, aeval_map_algebraMap]
          exact ha.root
        have hx1 := congrArg (aeval x) e
        rw [map_mul, hx0, zero_mul, map_mul, eq_comm, mul_eq_zero] at hx1
        rcases hx1 with hx1 | hx1
        · rwa [show (Int.castRingHom ℚ) = algebraMap ℤ ℚ from rfl, aeval_map_algebraMap] at hx1
        · exfalso
          rw [aeval_C] at hx1
          have : (b.poly.toPoly.leadingCoeff : ℚ) ≠ 0 := by
            exact_mod_cast leadingCoeff_ne_zero.mpr hb.ne_zero
          simp at hx1
          exact leadingCoeff_ne_zero.mpr hb.ne_zero (by simpa using hx1)

/-- C46, in part: the order agrees with that of the real numbers when no rational number in the
difference of the two intervals, other than `x - y`, is the difference of two roots of the polynomials. -/
theorem C46_cmp_partial (F : FactorCall) (a b : RealAlg) (x y : ℝ) (ha : a.Represents x)
    (hb : b.Represents y)
    (hF : ∀ n R, b.neg = .ok n → addResultant a.poly n.poly = some R → FactorsRight F R)
    (hq : ∀ (q : ℚ) (x' y' : ℂ), (a.interval.sub b.interval).Contains q → aeval x' a.poly.toPoly = 0 →
      aeval y' b.poly.toPoly = 0 → (q : ℂ) = x' - y' → (q : ℝ) = x - y) :
    ∃ N, ∀ fuel ≥ N, (∃ e, a.eq F fuel b = .ok e ∧ (e = true ↔ x = y)) ∧
      ∃ o, a.cmp F fuel b = .ok o ∧ (o = .lt ↔ x < y) ∧ (o = .eq ↔ x = y) ∧ (o = .gt ↔ y < x) := by
  obtain ⟨N, hN⟩ := C44_sub_partial F a b x y ha hb hF
  refine ⟨N, fun fuel hf => ?_⟩
  obtain ⟨c, h1, h2 | ⟨q, -, h3, h4, x', y', h5, h6, h7⟩⟩ := hN fuel hf
  · exact cmp_of_sub F a b c x y fuel h1 h2
  · exact absurd (hq q x' y' h4 h5 h6 h7) h3

/-! ## C43 fractional part of irrational numbers -/

/-- C43: `fract` of an irrational number ends without panic and is exactly `x - floor(x)`, given that the
factoring of the resultant is right. -/
theorem C43_fract_irrational_partial (F : FactorCall) (a : RealAlg) (x : ℝ) (h : a.Represents x)
    (hx : Irrational x)
    (hF : ∀ n R, (ofInt ⌊x⌋).neg = .ok n → addResultant a.poly n.poly = some R → FactorsRight F R) :
    ∃ N, ∀ fuel ≥ N, ∃ c, a.fract F fuel = .ok c ∧ c.Represents (x - ⌊x⌋) := by
  obtain ⟨s, h1, h2, -⟩ := h.intervalShrinker
  obtain ⟨M, hM⟩ := floorLoop_spec hx s h2
  obtain ⟨t, h3, h4, -⟩ := hM M le_rfl
  have hmono : ∀ (n : ℕ) (s : Shrinker) (v : ℤ × Shrinker), floorLoop n s = .ok v →
      ∀ m ≥ n, floorLoop m s = .ok v := by
    intro n
    induction n with
    | zero => intro s v h; simp [floorLoop] at h
    | succ n ih =>
      intro s v h m hm
      obtain ⟨m, rfl⟩ : ∃ k, m = k + 1 := ⟨m - 1, by omega⟩
      simp only [floorLoop] at h ⊢
      by_cases hz : (s.interval.floor 0).lo = (s.interval.floor 0).hi
      · rw [if_pos hz] at h ⊢
        exact h
      · rw [if_neg hz] at h ⊢
        cases hs : s.shrink with
        | none => rw [hs] at h; simp at h
        | some w =>
          rw [hs] at h
          exact ih w.1 v h m (by omega)
  have hrep : (⟨a.poly, t.interval⟩ : RealAlg).Represents x := h4.rep
  obtain ⟨N, hN⟩ := C44_sub_rational F ⟨a.poly, t.interval⟩ (ofInt ⌊x⌋) x _ hrep (ofInt_represents _)
    (Or.inr (not_not.mpr ⟨(⌊x⌋ : ℚ), by push_cast; rfl⟩)) hF
  refine ⟨max M N, fun fuel hf => ?_⟩
  obtain ⟨c, h5, h6⟩ := hN fuel (le_trans (le_max_right _ _) hf)
  refine ⟨c, ?_, h6⟩
  unfold RealAlg.fract
  rw [h.toRational_irr hx, h1]
  simp only [bind, Except.bind]
  rw [hmono M s _ h3 fuel (le_trans (le_max_left _ _) hf)]
  exact h5

/-! ## C58 remainder and positive difference -/

theorem RealAlg.selectLoop_mono {σ : Type} (g : σ → Option DFI) (sh : σ → Option σ) (n : ℕ) :
    ∀ (st : σ) (l : List (List (Poly ℤ))) (c : RealAlg), selectLoop g sh n st l = .ok c →
      ∀ m ≥ n, selectLoop g sh m st l = .ok c := by
  induction n with
  | zero => intro st l c h; simp [selectLoop] at h
  | succ n ih =>
    intro st l c h m hm
    obtain ⟨m, rfl⟩ : ∃ k, m = k + 1 := ⟨m - 1, by omega⟩
    simp only [selectLoop] at h ⊢
    cases h1 : g st with
    | none => rw [h1] at h; simp at h
    | some i =>
      rw [h1] at h
      simp only at h ⊢
      cases h2 : scan i.lowerBound i.upperBound l 0 [] with
      | root q => rw [h2] at h; exact h
      | left roots kept =>
        rw [h2] at h
        simp only at h ⊢
        by_cases h3 : roots ≤ 1
        · rw [if_pos h3] at h ⊢
          exact h
        · rw [if_neg h3] at h ⊢
          cases h4 : sh st with
          | none => rw [h4] at h; simp at h
          | some st' =>
            rw [h4] at h
            exact ih st' kept c h m (by omega)

theorem RealAlg.selectRoot_mono {σ : Type} (g : σ → Option DFI) (sh : σ → Option σ) (F : FactorCall)
    (n : ℕ) (st : σ) (R : Poly ℤ) (c : RealAlg) (h : selectRoot g sh F n st R = .ok c) (m : ℕ)
    (hm : n ≤ m) : selectRoot g sh F m st R = .ok c := by
  unfold selectRoot at h ⊢
  simp only [bind, Except.bind] at h ⊢
  cases h1 : F R with
  | error e => rw [h1] at h; simp at h
  | ok r =>
    rw [h1] at h
    simp only at h ⊢
    cases h2 : orPanic (r.factors.mapM fun f => f.1.primitiveSturmSequence Poly.intGcd) with
    | error e => rw [h2] at h; simp at h
    | ok l =>
      rw [h2] at h
      exact selectLoop_mono g sh n st l c h m hm

theorem RealAlg.mul_mono (F : FactorCall) (a b c : RealAlg) (n : ℕ) (h : a.mul F n b = .ok c) (m : ℕ)
    (hm : n ≤ m) : a.mul F m b = .ok c := by
  unfold RealAlg.mul at h ⊢
  simp only [bind, Except.bind] at h ⊢
  cases h1 : a.toRational with
  | error e => rw [h1] at h; simp at h
  | ok x =>
    rw [h1] at h
    simp only at h ⊢
    cases h2 : b.toRational with
    | error e => rw [h2] at h; simp at h
    | ok y =>
      rw [h2] at h
      simp only at h ⊢
      rcases x with _ | x <;> rcases y with _ | y
      on_goal 4 => exact h
      all_goals
        simp only at h ⊢
        by_cases e1 : (a.isZero || b.isZero) = true
        · rw [if_pos e1] at h ⊢; exact h
        rw [if_neg e1] at h ⊢
        by_cases e2 : b.isOne = true
        · rw [if_pos e2] at h ⊢; exact h
        rw [if_neg e2] at h ⊢
        by_cases e3 : a.isOne = true
        · rw [if_pos e3] at h ⊢; exact h
        rw [if_neg e3] at h ⊢
        cases h3 : orPanic (mulResultant a.poly b.poly) with
        | error e => rw [h3] at h; simp at h
        | ok R =>
          rw [h3] at h
          simp only at h ⊢
          cases h4 : a.intervalShrinker with
          | error e => rw [h4] at h; simp at h
          | ok s =>
            rw [h4] at h
            simp only at h ⊢
            cases h5 : b.intervalShrinker with
            | error e => rw [h5] at h; simp at h
            | ok t =>
              rw [h5] at h
              exact selectRoot_mono _ _ F n _ R c h m hm

theorem RealAlg.div_mono (F : FactorCall) (a b c : RealAlg) (n : ℕ) (h : a.div F n b = .ok c) (m : ℕ)
    (hm : n ≤ m) : a.div F m b = .ok c := by
  unfold RealAlg.div checkedExactDiv at h ⊢
  simp only [bind, Except.bind] at h ⊢
  cases h1 : b.checkedRecip n with
  | error e => rw [h1] at h; simp at h
  | ok r =>
    rw [h1] at h
    rw [checkedRecip_mono b n r h1 m hm]
    cases r with
    | none => exact h
    | some r =>
      simp only at h ⊢
      cases h2 : a.mul F n r with
      | error e => rw [h2] at h; simp at h
      | ok v =>
        rw [h2] at h
        rw [mul_mono F a r v n h2 m hm]
        exact h

/-- C58: the remainder of a division by a rational number other than zero ends without panic and is
exactly `x - q * trunc(x / q)`; it is smaller than `q` in absolute value and does not have the sign
opposite to `x`. -/
theorem C58_rem_rational (F : FactorCall) (a b : RealAlg) (x : ℝ) (q : ℚ) (ha : a.Represents x)
    (hb : b.Represents q) (hq : q ≠ 0)
    (hF : ∀ R, mulResultant a.poly (ofRat q⁻¹).poly = some R → R.toPoly ≠ 0 → FactorsRight F R)
    (hF' : ∀ n R, (ofRat (truncate (x / q) * q)).neg = .ok n → addResultant a.poly n.poly = some R →
      FactorsRight F R) :
    |x - truncate (x / q) * q| < |(q : ℝ)| ∧ 0 ≤ (x - truncate (x / q) * q) * x ∧
    ∃ N, ∀ fuel ≥ N, ∃ c, a.rem F fuel b = .ok c ∧ c.Represents (x - truncate (x / q) * q) := by
  have hq' : (q : ℝ) ≠ 0 := by exact_mod_cast hq
  have hsplit : x - truncate (x / q) * q = (x / q - truncate (x / q)) * q := by
    field_simp
  have hfrac : |x / q - truncate (x / q)| < 1 ∧ 0 ≤ (x / q - truncate (x / q)) * (x / q) := by
    unfold truncate
    by_cases h0 : 0 ≤ x / q
    · rw [if_pos h0]
      have e1 := Int.floor_le (x / q)
      have e2 := Int.lt_floor_add_one (x / q)
      refine ⟨by rw [abs_lt]; constructor <;> linarith, mul_nonneg (by linarith) h0⟩
    · rw [if_neg h0]
      have e1 := Int.le_ceil (x / q)
      have e2 := Int.ceil_lt_add_one (x / q)
      refine ⟨by rw [abs_lt]; constructor <;> linarith, ?_⟩
      exact mul_nonneg_of_nonpos_of_nonpos (by linarith) (by linarith)
  refine ⟨?_, ?_, ?_⟩
  · rw [hsplit, abs_mul]
    calc _ < 1 * |(q : ℝ)| := by
          exact mul_lt_mul_of_pos_right hfrac.1 (abs_pos.mpr hq')
      _ = _ := one_mul _
  · have e : (x - truncate (x / q) * q) * x = (x / q - truncate (x / q)) * (x / q) * (q : ℝ) ^ 2 := by
      rw [hsplit]; field_simp
    rw [e]
    exact mul_nonneg hfrac.2 (sq_nonneg _)
  obtain ⟨N1, hN1⟩ := C45_div_rational F a b x q ha hb hq hF
  obtain ⟨d, -, h1, h2⟩ := hN1 N1 le_rfl
  obtain ⟨N2, hN2⟩ := h2.integerTrunc
  have hm : ∀ fuel, (ofInt (truncate (x / q))).mul F fuel b = .ok (ofRat (truncate (x / q) * q)) := by
    intro fuel
    have e := ofInt_represents (truncate (x / q))
    have e' : (ofInt (truncate (x / q))).Represents (((truncate (x / q) : ℤ) : ℚ) : ℝ) := by
      rwa [Rat.cast_intCast]
    unfold RealAlg.mul
    rw [e'.toRational_rat, hb.toRational_rat]
    rfl
  obtain ⟨N3, hN3⟩ := C44_sub_rational F a (ofRat (truncate (x / q) * q)) x _ ha (ofRat_represents _)
    (Or.inr (not_not.mpr ⟨_, rfl⟩)) hF'
  refine ⟨max N1 (max N2 N3), fun fuel hf => ?_⟩
  obtain ⟨c, h3, h4⟩ := hN3 fuel (by omega)
  refine ⟨c, ?_, by push_cast at h4; exact h4⟩
  unfold RealAlg.rem RealAlg.trunc
  rw [div_mono F a b d N1 h1 fuel (by omega)]
  simp only [bind, Except.bind, pure, Except.pure]
  rw [hN2 fuel (by omega)]
  simp only
  rw [show (if 0 ≤ x / (q : ℝ) then ⌊x / (q : ℝ)⌋ else ⌈x / (q : ℝ)⌉) = truncate (x / q) from rfl, hm]
  exact h3

/-- C58: the remainder of a division by zero panics. -/
theorem C58_rem_zero (F : FactorCall) (a b : RealAlg) (hb : b.Represents 0) (fuel : ℕ) :
    a.rem F fuel b = .error .panic := by
  unfold RealAlg.rem
  rw [(C45_div_zero F a b hb fuel).2]
  rfl

/-- C58: `abs_sub` is the difference, or zero where that is negative, when one of the numbers is
rational. -/
theorem C58_abs_sub_rational (F : FactorCall) (a b : RealAlg) (x y : ℝ) (ha : a.Represents x)
    (hb : b.Represents y) (hr : ¬ Irrational x ∨ ¬ Irrational y)
    (hF : ∀ n R, b.neg = .ok n → addResultant a.poly n.poly = some R → FactorsRight F R) :
    ∃ N, ∀ fuel ≥ N, ∃ c, a.absSub F fuel b = .ok c ∧ c.Represents (max (x - y) 0) := by
  classical
  obtain ⟨N, hN⟩ := C44_sub_rational F a b x y ha hb hr hF
  refine ⟨N, fun fuel hf => ?_⟩
  obtain ⟨c, h1, h2⟩ := hN fuel hf
  have h3 := h2.isNegative_eq
  by_cases h0 : x - y < 0
  · refine ⟨zero, ?_, ?_⟩
    · unfold RealAlg.absSub
      rw [h1]
      simp [bind, Except.bind, pure, Except.pure, h3, h0]
    · rw [max_eq_right h0.le]
      have := ofInt_represents 0
      rwa [Int.cast_zero] at this
  · refine ⟨c, ?_, ?_⟩
    · unfold RealAlg.absSub
      rw [h1]
      simp [bind, Except.bind, pure, Except.pure, h3, h0]
    · rwa [max_eq_left (not_lt.mp h0)]

end Algebraics
