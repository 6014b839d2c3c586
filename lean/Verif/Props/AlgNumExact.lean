import Verif.Lemmas.AlgNumDegree
import Verif.Lemmas.FactorRuns2
import Verif.Props.AlgNumFalse

/-!
Properties C43, C44, C45, C46 and C58, continued: arithmetic and comparison of algebraic numbers
(`/repo/src/algebraic_numbers.rs`) is exact

* for two numbers that are not related by a rational sum (or product) of their conjugates,
* in particular for numbers of different degrees,
* and, with the code's own `factor` and no condition on leading coefficients, for numbers whose degrees
  have no common factor; in particular whenever one of the two is rational.
-/

namespace Algebraics

open Polynomial

namespace RealAlg

variable {a b : RealAlg} {x y : ℝ}

/-- the code's own `factor` is right on every polynomial whose complex roots are all conjugates, whatever
its leading coefficient, whenever it returns. -/
theorem factorCall_right_conjugates (choose : ℕ → List ℕ → ℕ) (hc : Poly.HeapOrder choose) (rng : ℕ → ℕ)
    (fuel : ℕ) (R : Poly ℤ) (hR : ∀ z w : ℂ, aeval z R.toPoly = 0 → aeval w R.toPoly = 0 →
      minpoly ℚ z = minpoly ℚ w)
    (hret : ∃ r, factorCall choose rng fuel R = .ok r) : FactorsRight (factorCall choose rng fuel) R := by
  obtain ⟨r, hr⟩ := hret
  refine ⟨r, hr, ?_⟩
  unfold factorCall at hr
  cases hfac : Poly.factor choose rng fuel 0 R with
  | error e => rw [hfac] at hr; simp [Except.map] at hr
  | ok v =>
    obtain ⟨r', pos'⟩ := v
    rw [hfac] at hr
    simp only [Except.map, Except.ok.injEq] at hr
    subst hr
    obtain ⟨h1, h2⟩ := C26_multiplies_back choose hc rng fuel 0 R r' pos' hfac
    obtain ⟨h3, h4⟩ := C57_factors_distinct choose hc rng fuel 0 R r' pos' hfac
    refine ⟨h1, fun e he => ?_, fun e he => (h2 e he).2.1, fun e he => (h2 e he).2.2.2, h3⟩
    refine irreducible_of_conjugates R.toPoly e.1.toPoly hR ?_ (h2 e he).1 (h2 e he).2.2.1 (h4 e he)
    rw [← h1]
    refine Dvd.dvd.mul_left ?_ _
    have hmem : e.1.toPoly ^ e.2 ∈ r'.factors.map fun e => e.1.toPoly ^ e.2 :=
      List.mem_map.mpr ⟨e, he, rfl⟩
    exact (dvd_pow_self _ (h2 e he).2.2.2.ne').trans (List.dvd_prod hmem)

theorem minpoly_eq_of_transfer {z w : ℂ} (hz : IsIntegral ℚ z)
    (h1 : aeval w (minpoly ℚ z) = 0) : minpoly ℚ z = minpoly ℚ w :=
  minpoly.eq_of_irreducible_of_monic (minpoly.irreducible hz) h1 (minpoly.monic hz)

theorem add_right_coprime (choose : ℕ → List ℕ → ℕ) (hc : Poly.HeapOrder choose) (rng : ℕ → ℕ)
    (ffuel : ℕ) (ha : a.Represents x) (hb : b.Represents y)
    (hd : a.poly.toPoly.natDegree.Coprime b.poly.toPoly.natDegree) (R : Poly ℤ)
    (hR : addResultant a.poly b.poly = some R) (hret : ∃ r, factorCall choose rng ffuel R = .ok r) :
    FactorsRight (factorCall choose rng ffuel) R := by
  have hR0 := addResultant_ne_zero _ _ R ha.ne_zero hb.ne_zero hR
  refine factorCall_right_conjugates choose hc rng ffuel R (fun z w hz hw => ?_) hret
  have iz := integral_root hR0 hz
  obtain ⟨x1, y1, h1, h2, rfl⟩ := (addResultant_root _ _ R ha.ne_zero hb.ne_zero hR z).mp hz
  obtain ⟨x2, y2, h3, h4, rfl⟩ := (addResultant_root _ _ R ha.ne_zero hb.ne_zero hR w).mp hw
  exact minpoly_eq_of_transfer iz (sums_conjugate ha.irreducible hb.irreducible ha.natDegree_pos
    hb.natDegree_pos hd h1 h2 h3 h4 _ (minpoly.aeval _ _))

theorem mul_right_coprime (choose : ℕ → List ℕ → ℕ) (hc : Poly.HeapOrder choose) (rng : ℕ → ℕ)
    (ffuel : ℕ) (ha : a.Represents x) (hb : b.Represents y) (hx : x ≠ 0) (hy : y ≠ 0)
    (hd : a.poly.toPoly.natDegree.Coprime b.poly.toPoly.natDegree) (R : Poly ℤ)
    (hR : mulResultant a.poly b.poly = some R) (hret : ∃ r, factorCall choose rng ffuel R = .ok r) :
    FactorsRight (factorCall choose rng ffuel) R := by
  have ca := ha.coeff_zero_ne hx
  have cb := hb.coeff_zero_ne hy
  have hR0 := mulResultant_ne_zero _ _ R ca cb hR
  refine factorCall_right_conjugates choose hc rng ffuel R (fun z w hz hw => ?_) hret
  have iz := integral_root hR0 hz
  obtain ⟨x1, y1, h1, h2, rfl⟩ := (mulResultant_root _ _ R ca cb hR z).mp hz
  obtain ⟨x2, y2, h3, h4, rfl⟩ := (mulResultant_root _ _ R ca cb hR w).mp hw
  exact minpoly_eq_of_transfer iz (products_conjugate ha.irreducible hb.irreducible ha.natDegree_pos
    hb.natDegree_pos hd h1 h2 h3 h4 _ (minpoly.aeval _ _))

theorem neg_natDegree (h : b.Represents y) {n : RealAlg} (hn : b.neg = .ok n) :
    n.poly.toPoly.natDegree = b.poly.toPoly.natDegree := by
  obtain ⟨n', h1, -, h3, -⟩ := h.neg
  rw [hn] at h1
  cases h1
  rw [h3]
  have hu : IsUnit ((-1 : ℤ) ^ b.poly.toPoly.natDegree) := (isUnit_one.neg).pow _
  rw [natDegree_C_mul hu.ne_zero, natDegree_comp, natDegree_neg, natDegree_X, mul_one]

theorem rat_of_degree_one (h : a.Represents x) (hd : a.poly.toPoly.natDegree = 1) : ¬ Irrational x := by
  rcases h.rat_or_irr with ⟨q, h1, -⟩ | ⟨h1, -⟩
  · exact not_not.mpr ⟨q, h1⟩
  · omega

theorem degree_one_of_rat (h : a.Represents x) (hr : ¬ Irrational x) : a.poly.toPoly.natDegree = 1 := by
  rcases h.rat_or_irr with ⟨q, -, h1, -⟩ | ⟨-, h1⟩
  · exact h1
  · exact absurd h1 hr

theorem coprime_of_rat (ha : a.Represents x) (hb : b.Represents y) (hr : ¬ Irrational x ∨ ¬ Irrational y) :
    a.poly.toPoly.natDegree.Coprime b.poly.toPoly.natDegree := by
  rcases hr with h | h
  · rw [degree_one_of_rat ha h]; exact Nat.coprime_one_left _
  · rw [degree_one_of_rat hb h]; exact Nat.coprime_one_right _

/-! ### operands for the examples -/

theorem sqrtTwo_degree : sqrtTwo.poly.toPoly.natDegree = 2 := by
  rw [show sqrtTwo.poly.toPoly = _ from toPoly_quadratic 0 (-2), quadratic_natDegree]

theorem ofInt_degree (n : ℤ) : (ofInt n).poly.toPoly.natDegree = 1 :=
  degree_one_of_rat (ofInt_represents n) (not_not.mpr ⟨n, by simp⟩)

theorem shift_returns (choose : ℕ → List ℕ → ℕ) (hc : Poly.HeapOrder choose) (rng : ℕ → ℕ) (ffuel : ℕ)
    (R : Poly ℤ) (hR : addResultant sqrtTwo.poly (ofInt 1).poly = some R) :
    ∃ r, factorCall choose rng ffuel R = .ok r := by
  rw [show addResultant sqrtTwo.poly (ofInt 1).poly = some ShiftRun.quad by decide +kernel] at hR
  cases hR
  exact ⟨_, by unfold factorCall; rw [ShiftRun.factor_eq choose hc]; rfl⟩

theorem double_returns (choose : ℕ → List ℕ → ℕ) (hc : Poly.HeapOrder choose) (rng : ℕ → ℕ) (ffuel : ℕ)
    (R : Poly ℤ) (hR : mulResultant sqrtTwo.poly (ofInt 2).poly = some R) :
    ∃ r, factorCall choose rng ffuel R = .ok r := by
  rw [show mulResultant sqrtTwo.poly (ofInt 2).poly = some SumRun.quad by decide +kernel] at hR
  cases hR
  exact ⟨_, by unfold factorCall; rw [SumRun.factor_quad choose hc]; rfl⟩

theorem fract_returns (choose : ℕ → List ℕ → ℕ) (hc : Poly.HeapOrder choose) (rng : ℕ → ℕ) (ffuel : ℕ)
    (n : RealAlg) (R : Poly ℤ) (hn : (ofInt 1).neg = .ok n)
    (hR : addResultant sqrtTwo.poly n.poly = some R) : ∃ r, factorCall choose rng ffuel R = .ok r := by
  rw [show (ofInt 1).neg = .ok (ofInt (-1)) from rfl] at hn
  cases hn
  rw [show addResultant sqrtTwo.poly (ofInt (-1)).poly = some FractRun.quad by decide +kernel] at hR
  cases hR
  exact ⟨_, by unfold factorCall; rw [FractRun.factor_eq choose hc]; rfl⟩

theorem sqrtTwo_coprime (n : ℤ) :
    sqrtTwo.poly.toPoly.natDegree.Coprime (ofInt n).poly.toPoly.natDegree := by
  rw [ofInt_degree]; exact Nat.coprime_one_right _

end RealAlg

open RealAlg

/-! ## C44 -/

/-- C44, in part: addition is exact unless the polynomial of `y` has a root `q - x` with `q` a rational
number other than `x + y`; that is, unless a conjugate of `y` differs from `-x` by a rational number. -/
theorem C44_add_unrelated_partial (F : FactorCall) (a b : RealAlg) (x y : ℝ) (ha : a.Represents x)
    (hb : b.Represents y) (hF : ∀ R, addResultant a.poly b.poly = some R → FactorsRight F R)
    (hq : ∀ q : ℚ, aeval ((q : ℝ) - x) b.poly.toPoly = 0 → (q : ℝ) = x + y) :
    ∃ N, ∀ fuel ≥ N, ∃ c, a.add F fuel b = .ok c ∧ c.Represents (x + y) := by
  refine C44_add_exact_partial F a b x y ha hb hF fun q x' y' _ h1 h2 h3 => hq q ?_
  rw [← aeval_realCast]
  push_cast
  exact sum_rat_transfer ha.irreducible ha.natDegree_pos h1 h2 ((aeval_realCast _ _).mpr ha.root) h3

/-- `√2 + 1` -/
example (rng : ℕ → ℕ) : ∃ N, ∀ fuel ≥ N, ∃ c,
    sqrtTwo.add (factorCall firstSmallest rng 0) fuel (ofInt 1) = .ok c ∧
      c.Represents (√2 + ((1 : ℤ) : ℝ)) :=
  C44_add_unrelated_partial _ sqrtTwo (ofInt 1) _ _ sqrtTwo_represents (ofInt_represents 1)
    (fun R hR => add_right_coprime firstSmallest firstSmallest_order rng 0 sqrtTwo_represents
      (ofInt_represents 1) (sqrtTwo_coprime 1) R hR (shift_returns _ firstSmallest_order rng 0 R hR))
    (fun q h => by
      rw [show (ofInt 1).poly.toPoly = _ from toPoly_linear (-1) 1] at h
      simp at h
      push_cast
      linarith)

/-- C44, in part: addition of numbers of different degrees is exact. -/
theorem C44_add_degrees_partial (F : FactorCall) (a b : RealAlg) (x y : ℝ) (ha : a.Represents x)
    (hb : b.Represents y) (hF : ∀ R, addResultant a.poly b.poly = some R → FactorsRight F R)
    (hd : a.poly.toPoly.natDegree ≠ b.poly.toPoly.natDegree) :
    ∃ N, ∀ fuel ≥ N, ∃ c, a.add F fuel b = .ok c ∧ c.Represents (x + y) := by
  refine C44_add_unrelated_partial F a b x y ha hb hF fun q h => absurd ?_ hd
  rw [← aeval_realCast] at h
  push_cast at h
  exact degree_of_rat_sub ha.irreducible hb.irreducible ha.natDegree_pos hb.natDegree_pos
    ((aeval_realCast _ _).mpr ha.root) h

/-- `√2` has degree 2 and `1` has degree 1 -/
example (rng : ℕ → ℕ) : ∃ N, ∀ fuel ≥ N, ∃ c,
    sqrtTwo.add (factorCall firstSmallest rng 0) fuel (ofInt 1) = .ok c ∧
      c.Represents (√2 + ((1 : ℤ) : ℝ)) :=
  C44_add_degrees_partial _ sqrtTwo (ofInt 1) _ _ sqrtTwo_represents (ofInt_represents 1)
    (fun R hR => add_right_coprime firstSmallest firstSmallest_order rng 0 sqrtTwo_represents
      (ofInt_represents 1) (sqrtTwo_coprime 1) R hR (shift_returns _ firstSmallest_order rng 0 R hR))
    (by rw [sqrtTwo_degree, ofInt_degree]; norm_num)

/-- C44, in part: when `x + y` is rational, addition returns exactly that rational number. -/
theorem C44_add_rational_sum_partial (F : FactorCall) (a b : RealAlg) (x y : ℝ) (ha : a.Represents x)
    (hb : b.Represents y) (hF : ∀ R, addResultant a.poly b.poly = some R → FactorsRight F R)
    (hr : ¬ Irrational (x + y)) :
    ∃ N, ∀ fuel ≥ N, ∃ c, a.add F fuel b = .ok c ∧ c.Represents (x + y) := by
  obtain ⟨r, hr⟩ := not_not.mp hr
  refine C44_add_unrelated_partial F a b x y ha hb hF fun q h => ?_
  rw [← aeval_realCast] at h
  push_cast at h
  have hy := (aeval_realCast _ _).mpr hb.root
  have h0 : q - r = 0 := conj_sub_rat hb.irreducible hb.irreducible hb.natDegree_pos hb.natDegree_pos hy hy
    h hy (r := q - r) (by
      have : (y : ℂ) = r - x := by
        rw [eq_sub_iff_add_eq, add_comm]
        exact_mod_cast hr.symm
      rw [this]
      push_cast
      ring)
  rw [← hr, sub_eq_zero.mp h0]

/-- `√2 + (-√2) = 0` -/
example (rng : ℕ → ℕ) : ∃ n, sqrtTwo.neg = .ok n ∧ ∃ N, ∀ fuel ≥ N, ∃ c,
    sqrtTwo.add (factorCall firstSmallest rng 0) fuel n = .ok c ∧ c.Represents 0 := by
  obtain ⟨n, h1, h2, -⟩ := sqrtTwo_represents.neg
  have hn : n = ⟨Poly.ofCoeffs [-2, 0, 1], ⟨-2, -1, 0⟩⟩ := by
    rw [show sqrtTwo.neg = .ok ⟨Poly.ofCoeffs [-2, 0, 1], ⟨-2, -1, 0⟩⟩ from rfl] at h1
    cases h1
    rfl
  refine ⟨n, h1, ?_⟩
  have := C44_add_rational_sum_partial (factorCall firstSmallest rng 0) sqrtTwo n _ _ sqrtTwo_represents h2
    (fun R hR => by
      rw [hn, show addResultant sqrtTwo.poly (Poly.ofCoeffs [-2, 0, 1]) = some sumRes by decide +kernel]
        at hR
      cases hR
      exact sumRes_right _ firstSmallest_order rng 0)
    (by rw [add_neg_cancel]; exact not_not.mpr ⟨0, by simp⟩)
  simpa using this

/-- C44, in part: subtraction is exact unless the polynomial of `y` has a root `x - q` with `q` a rational
number other than `x - y`. -/
theorem C44_sub_unrelated_partial (F : FactorCall) (a b : RealAlg) (x y : ℝ) (ha : a.Represents x)
    (hb : b.Represents y)
    (hF : ∀ n R, b.neg = .ok n → addResultant a.poly n.poly = some R → FactorsRight F R)
    (hq : ∀ q : ℚ, aeval (x - (q : ℝ)) b.poly.toPoly = 0 → (q : ℝ) = x - y) :
    ∃ N, ∀ fuel ≥ N, ∃ c, a.sub F fuel b = .ok c ∧ c.Represents (x - y) := by
  obtain ⟨n, h1, h2, -⟩ := hb.neg
  obtain ⟨N, hN⟩ := C44_add_unrelated_partial F a n x (-y) ha h2 (fun R => hF n R h1) (by
    intro q h
    rw [← sub_eq_add_neg]
    apply hq
    rw [← aeval_realCast, neg_croot hb h1] at h
    rw [← aeval_realCast]
    rw [← h]
    push_cast
    rw [neg_sub])
  refine ⟨N, fun fuel hf => ?_⟩
  obtain ⟨c, h3, h4⟩ := hN fuel hf
  refine ⟨c, ?_, by rw [sub_eq_add_neg]; exact h4⟩
  unfold RealAlg.sub
  rw [h1]
  exact h3

/-- C44, in part: subtraction of numbers of different degrees is exact. -/
theorem C44_sub_degrees_partial (F : FactorCall) (a b : RealAlg) (x y : ℝ) (ha : a.Represents x)
    (hb : b.Represents y)
    (hF : ∀ n R, b.neg = .ok n → addResultant a.poly n.poly = some R → FactorsRight F R)
    (hd : a.poly.toPoly.natDegree ≠ b.poly.toPoly.natDegree) :
    ∃ N, ∀ fuel ≥ N, ∃ c, a.sub F fuel b = .ok c ∧ c.Represents (x - y) := by
  obtain ⟨n, h1, h2, -⟩ := hb.neg
  obtain ⟨N, hN⟩ := C44_add_degrees_partial F a n x (-y) ha h2 (fun R => hF n R h1)
    (by rwa [neg_natDegree hb h1])
  refine ⟨N, fun fuel hf => ?_⟩
  obtain ⟨c, h3, h4⟩ := hN fuel hf
  refine ⟨c, ?_, by rw [sub_eq_add_neg]; exact h4⟩
  unfold RealAlg.sub
  rw [h1]
  exact h3

/-- C44, in part: when `x - y` is rational, subtraction returns exactly that rational number. -/
theorem C44_sub_rational_difference_partial (F : FactorCall) (a b : RealAlg) (x y : ℝ)
    (ha : a.Represents x) (hb : b.Represents y)
    (hF : ∀ n R, b.neg = .ok n → addResultant a.poly n.poly = some R → FactorsRight F R)
    (hr : ¬ Irrational (x - y)) :
    ∃ N, ∀ fuel ≥ N, ∃ c, a.sub F fuel b = .ok c ∧ c.Represents (x - y) := by
  obtain ⟨n, h1, h2, -⟩ := hb.neg
  obtain ⟨N, hN⟩ := C44_add_rational_sum_partial F a n x (-y) ha h2 (fun R => hF n R h1)
    (by rwa [← sub_eq_add_neg])
  refine ⟨N, fun fuel hf => ?_⟩
  obtain ⟨c, h3, h4⟩ := hN fuel hf
  refine ⟨c, ?_, by rw [sub_eq_add_neg]; exact h4⟩
  unfold RealAlg.sub
  rw [h1]
  exact h3

/-- C44, in part, with the code's own `factor` and no condition on leading coefficients: numbers whose
degrees have no common factor, in particular a rational number and any other number, are added exactly
whenever `factor` returns on the resultant. -/
theorem C44_add_coprime_partial (choose : ℕ → List ℕ → ℕ) (hc : Poly.HeapOrder choose) (rng : ℕ → ℕ)
    (ffuel : ℕ) (a b : RealAlg) (x y : ℝ) (ha : a.Represents x) (hb : b.Represents y)
    (hd : a.poly.toPoly.natDegree.Coprime b.poly.toPoly.natDegree)
    (hret : ∀ R, addResultant a.poly b.poly = some R → ∃ r, factorCall choose rng ffuel R = .ok r) :
    ∃ N, ∀ fuel ≥ N, ∃ c, a.add (factorCall choose rng ffuel) fuel b = .ok c ∧ c.Represents (x + y) := by
  have hF : ∀ R, addResultant a.poly b.poly = some R → FactorsRight (factorCall choose rng ffuel) R :=
    fun R hR => add_right_coprime choose hc rng ffuel ha hb hd R hR (hret R hR)
  by_cases h : a.poly.toPoly.natDegree = b.poly.toPoly.natDegree
  · rw [← h, Nat.coprime_self] at hd
    exact C44_add_rational _ a b x y ha hb (Or.inl (rat_of_degree_one ha hd)) hF
  · exact C44_add_degrees_partial _ a b x y ha hb hF h

/-- C44, in part: the same for subtraction. -/
theorem C44_sub_coprime_partial (choose : ℕ → List ℕ → ℕ) (hc : Poly.HeapOrder choose) (rng : ℕ → ℕ)
    (ffuel : ℕ) (a b : RealAlg) (x y : ℝ) (ha : a.Represents x) (hb : b.Represents y)
    (hd : a.poly.toPoly.natDegree.Coprime b.poly.toPoly.natDegree)
    (hret : ∀ n R, b.neg = .ok n → addResultant a.poly n.poly = some R →
      ∃ r, factorCall choose rng ffuel R = .ok r) :
    ∃ N, ∀ fuel ≥ N, ∃ c, a.sub (factorCall choose rng ffuel) fuel b = .ok c ∧ c.Represents (x - y) := by
  obtain ⟨n, h1, h2, -⟩ := hb.neg
  obtain ⟨N, hN⟩ := C44_add_coprime_partial choose hc rng ffuel a n x (-y) ha h2
    (by rwa [neg_natDegree hb h1]) (fun R => hret n R h1)
  refine ⟨N, fun fuel hf => ?_⟩
  obtain ⟨c, h3, h4⟩ := hN fuel hf
  refine ⟨c, ?_, by rw [sub_eq_add_neg]; exact h4⟩
  unfold RealAlg.sub
  rw [h1]
  exact h3

/-- `√2 + 1`, and `√2 - (-1)`, for every stream of random numbers -/
example (rng : ℕ → ℕ) : (∃ N, ∀ fuel ≥ N, ∃ c,
    sqrtTwo.add (factorCall firstSmallest rng 0) fuel (ofInt 1) = .ok c ∧
      c.Represents (√2 + ((1 : ℤ) : ℝ))) ∧ ∃ N, ∀ fuel ≥ N, ∃ c,
    sqrtTwo.sub (factorCall firstSmallest rng 0) fuel (ofInt (-1)) = .ok c ∧
      c.Represents (√2 - ((-1 : ℤ) : ℝ)) :=
  ⟨C44_add_coprime_partial firstSmallest firstSmallest_order rng 0 sqrtTwo (ofInt 1) _ _
    sqrtTwo_represents (ofInt_represents 1) (sqrtTwo_coprime 1)
    (fun R hR => shift_returns _ firstSmallest_order rng 0 R hR),
  C44_sub_coprime_partial firstSmallest firstSmallest_order rng 0 sqrtTwo (ofInt (-1)) _ _
    sqrtTwo_represents (ofInt_represents (-1)) (sqrtTwo_coprime (-1)) (fun n R hn hR => by
      rw [show (ofInt (-1)).neg = .ok (ofInt 1) from rfl] at hn
      cases hn
      exact shift_returns _ firstSmallest_order rng 0 R hR)⟩

/-! ## C45 -/

/-- C45: a product with zero is zero, for every fuel and without factoring. -/
theorem C45_mul_zero (F : FactorCall) (a b : RealAlg) (x y : ℝ) (ha : a.Represents x)
    (hb : b.Represents y) (h0 : x = 0 ∨ y = 0) (fuel : ℕ) :
    ∃ c, a.mul F fuel b = .ok c ∧ c.Represents 0 := by
  have hz : (a.isZero || b.isZero) = true := by
    rw [Bool.or_eq_true, ha.isZero_iff, hb.isZero_iff]; exact h0
  have hzero : zero.Represents 0 := by
    have := ofInt_represents 0
    rwa [Int.cast_zero] at this
  have key : ∀ p q : ℚ, a.Represents p → b.Represents q → p * q = 0 →
      ∃ c, a.mul F fuel b = .ok c ∧ c.Represents 0 := by
    intro p q hp hq hpq
    refine ⟨ofRat (p * q), ?_, ?_⟩
    · unfold RealAlg.mul
      rw [hp.toRational_rat, hq.toRational_rat]
      rfl
    · have := ofRat_represents (p * q)
      rw [hpq] at this ⊢
      rwa [Rat.cast_zero] at this
  by_cases hx : Irrational x
  · refine ⟨zero, ?_, hzero⟩
    unfold RealAlg.mul
    rw [ha.toRational_irr hx]
    simp only [bind, Except.bind]
    by_cases hy : Irrational y
    · rw [hb.toRational_irr hy]
      simp only
      rw [if_pos hz]
      rfl
    · obtain ⟨q, rfl⟩ := not_not.mp hy
      rw [hb.toRational_rat]
      simp only
      rw [if_pos hz]
      rfl
  · obtain ⟨p, rfl⟩ := not_not.mp hx
    by_cases hy : Irrational y
    · refine ⟨zero, ?_, hzero⟩
      unfold RealAlg.mul
      rw [ha.toRational_rat, hb.toRational_irr hy]
      simp only [bind, Except.bind]
      rw [if_pos hz]
      rfl
    · obtain ⟨q, rfl⟩ := not_not.mp hy
      refine key p q ha hb ?_
      rcases h0 with h | h
      · rw [show p = 0 by exact_mod_cast h, zero_mul]
      · rw [show q = 0 by exact_mod_cast h, mul_zero]

/-- C45, in part: multiplication is exact unless the polynomial of `y` has a root `q / x` with `q` a
rational number other than `x * y`. -/
theorem C45_mul_unrelated_partial (F : FactorCall) (a b : RealAlg) (x y : ℝ) (ha : a.Represents x)
    (hb : b.Represents y)
    (hF : ∀ R, mulResultant a.poly b.poly = some R → R.toPoly ≠ 0 → FactorsRight F R)
    (hq : ∀ q : ℚ, aeval ((q : ℝ) / x) b.poly.toPoly = 0 → (q : ℝ) = x * y) :
    ∃ N, ∀ fuel ≥ N, ∃ c, a.mul F fuel b = .ok c ∧ c.Represents (x * y) := by
  by_cases hx : x = 0
  · exact C45_mul_rational F a b x y ha hb (Or.inl (by rw [hx]; exact not_not.mpr ⟨0, by simp⟩)) hF
  refine C45_mul_exact_partial F a b x y ha hb hF fun q x' y' _ h1 h2 h3 => hq q ?_
  rw [← aeval_realCast]
  push_cast
  exact prod_rat_transfer ha.irreducible ha.natDegree_pos h1 h2 ((aeval_realCast _ _).mpr ha.root)
    (root_ne_zero (ha.coeff_zero_ne hx) h1) h3

/-- C45, in part: multiplication of numbers of different degrees is exact. -/
theorem C45_mul_degrees_partial (F : FactorCall) (a b : RealAlg) (x y : ℝ) (ha : a.Represents x)
    (hb : b.Represents y)
    (hF : ∀ R, mulResultant a.poly b.poly = some R → R.toPoly ≠ 0 → FactorsRight F R)
    (hd : a.poly.toPoly.natDegree ≠ b.poly.toPoly.natDegree) :
    ∃ N, ∀ fuel ≥ N, ∃ c, a.mul F fuel b = .ok c ∧ c.Represents (x * y) := by
  refine C45_mul_unrelated_partial F a b x y ha hb hF fun q h => ?_
  by_cases hq : q = 0
  · subst hq
    rw [Rat.cast_zero, zero_div] at h
    by_cases hy : y = 0
    · rw [hy]; simp
    · exfalso
      have hb0 := hb.coeff_zero_ne hy
      have h' := (aeval_realCast 0 _).mpr h
      rw [Complex.ofReal_zero] at h'
      exact root_ne_zero hb0 h' rfl
  · refine absurd ?_ hd
    rw [← aeval_realCast] at h
    push_cast at h
    exact degree_of_rat_div ha.irreducible hb.irreducible ha.natDegree_pos hb.natDegree_pos
      ((aeval_realCast _ _).mpr ha.root) hq h

/-- C45, in part, with the code's own `factor` and no condition on leading coefficients: numbers whose
degrees have no common factor, in particular a rational number and any other number, are multiplied
exactly whenever `factor` returns on the resultant. -/
theorem C45_mul_coprime_partial (choose : ℕ → List ℕ → ℕ) (hc : Poly.HeapOrder choose) (rng : ℕ → ℕ)
    (ffuel : ℕ) (a b : RealAlg) (x y : ℝ) (ha : a.Represents x) (hb : b.Represents y)
    (hd : a.poly.toPoly.natDegree.Coprime b.poly.toPoly.natDegree)
    (hret : ∀ R, mulResultant a.poly b.poly = some R → R.toPoly ≠ 0 →
      ∃ r, factorCall choose rng ffuel R = .ok r) :
    ∃ N, ∀ fuel ≥ N, ∃ c, a.mul (factorCall choose rng ffuel) fuel b = .ok c ∧ c.Represents (x * y) := by
  by_cases h0 : x = 0 ∨ y = 0
  · refine ⟨0, fun fuel _ => ?_⟩
    have : x * y = 0 := mul_eq_zero.mpr h0
    rw [this]
    exact C45_mul_zero _ a b x y ha hb h0 fuel
  · push Not at h0
    have hF : ∀ R, mulResultant a.poly b.poly = some R → R.toPoly ≠ 0 →
        FactorsRight (factorCall choose rng ffuel) R :=
      fun R hR hR0 => mul_right_coprime choose hc rng ffuel ha hb h0.1 h0.2 hd R hR (hret R hR hR0)
    by_cases h : a.poly.toPoly.natDegree = b.poly.toPoly.natDegree
    · rw [← h, Nat.coprime_self] at hd
      exact C45_mul_rational _ a b x y ha hb (Or.inl (rat_of_degree_one ha hd)) hF
    · exact C45_mul_degrees_partial _ a b x y ha hb hF h

/-- `√2 * 2` -/
example (rng : ℕ → ℕ) : ∃ N, ∀ fuel ≥ N, ∃ c,
    sqrtTwo.mul (factorCall firstSmallest rng 0) fuel (ofInt 2) = .ok c ∧
      c.Represents (√2 * ((2 : ℤ) : ℝ)) :=
  C45_mul_coprime_partial firstSmallest firstSmallest_order rng 0 sqrtTwo (ofInt 2) _ _
    sqrtTwo_represents (ofInt_represents 2) (sqrtTwo_coprime 2)
    (fun R hR _ => double_returns _ firstSmallest_order rng 0 R hR)

example (rng : ℕ → ℕ) : ∃ N, ∀ fuel ≥ N, ∃ c,
    sqrtTwo.mul (factorCall firstSmallest rng 0) fuel (ofInt 2) = .ok c ∧
      c.Represents (√2 * ((2 : ℤ) : ℝ)) :=
  C45_mul_unrelated_partial _ sqrtTwo (ofInt 2) _ _ sqrtTwo_represents (ofInt_represents 2)
    (fun R hR _ => mul_right_coprime firstSmallest firstSmallest_order rng 0 sqrtTwo_represents
      (ofInt_represents 2) (by positivity) (by norm_num) (sqrtTwo_coprime 2) R hR
      (double_returns _ firstSmallest_order rng 0 R hR))
    (fun q h => by
      rw [show (ofInt 2).poly.toPoly = _ from toPoly_linear (-2) 1] at h
      simp only [map_add, map_mul, aeval_C, aeval_X, algebraMap_int_eq, Int.coe_castRingHom] at h
      have h0 : (0 : ℝ) < √2 := by positivity
      push_cast at h ⊢
      field_simp at h
      linarith)

/-- C45, in part: division by a rational number other than zero, with the code's own `factor`, is exact
whenever `factor` returns on the resultant. -/
theorem C45_div_rational_own_factor_partial (choose : ℕ → List ℕ → ℕ) (hc : Poly.HeapOrder choose)
    (rng : ℕ → ℕ) (ffuel : ℕ) (a b : RealAlg) (x : ℝ) (q : ℚ) (ha : a.Represents x) (hb : b.Represents q)
    (hq : q ≠ 0) (hret : ∀ R, mulResultant a.poly (ofRat q⁻¹).poly = some R → R.toPoly ≠ 0 →
      ∃ r, factorCall choose rng ffuel R = .ok r) :
    ∃ N, ∀ fuel ≥ N, ∃ c, a.checkedExactDiv (factorCall choose rng ffuel) fuel b = .ok (some c) ∧
      a.div (factorCall choose rng ffuel) fuel b = .ok c ∧ c.Represents (x / q) := by
  obtain ⟨N, hN⟩ := C45_mul_coprime_partial choose hc rng ffuel a (ofRat q⁻¹) x _ ha (ofRat_represents _)
    (coprime_of_rat ha (ofRat_represents _) (Or.inr (not_not.mpr ⟨_, rfl⟩))) hret
  refine ⟨N, fun fuel hf => ?_⟩
  obtain ⟨c, h1, h2⟩ := hN fuel hf
  have h3 : b.checkedRecip fuel = .ok (some (ofRat q⁻¹)) := by
    rw [hb.checkedRecip_rat, if_neg hq]
  have h4 : a.checkedExactDiv (factorCall choose rng ffuel) fuel b = .ok (some c) := by
    unfold checkedExactDiv
    rw [h3]
    simp [bind, Except.bind, pure, Except.pure, h1]
  refine ⟨c, h4, ?_, ?_⟩
  · unfold RealAlg.div
    rw [h4]
    rfl
  · rw [div_eq_mul_inv]
    rwa [Rat.cast_inv] at h2

/-- `√2 / (1/2)` -/
example (rng : ℕ → ℕ) : ∃ N, ∀ fuel ≥ N, ∃ c,
    sqrtTwo.div (factorCall firstSmallest rng 0) fuel (ofRat (1 / 2)) = .ok c ∧
      c.Represents (√2 / ((1 / 2 : ℚ) : ℝ)) := by
  obtain ⟨N, hN⟩ := C45_div_rational_own_factor_partial firstSmallest firstSmallest_order rng 0 sqrtTwo
    (ofRat (1 / 2)) _ _ sqrtTwo_represents (ofRat_represents _) (by norm_num) (fun R hR _ => by
      rw [show (ofRat (1 / 2 : ℚ)⁻¹) = ofInt 2 by decide +kernel] at hR
      exact double_returns _ firstSmallest_order rng 0 R hR)
  exact ⟨N, fun fuel hf => by obtain ⟨c, -, h1, h2⟩ := hN fuel hf; exact ⟨c, h1, h2⟩⟩

/-- C45, in part: division by an irrational number `y` that is the only root of its sign of its
polynomial, with the code's own `factor` and no condition on leading coefficients, is exact when the
degrees of the two numbers have no common factor and `factor` returns on the resultant. -/
theorem C45_div_coprime_partial (choose : ℕ → List ℕ → ℕ) (hc : Poly.HeapOrder choose) (rng : ℕ → ℕ)
    (ffuel : ℕ) (a b : RealAlg) (x y : ℝ) (ha : a.Represents x) (hb : b.Represents y) (hy : Irrational y)
    (hs : ∀ z : ℝ, aeval z b.poly.toPoly = 0 → 0 < y * z → z = y)
    (hd : a.poly.toPoly.natDegree.Coprime b.poly.toPoly.natDegree)
    (hret : ∀ (fuel : ℕ) (r : RealAlg) R, b.checkedRecip fuel = .ok (some r) →
      mulResultant a.poly r.poly = some R → R.toPoly ≠ 0 → ∃ r, factorCall choose rng ffuel R = .ok r) :
    ∃ N, ∀ fuel ≥ N, ∃ c, a.checkedExactDiv (factorCall choose rng ffuel) fuel b = .ok (some c) ∧
      a.div (factorCall choose rng ffuel) fuel b = .ok c ∧ c.Represents (x / y) := by
  obtain ⟨M, hM⟩ := C40_recip_one_sign_partial b y hb hy hs
  obtain ⟨r, h1, h2⟩ := hM M le_rfl
  have hdeg : r.poly.toPoly.natDegree = b.poly.toPoly.natDegree := by
    have hr := (aeval_realCast _ _).mpr h2.root
    refine (degree_of_rat_div hb.irreducible h2.irreducible hb.natDegree_pos h2.natDegree_pos
      ((aeval_realCast _ _).mpr hb.root) one_ne_zero ?_).symm
    push_cast at hr ⊢
    rwa [one_div]
  obtain ⟨N, hN⟩ := C45_mul_coprime_partial choose hc rng ffuel a r x _ ha h2 (by rwa [hdeg])
    (fun R => hret M r R h1)
  refine ⟨max M N, fun fuel hf => ?_⟩
  obtain ⟨c, h3, h4⟩ := hN fuel (le_trans (le_max_right _ _) hf)
  have h5 := checkedRecip_mono b M _ h1 fuel (le_trans (le_max_left _ _) hf)
  have h6 : a.checkedExactDiv (factorCall choose rng ffuel) fuel b = .ok (some c) := by
    unfold checkedExactDiv
    rw [h5]
    simp [bind, Except.bind, pure, Except.pure, h3]
  refine ⟨c, h6, ?_, by rwa [div_eq_mul_inv]⟩
  unfold RealAlg.div
  rw [h6]
  rfl

/-- `-1 / (1 + √2)` -/
example (rng : ℕ → ℕ) : ∃ N, ∀ fuel ≥ N, ∃ c,
    (ofInt (-1)).div (factorCall firstSmallest rng 0) fuel onePlus = .ok c ∧
      c.Represents (((-1 : ℤ) : ℝ) / (1 + √2)) := by
  have hrec : onePlus.checkedRecip 1 = .ok (some ⟨Poly.ofCoeffs [1, -2, -1], ⟨0, 1, 0⟩⟩) := by
    decide +kernel
  obtain ⟨N, hN⟩ := C45_div_coprime_partial firstSmallest firstSmallest_order rng 0 (ofInt (-1)) onePlus _ _
    (ofInt_represents _) onePlus_represents irrational_onePlus (by
      intro z hz hpos
      have h0 : 0 < √2 := Real.sqrt_pos.mpr (by norm_num)
      have hz0 : 0 < z := (pos_iff_pos_of_mul_pos hpos).mp (by linarith)
      rw [show onePlus.poly.toPoly = _ from toPoly_quadratic (-2) (-1), quadratic_aeval] at hz
      have hs : √2 ^ 2 = (2 : ℝ) := Real.sq_sqrt (by norm_num)
      push_cast at hz
      have : (z - (1 + √2)) * (z - 1 + √2) = 0 := by nlinarith
      rcases mul_eq_zero.mp this with h | h
      · linarith
      · have h1 : 1 < √2 := by rw [Real.lt_sqrt (by norm_num)]; norm_num
        linarith)
    (by rw [ofInt_degree]; exact Nat.coprime_one_left _)
    (fun fuel r R hr hR _ => by
      have h1 := checkedRecip_mono _ _ _ hrec (max fuel 1) (le_max_right _ _)
      rw [checkedRecip_mono _ _ _ hr (max fuel 1) (le_max_left _ _)] at h1
      cases h1
      rw [show mulResultant (ofInt (-1)).poly (Poly.ofCoeffs [1, -2, -1]) = some ShiftRun.negQuad by
        decide +kernel] at hR
      cases hR
      exact ⟨_, by unfold factorCall; rw [ShiftRun.factor_neg _ firstSmallest_order]; rfl⟩)
  exact ⟨N, fun fuel hf => by obtain ⟨c, -, h1, h2⟩ := hN fuel hf; exact ⟨c, h1, h2⟩⟩

/-! ## C46 -/

/-- C46, in part: `==` and comparison are exact unless the polynomial of `y` has a root `x - q` with `q` a
rational number other than `x - y`. -/
theorem C46_unrelated_partial (F : FactorCall) (a b : RealAlg) (x y : ℝ) (ha : a.Represents x)
    (hb : b.Represents y)
    (hF : ∀ n R, b.neg = .ok n → addResultant a.poly n.poly = some R → FactorsRight F R)
    (hq : ∀ q : ℚ, aeval (x - (q : ℝ)) b.poly.toPoly = 0 → (q : ℝ) = x - y) :
    ∃ N, ∀ fuel ≥ N, (∃ e, a.eq F fuel b = .ok e ∧ (e = true ↔ x = y)) ∧
      ∃ o, a.cmp F fuel b = .ok o ∧ (o = .lt ↔ x < y) ∧ (o = .eq ↔ x = y) ∧ (o = .gt ↔ y < x) := by
  obtain ⟨N, hN⟩ := C44_sub_unrelated_partial F a b x y ha hb hF hq
  refine ⟨N, fun fuel hf => ?_⟩
  obtain ⟨c, h1, h2⟩ := hN fuel hf
  exact cmp_of_sub F a b c x y fuel h1 h2

/-- C46, in part: numbers of different degrees compare like the real numbers. -/
theorem C46_degrees_partial (F : FactorCall) (a b : RealAlg) (x y : ℝ) (ha : a.Represents x)
    (hb : b.Represents y)
    (hF : ∀ n R, b.neg = .ok n → addResultant a.poly n.poly = some R → FactorsRight F R)
    (hd : a.poly.toPoly.natDegree ≠ b.poly.toPoly.natDegree) :
    ∃ N, ∀ fuel ≥ N, (∃ e, a.eq F fuel b = .ok e ∧ (e = true ↔ x = y)) ∧
      ∃ o, a.cmp F fuel b = .ok o ∧ (o = .lt ↔ x < y) ∧ (o = .eq ↔ x = y) ∧ (o = .gt ↔ y < x) := by
  obtain ⟨N, hN⟩ := C44_sub_degrees_partial F a b x y ha hb hF hd
  refine ⟨N, fun fuel hf => ?_⟩
  obtain ⟨c, h1, h2⟩ := hN fuel hf
  exact cmp_of_sub F a b c x y fuel h1 h2

/-- C46, in part, with the code's own `factor` and no condition on leading coefficients: numbers whose
degrees have no common factor, in particular a rational number and any other number, compare like the
real numbers whenever `factor` returns on the resultant. -/
theorem C46_coprime_partial (choose : ℕ → List ℕ → ℕ) (hc : Poly.HeapOrder choose) (rng : ℕ → ℕ)
    (ffuel : ℕ) (a b : RealAlg) (x y : ℝ) (ha : a.Represents x) (hb : b.Represents y)
    (hd : a.poly.toPoly.natDegree.Coprime b.poly.toPoly.natDegree)
    (hret : ∀ n R, b.neg = .ok n → addResultant a.poly n.poly = some R →
      ∃ r, factorCall choose rng ffuel R = .ok r) :
    ∃ N, ∀ fuel ≥ N,
      (∃ e, a.eq (factorCall choose rng ffuel) fuel b = .ok e ∧ (e = true ↔ x = y)) ∧
      ∃ o, a.cmp (factorCall choose rng ffuel) fuel b = .ok o ∧
        (o = .lt ↔ x < y) ∧ (o = .eq ↔ x = y) ∧ (o = .gt ↔ y < x) := by
  obtain ⟨N, hN⟩ := C44_sub_coprime_partial choose hc rng ffuel a b x y ha hb hd hret
  refine ⟨N, fun fuel hf => ?_⟩
  obtain ⟨c, h1, h2⟩ := hN fuel hf
  exact cmp_of_sub _ a b c x y fuel h1 h2

/-- `√2 > -1` -/
example (rng : ℕ → ℕ) : ∃ N, ∀ fuel ≥ N, ∃ o,
    sqrtTwo.cmp (factorCall firstSmallest rng 0) fuel (ofInt (-1)) = .ok o ∧ o = .gt := by
  obtain ⟨N, hN⟩ := C46_coprime_partial firstSmallest firstSmallest_order rng 0 sqrtTwo (ofInt (-1)) _ _
    sqrtTwo_represents (ofInt_represents (-1)) (sqrtTwo_coprime (-1)) (fun n R hn hR => by
      rw [show (ofInt (-1)).neg = .ok (ofInt 1) from rfl] at hn
      cases hn
      exact shift_returns _ firstSmallest_order rng 0 R hR)
  refine ⟨N, fun fuel hf => ?_⟩
  obtain ⟨-, o, h1, -, -, h2⟩ := hN fuel hf
  refine ⟨o, h1, h2.mpr ?_⟩
  push_cast
  have : (0 : ℝ) ≤ √2 := Real.sqrt_nonneg 2
  linarith

/-! ## C43, C58 with the code's own `factor` -/

/-- C43, in part, with the code's own `factor`: `fract` of an irrational number is exactly
`x - floor(x)` whenever `factor` returns on the resultant. -/
theorem C43_fract_own_factor_partial (choose : ℕ → List ℕ → ℕ) (hc : Poly.HeapOrder choose)
    (rng : ℕ → ℕ) (ffuel : ℕ) (a : RealAlg) (x : ℝ) (h : a.Represents x) (hx : Irrational x)
    (hret : ∀ n R, (ofInt ⌊x⌋).neg = .ok n → addResultant a.poly n.poly = some R →
      ∃ r, factorCall choose rng ffuel R = .ok r) :
    ∃ N, ∀ fuel ≥ N, ∃ c, a.fract (factorCall choose rng ffuel) fuel = .ok c ∧
      c.Represents (x - ⌊x⌋) := by
  refine C43_fract_irrational_partial _ a x h hx fun n R hn hR => ?_
  have hi := ofInt_represents ⌊x⌋
  obtain ⟨n', h1, h2, -⟩ := hi.neg
  rw [hn] at h1
  cases h1
  refine add_right_coprime choose hc rng ffuel h h2 ?_ R hR (hret n R hn hR)
  exact coprime_of_rat h h2 (Or.inr (not_not.mpr ⟨(-⌊x⌋ : ℚ), by push_cast; rfl⟩))

/-- the fractional part of `√2` -/
example (rng : ℕ → ℕ) : ∃ N, ∀ fuel ≥ N, ∃ c,
    sqrtTwo.fract (factorCall firstSmallest rng 0) fuel = .ok c ∧ c.Represents (√2 - ⌊√2⌋) :=
  C43_fract_own_factor_partial firstSmallest firstSmallest_order rng 0 sqrtTwo _ sqrtTwo_represents
    irrational_sqrt_two (by
      have : ⌊√2⌋ = 1 := by
        rw [Int.floor_eq_iff]
        constructor
        · push_cast
          rw [Real.le_sqrt' (by norm_num)]
          norm_num
        · push_cast
          rw [Real.sqrt_lt' (by norm_num)]
          norm_num
      rw [this]
      exact fun n R hn hR => fract_returns _ firstSmallest_order rng 0 n R hn hR)

/-- C58, in part, with the code's own `factor`: the remainder of a division of an irrational number by a
rational number other than zero is exact whenever `factor` returns on the two resultants. -/
theorem C58_rem_own_factor_partial (choose : ℕ → List ℕ → ℕ) (hc : Poly.HeapOrder choose)
    (rng : ℕ → ℕ) (ffuel : ℕ) (a b : RealAlg) (x : ℝ) (q : ℚ) (ha : a.Represents x) (hx : Irrational x)
    (hb : b.Represents q) (hq : q ≠ 0)
    (hret : ∀ R, mulResultant a.poly (ofRat q⁻¹).poly = some R → R.toPoly ≠ 0 →
      ∃ r, factorCall choose rng ffuel R = .ok r)
    (hret' : ∀ n R, (ofRat (truncate (x / q) * q)).neg = .ok n → addResultant a.poly n.poly = some R →
      ∃ r, factorCall choose rng ffuel R = .ok r) :
    |x - truncate (x / q) * q| < |(q : ℝ)| ∧ 0 ≤ (x - truncate (x / q) * q) * x ∧
    ∃ N, ∀ fuel ≥ N, ∃ c, a.rem (factorCall choose rng ffuel) fuel b = .ok c ∧
      c.Represents (x - truncate (x / q) * q) := by
  refine C58_rem_rational _ a b x q ha hb hq (fun R hR hR0 => ?_) fun n R hn hR => ?_
  · refine mul_right_coprime choose hc rng ffuel ha (ofRat_represents _) ?_ ?_
      (coprime_of_rat ha (ofRat_represents _) (Or.inr (not_not.mpr ⟨_, rfl⟩))) R hR (hret R hR hR0)
    · rintro rfl
      exact hx ⟨0, by simp⟩
    · exact_mod_cast inv_ne_zero hq
  · obtain ⟨n', h1, h2, -⟩ := (ofRat_represents (truncate (x / q) * q)).neg
    rw [hn] at h1
    cases h1
    refine add_right_coprime choose hc rng ffuel ha h2 ?_ R hR (hret' n R hn hR)
    exact coprime_of_rat ha h2 (Or.inr (not_not.mpr ⟨-(truncate (x / q) * q), by push_cast; rfl⟩))

/-- the remainder of `√2` divided by `1/2` is `√2 - 1` -/
example (rng : ℕ → ℕ) : ∃ N, ∀ fuel ≥ N, ∃ c,
    sqrtTwo.rem (factorCall firstSmallest rng 0) fuel (ofRat (1 / 2)) = .ok c ∧ c.Represents (√2 - 1) := by
  have ht : truncate (√2 / ((1 / 2 : ℚ) : ℝ)) = 2 := by
    have h0 : 0 ≤ √2 / ((1 / 2 : ℚ) : ℝ) := by positivity
    rw [truncate, if_pos h0, Int.floor_eq_iff]
    have h1 : 1 ≤ √2 := by rw [Real.le_sqrt' (by norm_num)]; norm_num
    have h2 : √2 < 3 / 2 := by rw [Real.sqrt_lt' (by norm_num)]; norm_num
    push_cast
    constructor <;> linarith
  have := (C58_rem_own_factor_partial firstSmallest firstSmallest_order rng 0 sqrtTwo (ofRat (1 / 2)) _ (1 / 2)
    sqrtTwo_represents irrational_sqrt_two (ofRat_represents _) (by norm_num)
    (fun R hR _ => by
      rw [show (ofRat (1 / 2 : ℚ)⁻¹) = ofInt 2 by decide +kernel] at hR
      exact double_returns _ firstSmallest_order rng 0 R hR)
    (fun n R hn hR => by
      rw [ht, show ofRat (((2 : ℤ) : ℚ) * (1 / 2)) = ofInt 1 by decide +kernel] at hn
      exact fract_returns _ firstSmallest_order rng 0 n R hn hR)).2.2
  rw [ht] at this
  simpa using this

/-- C58: the remainder of two rational numbers is exact and needs no factoring. -/
theorem C58_rem_both_rational (F : FactorCall) (a b : RealAlg) (p q : ℚ) (ha : a.Represents p)
    (hb : b.Represents q) (hq : q ≠ 0) :
    ∃ N, ∀ fuel ≥ N, ∃ c, a.rem F fuel b = .ok c ∧
      c.Represents ((p : ℝ) - truncate ((p : ℝ) / q) * q) := by
  have hm : ∀ (fuel : ℕ) (a b : RealAlg) (p q : ℚ), a.Represents p → b.Represents q →
      a.mul F fuel b = .ok (ofRat (p * q)) := by
    intro fuel a b p q ha hb
    unfold RealAlg.mul
    rw [ha.toRational_rat, hb.toRational_rat]
    rfl
  have hdiv : ∀ fuel, a.div F fuel b = .ok (ofRat (p * q⁻¹)) := by
    intro fuel
    unfold RealAlg.div checkedExactDiv
    rw [hb.checkedRecip_rat, if_neg hq]
    simp [bind, Except.bind, pure, Except.pure, hm fuel a _ p q⁻¹ ha (ofRat_represents _), orPanic]
  have hd : (ofRat (p * q⁻¹)).Represents ((p : ℝ) / q) := by
    have := ofRat_represents (p * q⁻¹)
    rwa [← div_eq_mul_inv, Rat.cast_div] at this
  obtain ⟨N, hN⟩ := hd.integerTrunc
  refine ⟨N, fun fuel hf => ?_⟩
  set t := truncate ((p : ℝ) / q) with ht
  have hti : (ofInt t).Represents ((t : ℚ) : ℝ) := by
    have := ofInt_represents t
    rwa [Rat.cast_intCast]
  obtain ⟨c, h1, h2⟩ := (C44_both_rational F a (ofRat (t * q)) p (t * q) ha (ofRat_represents _) fuel).2
  refine ⟨c, ?_, by push_cast at h2; exact h2⟩
  unfold RealAlg.rem RealAlg.trunc
  rw [hdiv fuel]
  simp only [bind, Except.bind, pure, Except.pure]
  rw [hN fuel hf]
  simp only
  rw [show (if 0 ≤ (p : ℝ) / (q : ℝ) then ⌊(p : ℝ) / (q : ℝ)⌋ else ⌈(p : ℝ) / (q : ℝ)⌉) = t from rfl,
    hm fuel _ b t q hti hb]
  exact h1

end Algebraics
