import Verif.Props.AlgNumOps

/-!
Counterexamples to C44, C45 and C46, and cases in which their theorems apply
(`/repo/src/algebraic_numbers.rs`, `select_root`).

`select_root` looks at the two end points of the interval first, and returns an end point that is a root
of any factor of the resultant, whether or not it is the root that is asked for. The operands below meet
the contract of `new_unchecked`: irreducible polynomials and isolating intervals. All runs use the model
of the code's own `factor`, for every stream of random numbers and every order of the heap.
-/

namespace Algebraics

open Polynomial

namespace RealAlg

/-! ## The operands -/

/-- `√2`, with isolating interval `[0, 2]`. -/
def wideSqrtTwo : RealAlg := ⟨Poly.ofCoeffs [-2, 0, 1], ⟨0, 2, 0⟩⟩

/-- `1 + √2`, with isolating interval `[-1/4, 4]`. -/
def wideOnePlus : RealAlg := ⟨Poly.ofCoeffs [-1, -2, 1], ⟨-1, 16, 2⟩⟩

/-- `1 + √2`, with isolating interval `[2, 3]`. -/
def onePlus : RealAlg := ⟨Poly.ofCoeffs [-1, -2, 1], ⟨2, 3, 0⟩⟩

/-- `1/√2`, with isolating interval `[0, 1]`: what `checked_recip` makes of `√2` in `[1, 2]`. -/
def recipSqrtTwo : RealAlg := ⟨Poly.ofCoeffs [1, 0, -2], ⟨0, 1, 0⟩⟩

theorem onePlus_irreducible : Irreducible (Poly.ofCoeffs [-1, -2, 1] : Poly ℤ).toPoly := by
  rw [toPoly_quadratic]
  apply quadratic_irreducible
  intro n hn
  have h2 : n < 3 := by nlinarith
  have h3 : -1 < n := by nlinarith
  interval_cases n <;> omega

theorem wideSqrtTwo_represents : wideSqrtTwo.Represents (√2) := by
  have hs : √2 ^ 2 = (2 : ℝ) := Real.sq_sqrt (by norm_num)
  have h0 : 0 ≤ √2 := Real.sqrt_nonneg 2
  have hp : wideSqrtTwo.poly.toPoly = X ^ 2 + C 0 * X + C (-2) := toPoly_quadratic 0 (-2)
  refine ⟨sqrtTwo_represents.irreducible, ?_, sqrtTwo_represents.root, ?_, ?_⟩
  · rw [hp, quadratic_natDegree]; omega
  · simp only [DFI.Contains, wideSqrtTwo]
    constructor <;> norm_num
  · intro y hy h1
    rw [hp, quadratic_aeval] at h1
    simp only [DFI.Contains, wideSqrtTwo] at hy
    norm_num at hy h1
    have : (y - √2) * (y + √2) = 0 := by nlinarith
    rcases mul_eq_zero.mp this with h | h
    · linarith
    · have : 0 < √2 := Real.sqrt_pos.mpr (by norm_num)
      linarith

theorem onePlus_root : aeval (1 + √2) (Poly.ofCoeffs [-1, -2, 1] : Poly ℤ).toPoly = 0 := by
  have hs : √2 ^ 2 = (2 : ℝ) := Real.sq_sqrt (by norm_num)
  rw [toPoly_quadratic, quadratic_aeval]; push_cast; nlinarith

theorem onePlus_isolated (y : ℝ) (h : -1 / 4 ≤ y)
    (hy : aeval y (Poly.ofCoeffs [-1, -2, 1] : Poly ℤ).toPoly = 0) : y = 1 + √2 := by
  have hs : √2 ^ 2 = (2 : ℝ) := Real.sq_sqrt (by norm_num)
  have h0 : 7 / 5 < √2 := by
    rw [show (7 / 5 : ℝ) = √((7 / 5) ^ 2) by rw [Real.sqrt_sq (by norm_num)]]
    exact Real.sqrt_lt_sqrt (by norm_num) (by norm_num)
  rw [toPoly_quadratic, quadratic_aeval] at hy
  push_cast at hy
  have : (y - 1 - √2) * (y - 1 + √2) = 0 := by nlinarith
  rcases mul_eq_zero.mp this with h | h
  · linarith
  · linarith

theorem wideOnePlus_represents : wideOnePlus.Represents (1 + √2) := by
  have hs : √2 ^ 2 = (2 : ℝ) := Real.sq_sqrt (by norm_num)
  have h0 : 0 ≤ √2 := Real.sqrt_nonneg 2
  refine ⟨onePlus_irreducible, ?_, onePlus_root, ?_, ?_⟩
  · intro h
    have : (Poly.ofCoeffs [-1, -2, 1] : Poly ℤ).toPoly.natDegree = 1 := h
    rw [toPoly_quadratic, quadratic_natDegree] at this
    omega
  · simp only [DFI.Contains, wideOnePlus]
    constructor <;> norm_num <;> nlinarith
  · intro y hy h1
    refine onePlus_isolated y ?_ h1
    have := hy.1
    simp only [wideOnePlus] at this
    norm_num at this
    linarith

theorem onePlus_represents : onePlus.Represents (1 + √2) := by
  have hs : √2 ^ 2 = (2 : ℝ) := Real.sq_sqrt (by norm_num)
  have h0 : 0 ≤ √2 := Real.sqrt_nonneg 2
  refine ⟨onePlus_irreducible, ?_, onePlus_root, ?_, ?_⟩
  · intro h
    have : (Poly.ofCoeffs [-1, -2, 1] : Poly ℤ).toPoly.natDegree = 1 := h
    rw [toPoly_quadratic, quadratic_natDegree] at this
    omega
  · simp only [DFI.Contains, onePlus]
    constructor <;> norm_num <;> nlinarith
  · intro y hy h1
    refine onePlus_isolated y ?_ h1
    have := hy.1
    simp only [onePlus] at this
    norm_num at this
    linarith

/-! ## An end point that is a root is returned -/

theorem bounds_le_of_contains {i : DFI} {x : ℝ} (h : i.Contains x) : i.lowerBound ≤ i.upperBound := by
  obtain ⟨h1, h2⟩ := (DFI.contains_iff_bounds i x).mp h
  exact_mod_cast h1.trans h2

theorem add_endpoint {a b : RealAlg} {x y : ℝ} (ha : a.Represents x) (hb : b.Represents y)
    (hx : Irrational x) (hy : Irrational y) (F : FactorCall) (R : Poly ℤ)
    (hR : addResultant a.poly b.poly = some R) (hF : FactorsRight F R)
    (hroot : (aeval ((a.interval.add b.interval).lowerBound : ℝ) R.toPoly : ℝ) = 0) (fuel : ℕ) :
    ∃ q : ℚ, a.add F (fuel + 1) b = .ok (ofRat q) ∧
      (q = (a.interval.add b.interval).lowerBound ∨ q = (a.interval.add b.interval).upperBound) ∧
      (aeval (q : ℝ) R.toPoly : ℝ) = 0 := by
  obtain ⟨s, h1, h2, h3⟩ := ha.intervalShrinker
  obtain ⟨t, h4, h5, h6⟩ := hb.intervalShrinker
  obtain ⟨r, hr1, hr2⟩ := hF
  have hne : R.toPoly ≠ 0 := addResultant_ne_zero _ _ R ha.ne_zero hb.ne_zero hR
  obtain ⟨q, e1, e2, e3⟩ := selectRoot_endpoint (getInterval := addInterval) (shrinkInterval := shrinkBoth)
    F R hne r hr1 hr2 (s, t) (a.interval.add b.interval) (by
      unfold addInterval; rw [h3, h6])
      (bounds_le_of_contains ((C02_add a.interval b.interval).2 x y ha.mem hb.mem)) hroot fuel
  refine ⟨q, ?_, e2, e3⟩
  have z1 : ¬ a.isZero = true := by rw [ha.isZero_iff]; rintro rfl; exact hx ⟨0, by simp⟩
  have z2 : ¬ b.isZero = true := by rw [hb.isZero_iff]; rintro rfl; exact hy ⟨0, by simp⟩
  unfold RealAlg.add
  rw [ha.toRational_irr hx, hb.toRational_irr hy]
  simp only [bind, Except.bind]
  rw [if_neg z2, if_neg z1, hR, h1, h4]
  exact e1

theorem mul_endpoint {a b : RealAlg} {x y : ℝ} (ha : a.Represents x) (hb : b.Represents y)
    (hx : Irrational x) (hy : Irrational y) (F : FactorCall) (R : Poly ℤ)
    (hR : mulResultant a.poly b.poly = some R) (hF : FactorsRight F R)
    (hroot : (aeval ((a.interval.mul b.interval).lowerBound : ℝ) R.toPoly : ℝ) = 0) (fuel : ℕ) :
    ∃ q : ℚ, a.mul F (fuel + 1) b = .ok (ofRat q) ∧
      (q = (a.interval.mul b.interval).lowerBound ∨ q = (a.interval.mul b.interval).upperBound) ∧
      (aeval (q : ℝ) R.toPoly : ℝ) = 0 := by
  obtain ⟨s, h1, h2, h3⟩ := ha.intervalShrinker
  obtain ⟨t, h4, h5, h6⟩ := hb.intervalShrinker
  obtain ⟨r, hr1, hr2⟩ := hF
  have hx0 : x ≠ 0 := by rintro rfl; exact hx ⟨0, by simp⟩
  have hy0 : y ≠ 0 := by rintro rfl; exact hy ⟨0, by simp⟩
  have hne : R.toPoly ≠ 0 :=
    mulResultant_ne_zero _ _ R (ha.coeff_zero_ne hx0) (hb.coeff_zero_ne hy0) hR
  obtain ⟨q, e1, e2, e3⟩ := selectRoot_endpoint (getInterval := mulInterval) (shrinkInterval := shrinkBoth)
    F R hne r hr1 hr2 (s, t) (a.interval.mul b.interval) (by
      unfold mulInterval; rw [h3, h6])
      (bounds_le_of_contains (DFI.contains_mul ha.mem hb.mem)) hroot fuel
  refine ⟨q, ?_, e2, e3⟩
  have z1 : ¬ (a.isZero || b.isZero) = true := by
    rw [Bool.or_eq_true, ha.isZero_iff, hb.isZero_iff]; tauto
  have z2 : ¬ b.isOne = true := by rw [hb.isOne_iff]; rintro rfl; exact hy ⟨1, by simp⟩
  have z3 : ¬ a.isOne = true := by rw [ha.isOne_iff]; rintro rfl; exact hx ⟨1, by simp⟩
  unfold RealAlg.mul
  rw [ha.toRational_irr hx, hb.toRational_irr hy]
  simp only [bind, Except.bind]
  rw [if_neg z1, if_neg z2, if_neg z3, hR, h1, h4]
  exact e1

/-! ## The code's own factoring of the three resultants -/

theorem sumRes_right (choose : ℕ → List ℕ → ℕ) (hc : Poly.HeapOrder choose) (rng : ℕ → ℕ) (ffuel : ℕ) :
    FactorsRight (factorCall choose rng ffuel) sumRes :=
  factorCall_right choose hc rng ffuel sumRes (by rw [← Poly.highest_eq]; decide +kernel)
    ⟨_, by unfold factorCall; rw [SumRun.factor_eq choose hc]; rfl⟩

theorem prodRes_right (choose : ℕ → List ℕ → ℕ) (hc : Poly.HeapOrder choose) (rng : ℕ → ℕ) (ffuel : ℕ) :
    FactorsRight (factorCall choose rng ffuel) prodRes :=
  factorCall_right choose hc rng ffuel prodRes (by rw [← Poly.highest_eq]; decide +kernel)
    ⟨_, by unfold factorCall; rw [ProdRun.factor_eq choose hc]; rfl⟩

theorem recipRes_right (choose : ℕ → List ℕ → ℕ) (hc : Poly.HeapOrder choose) (rng : ℕ → ℕ) (ffuel : ℕ) :
    FactorsRight (factorCall choose rng ffuel) recipRes := by
  have hrun := RecipRun.factor_eq choose hc rng ffuel 0
  obtain ⟨h1, h2⟩ := C26_multiplies_back choose hc rng ffuel 0 _ _ _ hrun
  refine ⟨_, by unfold factorCall; rw [hrun]; rfl, h1, ?_, fun e he => (h2 e he).2.1,
    fun e he => (h2 e he).2.2.2, (C57_factors_distinct choose hc rng ffuel 0 _ _ _ hrun).1⟩
  intro e he
  rcases List.mem_cons.mp he with rfl | he
  · exact sqrtTwo_represents.irreducible
  · rw [List.mem_singleton.mp he]
    have := linear_irreducible 0
    show Irreducible RecipRun.lin.toPoly
    rw [show RecipRun.lin.toPoly = C (((0 : ℚ).den : ℕ) : ℤ) * X + C (-(0 : ℚ).num) from
      toPoly_linear 0 1]
    exact this

theorem irrational_onePlus : Irrational (1 + √2) := by
  have := irrational_sqrt_two.natCast_add 1
  simpa using this

end RealAlg

open RealAlg

/-! ## The counterexamples -/

/-- C44 is false in full: `√2`, held with the isolating interval `[0, 2]`, added to itself gives `0`. -/
theorem C44_add_false (choose : ℕ → List ℕ → ℕ) (hc : Poly.HeapOrder choose) (rng : ℕ → ℕ)
    (ffuel fuel : ℕ) :
    wideSqrtTwo.Represents (√2) ∧
    wideSqrtTwo.add (factorCall choose rng ffuel) (fuel + 1) wideSqrtTwo = .ok zero ∧
    zero.Represents 0 ∧ √2 + √2 ≠ 0 := by
  have h0 : 0 < √2 := Real.sqrt_pos.mpr (by norm_num)
  obtain ⟨q, h1, h2, h3⟩ := add_endpoint wideSqrtTwo_represents wideSqrtTwo_represents
    irrational_sqrt_two irrational_sqrt_two _ sumRes (by decide +kernel)
    (sumRes_right choose hc rng ffuel) (by
      rw [show (wideSqrtTwo.interval.add wideSqrtTwo.interval).lowerBound = 0 by decide +kernel]
      rw [show sumRes.toPoly = _ from Poly.toPoly_ofCoeffs _]
      simp [listPoly]) fuel
  refine ⟨wideSqrtTwo_represents, ?_, ?_, by positivity⟩
  · rcases h2 with h2 | h2
    · rw [h1, h2]
      decide +kernel
    · exfalso
      rw [h2, show (wideSqrtTwo.interval.add wideSqrtTwo.interval).upperBound = 4 by decide +kernel,
        show sumRes.toPoly = _ from Poly.toPoly_ofCoeffs _] at h3
      simp only [listPoly, map_add, map_mul, aeval_C, aeval_X, map_zero, algebraMap_int_eq, Int.coe_castRingHom] at h3
      norm_num at h3
  · have := ofInt_represents 0
    rwa [Int.cast_zero] at this

/-- C44 is false for numbers that the library itself computes: the reciprocal of `√2`, held with the
isolating interval `[1, 2]`, is right, but added to itself it gives `0`. -/
theorem C44_add_recip_false (choose : ℕ → List ℕ → ℕ) (hc : Poly.HeapOrder choose) (rng : ℕ → ℕ)
    (ffuel fuel : ℕ) : ∃ r, sqrtTwo.Represents (√2) ∧ sqrtTwo.checkedRecip (fuel + 1) = .ok (some r) ∧
    r.Represents (√2)⁻¹ ∧ r.add (factorCall choose rng ffuel) (fuel + 1) r = .ok zero ∧
    zero.Represents 0 ∧ (√2)⁻¹ + (√2)⁻¹ ≠ 0 := by
  have h0 : 0 < √2 := Real.sqrt_pos.mpr (by norm_num)
  have hrec : sqrtTwo.checkedRecip 1 = .ok (some recipSqrtTwo) := by decide +kernel
  have hrec' := checkedRecip_mono _ _ _ hrec (fuel + 1) (by omega)
  have hrep : recipSqrtTwo.Represents (√2)⁻¹ := by
    obtain ⟨N, hN⟩ := C40_recip_one_sign_partial _ _ sqrtTwo_represents irrational_sqrt_two (by
      intro y hy hpos
      have hp : sqrtTwo.poly.toPoly = X ^ 2 + C 0 * X + C (-2) := toPoly_quadratic 0 (-2)
      rw [hp, quadratic_aeval] at hy
      have hs : √2 ^ 2 = (2 : ℝ) := Real.sq_sqrt (by norm_num)
      have hy0 : 0 < y := (pos_iff_pos_of_mul_pos hpos).mp h0
      push_cast at hy
      nlinarith)
    obtain ⟨b, h1, h2⟩ := hN (max N 1) (le_max_left _ _)
    rw [checkedRecip_mono _ _ _ hrec _ (le_max_right _ _)] at h1
    cases h1
    exact h2
  have hirr : Irrational (√2)⁻¹ := irrational_inv_iff.mpr irrational_sqrt_two
  obtain ⟨q, h1, h2, h3⟩ := add_endpoint hrep hrep hirr hirr _ recipRes (by decide +kernel)
    (recipRes_right choose hc rng ffuel) (by
      rw [show (recipSqrtTwo.interval.add recipSqrtTwo.interval).lowerBound = 0 by decide +kernel]
      rw [show recipRes.toPoly = _ from Poly.toPoly_ofCoeffs _]
      simp [listPoly]) fuel
  refine ⟨recipSqrtTwo, sqrtTwo_represents, hrec', hrep, ?_, ?_, by positivity⟩
  · rcases h2 with h2 | h2
    · rw [h1, h2]
      decide +kernel
    · exfalso
      rw [h2, show (recipSqrtTwo.interval.add recipSqrtTwo.interval).upperBound = 2 by decide +kernel,
        show recipRes.toPoly = _ from Poly.toPoly_ofCoeffs _] at h3
      simp only [listPoly, map_add, map_mul, aeval_C, aeval_X, map_zero, algebraMap_int_eq, Int.coe_castRingHom] at h3
      norm_num at h3
  · have := ofInt_represents 0
    rwa [Int.cast_zero] at this

/-- C45 is false in full: `1 + √2`, held with the isolating interval `[-1/4, 4]`, multiplied by itself
gives `-1`. -/
theorem C45_mul_false (choose : ℕ → List ℕ → ℕ) (hc : Poly.HeapOrder choose) (rng : ℕ → ℕ)
    (ffuel fuel : ℕ) :
    wideOnePlus.Represents (1 + √2) ∧
    wideOnePlus.mul (factorCall choose rng ffuel) (fuel + 1) wideOnePlus = .ok negativeOne ∧
    negativeOne.Represents (-1) ∧ (1 + √2) * (1 + √2) ≠ -1 := by
  have h0 : 0 < √2 := Real.sqrt_pos.mpr (by norm_num)
  obtain ⟨q, h1, h2, h3⟩ := mul_endpoint wideOnePlus_represents wideOnePlus_represents
    irrational_onePlus irrational_onePlus _ prodRes (by decide +kernel)
    (prodRes_right choose hc rng ffuel) (by
      rw [show (wideOnePlus.interval.mul wideOnePlus.interval).lowerBound = -1 by decide +kernel]
      rw [show prodRes.toPoly = _ from Poly.toPoly_ofCoeffs _]
      simp only [listPoly, map_add, map_mul, aeval_C, aeval_X, map_zero, algebraMap_int_eq, Int.coe_castRingHom]
      norm_num) fuel
  refine ⟨wideOnePlus_represents, ?_, ?_, ?_⟩
  · rcases h2 with h2 | h2
    · rw [h1, h2]
      decide +kernel
    · exfalso
      rw [h2, show (wideOnePlus.interval.mul wideOnePlus.interval).upperBound = 16 by decide +kernel,
        show prodRes.toPoly = _ from Poly.toPoly_ofCoeffs _] at h3
      simp only [listPoly, map_add, map_mul, aeval_C, aeval_X, map_zero, algebraMap_int_eq, Int.coe_castRingHom] at h3
      norm_num at h3
  · have := ofInt_represents (-1)
    simpa [negativeOne] using this
  · have : 0 < (1 + √2) * (1 + √2) := by positivity
    linarith

/-- C46 is false in full: `√2`, held with the isolating interval `[0, 2]`, and its negation compare as
equal. -/
theorem C46_eq_false (choose : ℕ → List ℕ → ℕ) (hc : Poly.HeapOrder choose) (rng : ℕ → ℕ)
    (ffuel fuel : ℕ) :
    wideSqrtTwo.Represents (√2) ∧ ∃ n, wideSqrtTwo.neg = .ok n ∧ n.Represents (-√2) ∧
    wideSqrtTwo.eq (factorCall choose rng ffuel) (fuel + 1) n = .ok true ∧
    wideSqrtTwo.cmp (factorCall choose rng ffuel) (fuel + 1) n = .ok .eq ∧ √2 ≠ -√2 := by
  have h0 : 0 < √2 := Real.sqrt_pos.mpr (by norm_num)
  obtain ⟨n, h1, h2⟩ := C40_neg _ _ wideSqrtTwo_represents
  have hnn : n.neg = .ok wideSqrtTwo := by
    have h3 : wideSqrtTwo.neg = .ok ⟨Poly.ofCoeffs [-2, 0, 1], ⟨-2, 0, 0⟩⟩ := by decide +kernel
    rw [h3] at h1
    cases h1
    decide +kernel
  have hadd := (C44_add_false choose hc rng ffuel fuel).2.1
  have hsub : wideSqrtTwo.sub (factorCall choose rng ffuel) (fuel + 1) n = .ok zero := by
    unfold RealAlg.sub
    rw [hnn]
    exact hadd
  refine ⟨wideSqrtTwo_represents, n, h1, h2, ?_, ?_, by linarith⟩
  · unfold RealAlg.eq
    rw [hsub]
    rfl
  · unfold RealAlg.cmp
    rw [hsub]
    rfl

/-! ## Cases that meet the hypotheses of the theorems -/

namespace RealAlg

/-- a factoring that is right on irreducible polynomials -/
def trivialFactor : FactorCall := fun R => .ok ⟨1, [(R, 1)]⟩

theorem trivialFactor_right (b c : ℤ) (h : ∀ n : ℤ, n ^ 2 + b * n + c ≠ 0) :
    FactorsRight trivialFactor (.ofCoeffs [c, b, 1]) := by
  have hp := toPoly_quadratic b c
  refine ⟨_, rfl, ?_, ?_, ?_, ?_, ?_⟩
  · simp [Poly.powerProduct]
  · intro e he
    rw [List.mem_singleton.mp he, hp]
    exact quadratic_irreducible b c h
  · intro e he
    rw [List.mem_singleton.mp he, hp]
    have hm : (X ^ 2 + C b * X + C c : ℤ[X]).Monic := by monicity!
    rw [hm.leadingCoeff]
    norm_num
  · intro e he
    rw [List.mem_singleton.mp he]
    norm_num
  · simp

theorem sq_two (x' : ℂ) (h : aeval x' (Poly.ofCoeffs [-2, 0, 1] : Poly ℤ).toPoly = 0) : x' ^ 2 = 2 := by
  rw [toPoly_quadratic] at h
  simp only [map_add, map_mul, map_pow, aeval_C, aeval_X, algebraMap_int_eq, Int.coe_castRingHom] at h
  push_cast at h
  linear_combination h

/-- a rational sum of two square roots of two is zero -/
theorem rat_sum_sqrt (q : ℚ) (x' y' : ℂ) (hx : x' ^ 2 = 2) (hy : y' ^ 2 = 2) (h : (q : ℂ) = x' + y') :
    q = 0 := by
  have h1 : (q : ℂ) * (q ^ 2 - 8) = 0 := by rw [h]; linear_combination (x' + 3 * y') * hx + (y' + 3 * x') * hy
  have h2 : q * (q ^ 2 - 8) = 0 := by exact_mod_cast h1
  rcases mul_eq_zero.mp h2 with h | h
  · exact h
  · exfalso
    have h3 : ((|q| / 2 : ℚ) : ℝ) ^ 2 = 2 := by
      have : (|q| / 2) ^ 2 = 2 := by rw [div_pow, sq_abs]; linarith
      exact_mod_cast this
    have h4 : ((|q| / 2 : ℚ) : ℝ) = √2 := by
      rw [← h3, Real.sqrt_sq]
      push_cast
      positivity
    exact irrational_sqrt_two ⟨_, h4⟩

end RealAlg

example (rng : ℕ → ℕ) : ∃ N, ∀ fuel ≥ N, ∃ c,
    sqrtTwo.add (factorCall firstSmallest rng 0) fuel sqrtTwo = .ok c ∧ c.Represents (√2 + √2) := by
  refine C44_add_exact_partial _ _ _ _ _ sqrtTwo_represents sqrtTwo_represents ?_ ?_
  · intro R hR
    have : addResultant sqrtTwo.poly sqrtTwo.poly = some sumRes := by decide +kernel
    rw [this] at hR
    cases hR
    exact sumRes_right _ firstSmallest_order rng 0
  · intro q x' y' hq hx hy h
    exfalso
    have h0 := rat_sum_sqrt q x' y' (sq_two x' hx) (sq_two y' hy) h
    rw [h0, show sqrtTwo.interval.add sqrtTwo.interval = ⟨2, 4, 0⟩ by decide +kernel] at hq
    have := hq.1
    norm_num at this

example (rng : ℕ → ℕ) : ∃ N, ∀ fuel ≥ N, ∃ c,
    sqrtTwo.add (factorCall firstSmallest rng 0) fuel sqrtTwo = .ok c ∧
      (c.Represents (√2 + √2) ∨ WrongConjugate (· + ·) sqrtTwo sqrtTwo (sqrtTwo.interval.add sqrtTwo.interval)
        (√2 + √2) c) := by
  refine C44_add_own_factor_partial _ firstSmallest_order rng 0 _ _ _ _ sqrtTwo_represents
    sqrtTwo_represents ?_ ?_
  · rw [show sqrtTwo.poly.toPoly = X ^ 2 + C 0 * X + C (-2) from toPoly_quadratic 0 (-2)]
    have hm : (X ^ 2 + C 0 * X + C (-2) : ℤ[X]).Monic := by monicity!
    rw [hm.leadingCoeff]
    norm_num
  · intro R hR
    have : addResultant sqrtTwo.poly sqrtTwo.poly = some sumRes := by decide +kernel
    rw [this] at hR
    cases hR
    exact ⟨_, by unfold factorCall; rw [SumRun.factor_eq _ firstSmallest_order]; rfl⟩

example : ∃ N, ∀ fuel ≥ N, ∃ c, sqrtTwo.add trivialFactor fuel (ofInt 3) = .ok c ∧
    c.Represents (√2 + (3 : ℤ)) := by
  refine C44_add_rational _ _ _ _ _ sqrtTwo_represents (ofInt_represents 3)
    (Or.inr (not_not.mpr ⟨3, by simp⟩)) ?_
  intro R hR
  have : addResultant sqrtTwo.poly (ofInt 3).poly = some (.ofCoeffs [7, -6, 1]) := by decide +kernel
  rw [this] at hR
  cases hR
  refine trivialFactor_right (-6) 7 ?_
  intro n hn
  have h2 : n < 5 := by nlinarith
  have h3 : 1 < n := by nlinarith
  interval_cases n <;> omega

example : ∃ N, ∀ fuel ≥ N, ∃ c, sqrtTwo.fract trivialFactor fuel = .ok c ∧
    c.Represents (√2 - ⌊√2⌋) := by
  refine C43_fract_irrational_partial _ _ _ sqrtTwo_represents irrational_sqrt_two ?_
  intro n R hn hR
  have hs : √2 ^ 2 = (2 : ℝ) := Real.sq_sqrt (by norm_num)
  have h0 : 0 < √2 := Real.sqrt_pos.mpr (by norm_num)
  have h1 : ⌊√2⌋ = 1 := by rw [Int.floor_eq_iff]; constructor <;> norm_num
  rw [h1] at hn
  have h2 : (ofInt 1).neg = .ok ⟨.ofCoeffs [1, 1], ⟨-1, -1, 0⟩⟩ := by decide +kernel
  rw [h2] at hn
  cases hn
  have : addResultant sqrtTwo.poly (.ofCoeffs [1, 1]) = some (.ofCoeffs [-1, 2, 1]) := by decide +kernel
  rw [this] at hR
  cases hR
  refine trivialFactor_right 2 (-1) ?_
  intro n hn
  have h2 : n < 1 := by nlinarith
  have h3 : -3 < n := by nlinarith
  interval_cases n <;> omega

example (rng : ℕ → ℕ) : ∃ N, ∀ fuel ≥ N, ∃ c,
    onePlus.mul (factorCall firstSmallest rng 0) fuel onePlus = .ok c ∧
      (c.Represents ((1 + √2) * (1 + √2)) ∨
        WrongConjugate (· * ·) onePlus onePlus (onePlus.interval.mul onePlus.interval)
          ((1 + √2) * (1 + √2)) c) := by
  refine C45_mul_own_factor_partial _ firstSmallest_order rng 0 _ _ _ _ onePlus_represents
    onePlus_represents irrational_onePlus.ne_zero irrational_onePlus.ne_zero ?_ ?_
  · rw [show onePlus.poly.toPoly = X ^ 2 + C (-2) * X + C (-1) from toPoly_quadratic (-2) (-1)]
    have hm : (X ^ 2 + C (-2) * X + C (-1) : ℤ[X]).Monic := by monicity!
    rw [hm.leadingCoeff]
    norm_num
  · intro R hR
    have : mulResultant onePlus.poly onePlus.poly = some prodRes := by decide +kernel
    rw [this] at hR
    cases hR
    exact ⟨_, by unfold factorCall; rw [ProdRun.factor_eq _ firstSmallest_order]; rfl⟩

/-- `√2 / (1/3) = 3√2`. -/
example : ∃ N, ∀ fuel ≥ N, ∃ c, sqrtTwo.checkedExactDiv trivialFactor fuel (ofRat (1 / 3)) = .ok (some c) ∧
    sqrtTwo.div trivialFactor fuel (ofRat (1 / 3)) = .ok c ∧ c.Represents (√2 / (1 / 3 : ℚ)) := by
  refine C45_div_rational _ _ _ _ _ sqrtTwo_represents (ofRat_represents _) (by norm_num) ?_
  intro R hR _
  have : mulResultant sqrtTwo.poly (ofRat (1 / 3)⁻¹).poly = some (.ofCoeffs [-18, 0, 1]) := by
    decide +kernel
  rw [this] at hR
  cases hR
  refine trivialFactor_right 0 (-18) ?_
  intro n hn
  have h2 : n < 5 := by nlinarith
  have h3 : -5 < n := by nlinarith
  interval_cases n <;> omega

example (rng : ℕ → ℕ) : ∃ N, ∀ fuel ≥ N,
    sqrtTwo.eq (factorCall firstSmallest rng 0) fuel wideSqrtTwo = .ok true ∧
    sqrtTwo.cmp (factorCall firstSmallest rng 0) fuel wideSqrtTwo = .ok .eq := by
  refine C46_equal _ _ _ _ sqrtTwo_represents wideSqrtTwo_represents ?_
  intro n R hn hR
  have h3 : wideSqrtTwo.neg = .ok ⟨Poly.ofCoeffs [-2, 0, 1], ⟨-2, 0, 0⟩⟩ := by decide +kernel
  rw [h3] at hn
  cases hn
  have : addResultant sqrtTwo.poly (.ofCoeffs [-2, 0, 1]) = some sumRes := by decide +kernel
  rw [this] at hR
  cases hR
  exact sumRes_right _ firstSmallest_order rng 0

/-- `√2 < 3`. -/
example : ∃ N, ∀ fuel ≥ N, sqrtTwo.cmp trivialFactor fuel (ofInt 3) = .ok .lt := by
  obtain ⟨N, hN⟩ := C46_rational trivialFactor _ _ _ _ sqrtTwo_represents (ofInt_represents 3)
    (Or.inr (not_not.mpr ⟨3, by simp⟩)) (by
      intro n R hn hR
      have h2 : (ofInt 3).neg = .ok ⟨.ofCoeffs [3, 1], ⟨-3, -3, 0⟩⟩ := by decide +kernel
      rw [h2] at hn
      cases hn
      have : addResultant sqrtTwo.poly (.ofCoeffs [3, 1]) = some (.ofCoeffs [7, 6, 1]) := by
        decide +kernel
      rw [this] at hR
      cases hR
      refine trivialFactor_right 6 7 ?_
      intro n hn
      have h2 : n < -1 := by nlinarith
      have h3 : -5 < n := by nlinarith
      interval_cases n <;> omega)
  refine ⟨N, fun fuel hf => ?_⟩
  obtain ⟨-, o, h1, h2, -⟩ := hN fuel hf
  rw [h1, h2.mpr ?_]
  have hs : √2 ^ 2 = (2 : ℝ) := Real.sq_sqrt (by norm_num)
  have h0 : 0 < √2 := Real.sqrt_pos.mpr (by norm_num)
  push_cast
  nlinarith

/-- `√2 > -√2` is found when both are held with narrow intervals. -/
example (rng : ℕ → ℕ) : ∃ n, sqrtTwo.neg = .ok n ∧ ∃ N, ∀ fuel ≥ N,
    sqrtTwo.cmp (factorCall firstSmallest rng 0) fuel n = .ok .gt := by
  have h3 : sqrtTwo.neg = .ok ⟨Poly.ofCoeffs [-2, 0, 1], ⟨-2, -1, 0⟩⟩ := by decide +kernel
  obtain ⟨n, h1, h2⟩ := C40_neg _ _ sqrtTwo_represents
  rw [h3] at h1
  cases h1
  refine ⟨_, h3, ?_⟩
  obtain ⟨N, hN⟩ := C46_cmp_partial (factorCall firstSmallest rng 0) _ _ _ _ sqrtTwo_represents h2 (by
      intro n R hn hR
      have h4 : RealAlg.neg ⟨Poly.ofCoeffs [-2, 0, 1], ⟨-2, -1, 0⟩⟩ = .ok sqrtTwo := by decide +kernel
      rw [h4] at hn
      cases hn
      have : addResultant sqrtTwo.poly sqrtTwo.poly = some sumRes := by decide +kernel
      rw [this] at hR
      cases hR
      exact sumRes_right _ firstSmallest_order rng 0) (by
      intro q x' y' hq hx hy h
      exfalso
      have e := sq_two y' hy
      have h0 := rat_sum_sqrt q x' (-y') (sq_two x' hx) (by rw [neg_sq]; exact e)
        (by rw [h]; ring)
      rw [h0, show sqrtTwo.interval.sub ⟨-2, -1, 0⟩ = ⟨2, 4, 0⟩ by decide +kernel] at hq
      have := hq.1
      norm_num at this)
  refine ⟨N, fun fuel hf => ?_⟩
  obtain ⟨-, o, e1, -, -, e2⟩ := hN fuel hf
  rw [e1, e2.mpr ?_]
  have h0 : 0 < √2 := Real.sqrt_pos.mpr (by norm_num)
  linarith

/-- `abs_sub` of `√2` and `3` is zero. -/
example : ∃ N, ∀ fuel ≥ N, ∃ c, sqrtTwo.absSub trivialFactor fuel (ofInt 3) = .ok c ∧
    c.Represents (max (√2 - (3 : ℤ)) 0) := by
  refine C58_abs_sub_rational _ _ _ _ _ sqrtTwo_represents (ofInt_represents 3)
    (Or.inr (not_not.mpr ⟨3, by simp⟩)) ?_
  intro n R hn hR
  have h2 : (ofInt 3).neg = .ok ⟨.ofCoeffs [3, 1], ⟨-3, -3, 0⟩⟩ := by decide +kernel
  rw [h2] at hn
  cases hn
  have : addResultant sqrtTwo.poly (.ofCoeffs [3, 1]) = some (.ofCoeffs [7, 6, 1]) := by decide +kernel
  rw [this] at hR
  cases hR
  refine trivialFactor_right 6 7 ?_
  intro n hn
  have h2 : n < -1 := by nlinarith
  have h3 : -5 < n := by nlinarith
  interval_cases n <;> omega

/-- `√2 % 1 = √2 - 1`. -/
example : ∃ N, ∀ fuel ≥ N, ∃ c, sqrtTwo.rem trivialFactor fuel (ofRat 1) = .ok c ∧
    c.Represents (√2 - truncate (√2 / (1 : ℚ)) * (1 : ℚ)) := by
  have hs : √2 ^ 2 = (2 : ℝ) := Real.sq_sqrt (by norm_num)
  have h0 : 0 < √2 := Real.sqrt_pos.mpr (by norm_num)
  have h1 : ⌊√2⌋ = 1 := by rw [Int.floor_eq_iff]; constructor <;> norm_num
  refine (C58_rem_rational _ _ _ _ _ sqrtTwo_represents (ofRat_represents 1) (by norm_num) ?_ ?_).2.2
  · intro R hR _
    have : mulResultant sqrtTwo.poly (ofRat 1⁻¹).poly = some (.ofCoeffs [-2, 0, 1]) := by
      decide +kernel
    rw [this] at hR
    cases hR
    refine trivialFactor_right 0 (-2) ?_
    intro n hn
    have h2 : n < 2 := by nlinarith
    have h3 : -2 < n := by nlinarith
    interval_cases n <;> omega
  · intro n R hn hR
    have ht : truncate (√2 / (1 : ℚ)) = 1 := by
      unfold truncate
      rw [Rat.cast_one, div_one, if_pos h0.le, h1]
    rw [ht] at hn
    have h2 : (ofRat ((1 : ℤ) * 1)).neg = .ok ⟨.ofCoeffs [1, 1], ⟨-1, -1, 0⟩⟩ := by decide +kernel
    rw [h2] at hn
    cases hn
    have : addResultant sqrtTwo.poly (.ofCoeffs [1, 1]) = some (.ofCoeffs [-1, 2, 1]) := by
      decide +kernel
    rw [this] at hR
    cases hR
    refine trivialFactor_right 2 (-1) ?_
    intro n hn
    have h2 : n < 1 := by nlinarith
    have h3 : -3 < n := by nlinarith
    interval_cases n <;> omega

end Algebraics
