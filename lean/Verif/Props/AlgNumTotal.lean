import Verif.Props.AlgNumExact
import Verif.Props.FactorProgress
import Verif.Lemmas.ResultantSize

/-!
Properties C44, C45, C46 and C58, continued: with the code's own `factor` and fair random numbers, arithmetic
of algebraic numbers (`/repo/src/algebraic_numbers.rs`) ends, and is exact for numbers whose degrees have no
common factor; in particular whenever one of the two is rational. Nothing is assumed about `factor`: it is
the translation of the code. The one condition on size, `Poly.ModeratePair`, is on the two operands.
-/

namespace Algebraics

open Polynomial

namespace RealAlg

/-- with fair random numbers the code's own `factor` returns on polynomials of moderate size -/
theorem factorCall_returns (choose : ℕ → List ℕ → ℕ) (hc : Poly.HeapOrder choose) (rng : ℕ → ℕ)
    (hfair : Fair rng) (R : Poly ℤ) (hR : R.Moderate) :
    ∃ N, ∀ fuel ≥ N, ∃ r, factorCall choose rng fuel R = .ok r := by
  obtain ⟨h, h1, h2⟩ := hR
  obtain ⟨r, pos', N, -, hN⟩ := C61_fair_finishes_sized choose hc rng hfair R h h1 h2 0
  refine ⟨N, fun fuel hf => ⟨r, ?_⟩⟩
  unfold factorCall
  rw [hN fuel hf]
  rfl

/-- the same for a polynomial that may not be there -/
theorem factorCall_returns_option (choose : ℕ → List ℕ → ℕ) (hc : Poly.HeapOrder choose) (rng : ℕ → ℕ)
    (hfair : Fair rng) (o : Option (Poly ℤ)) (hR : ∀ R, o = some R → R.toPoly ≠ 0 → R.Moderate) :
    ∃ N, ∀ fuel ≥ N, ∀ R, o = some R → R.toPoly ≠ 0 → ∃ r, factorCall choose rng fuel R = .ok r := by
  cases o with
  | none => exact ⟨0, fun _ _ R h => by cases h⟩
  | some R =>
    by_cases h0 : R.toPoly = 0
    · exact ⟨0, fun _ _ R' h h' => by cases h; exact absurd h0 h'⟩
    · obtain ⟨N, hN⟩ := factorCall_returns choose hc rng hfair R (hR R rfl h0)
      exact ⟨N, fun fuel hf R' h _ => by cases h; exact hN fuel hf⟩

/-- the cube root of two, with isolating interval `[1, 2]`. -/
def cbrtTwo : RealAlg := ⟨Poly.ofCoeffs [-2, 0, 0, 1], ⟨1, 2, 0⟩⟩

theorem cbrtTwo_poly : cbrtTwo.poly.toPoly = X ^ 3 - C 2 := by
  rw [show cbrtTwo.poly.toPoly = _ from Poly.toPoly_ofCoeffs _]
  simp only [listPoly, map_one, map_neg, map_zero]
  ring

theorem cbrtTwo_degree : cbrtTwo.poly.toPoly.natDegree = 3 := by
  rw [cbrtTwo_poly]; compute_degree!

theorem cube_inj {y z : ℝ} (h : y ^ 3 = z ^ 3) : y = z := (Odd.strictMono_pow (by decide)).injective h

theorem cbrtTwo_represents : cbrtTwo.Represents (2 ^ (1 / 3 : ℝ)) := by
  have ht : ((2 : ℝ) ^ (1 / 3 : ℝ)) ^ 3 = 2 := by
    rw [← Real.rpow_natCast, ← Real.rpow_mul (by norm_num)]; norm_num
  have h0 : (0 : ℝ) ≤ (2 : ℝ) ^ (1 / 3 : ℝ) := by positivity
  set t := (2 : ℝ) ^ (1 / 3 : ℝ)
  have hev : ∀ y : ℝ, aeval y (X ^ 3 - C 2 : ℤ[X]) = y ^ 3 - 2 := by
    intro y
    simp only [map_sub, map_pow, aeval_X, aeval_C]
    norm_num
  refine ⟨?_, ?_, ?_, ?_, ?_⟩
  · have hm : (X ^ 3 - C 2 : ℤ[X]).Monic := by monicity!
    have hd : (X ^ 3 - C 2 : ℤ[X]).natDegree = 3 := by compute_degree!
    rw [cbrtTwo_poly, hm.irreducible_iff_roots_eq_zero_of_degree_le_three (by rw [hd]; norm_num)
      (by rw [hd]), Multiset.eq_zero_iff_forall_notMem]
    intro n hn
    have h3 := (mem_roots'.mp hn).2
    simp only [IsRoot, eval_sub, eval_pow, eval_X, eval_C] at h3
    have h4 : n < 2 := by
      by_contra h; push Not at h; nlinarith [sq_nonneg (n + 1), sq_nonneg n]
    have h5 : 0 < n := by
      by_contra h; push Not at h
      have : n ^ 3 ≤ 0 := Odd.pow_nonpos (by decide) h
      linarith
    interval_cases n
    norm_num at h3
  · rw [cbrtTwo_degree]; omega
  · rw [cbrtTwo_poly, hev, ht, sub_self]
  · simp only [DFI.Contains, cbrtTwo]
    constructor
    · norm_num
      by_contra h; push Not at h
      nlinarith [mul_nonneg h0 h0, mul_nonneg (mul_nonneg h0 h0) h0]
    · norm_num
      by_contra h; push Not at h
      nlinarith [mul_nonneg h0 h0]
  · intro y _ h1
    rw [cbrtTwo_poly, hev] at h1
    exact cube_inj (by rw [ht]; linarith)

theorem sqrtTwo_cbrtTwo : sqrtTwo.poly.toPoly.natDegree.Coprime cbrtTwo.poly.toPoly.natDegree := by
  rw [cbrtTwo_degree, show sqrtTwo.poly.toPoly = _ from toPoly_quadratic 0 (-2), quadratic_natDegree]
  decide

/-- the size of two polynomials given by their coefficients -/
theorem moderatePair_of_lists (l k : List ℤ) (g h : ℕ) (hl : ∀ c ∈ l, |c| < 2 ^ g)
    (hk : ∀ c ∈ k, |c| < 2 ^ h)
    (hsize : (l.length - 1) * (k.length - 1) * (9 * ((l.length - 1) * (k.length - 1)) +
      (k.length - 1) * g + (l.length - 1) * h + 1) < 2 ^ 29) :
    (Poly.ofCoeffs l).ModeratePair (Poly.ofCoeffs k) := by
  have bits : ∀ (m : List ℤ) (b : ℕ), (∀ c ∈ m, |c| < 2 ^ b) → ∀ i,
      |(Poly.ofCoeffs m).toPoly.coeff i| < 2 ^ b := by
    intro m b hm i
    rw [Poly.toPoly_ofCoeffs, listPoly_coeff, List.getD_eq_getElem?_getD]
    cases e : m[i]? with
    | none => simp
    | some c => exact hm c (List.mem_of_getElem? e)
  have deg : ∀ m : List ℤ, (Poly.ofCoeffs m).toPoly.natDegree ≤ m.length - 1 := by
    intro m
    rw [Poly.toPoly_ofCoeffs]
    refine natDegree_le_iff_coeff_eq_zero.mpr fun N hN => ?_
    rw [listPoly_coeff, List.getD_eq_getElem?_getD, List.getElem?_eq_none (by omega)]
    rfl
  refine ⟨g, h, bits l g hl, bits k h hk, lt_of_le_of_lt ?_ hsize⟩
  have h1 := deg l
  have h2 := deg k
  gcongr

theorem sqrtTwo_cbrtTwo_moderate : sqrtTwo.poly.ModeratePair cbrtTwo.poly :=
  moderatePair_of_lists [-2, 0, 1] [-2, 0, 0, 1] 2 2 (by decide) (by decide) (by norm_num)

/-- changing the signs of the coefficients keeps the size -/
theorem moderate_neg {b n : RealAlg} {y : ℝ} (hb : b.Represents y) (h : b.neg = .ok n) (p : Poly ℤ)
    (hm : p.ModeratePair b.poly) : p.ModeratePair n.poly := by
  obtain ⟨n', h1, -, h2, -⟩ := hb.neg
  rw [h1] at h
  cases h
  obtain ⟨g, k, hg, hk, hsize⟩ := hm
  have hdeg : n.poly.toPoly.natDegree = b.poly.toPoly.natDegree := by
    rw [h2, natDegree_C_mul (by simp), natDegree_comp]
    simp
  refine ⟨g, k, hg, fun i => ?_, by rwa [hdeg]⟩
  rw [h2, coeff_C_mul, Represents.comp_neg_X_coeff, abs_mul, abs_mul, abs_pow, abs_pow, abs_neg, abs_one, one_pow,
    one_pow, one_mul, one_mul]
  exact hk i

/-- reversing the coefficients keeps the size -/
theorem moderate_recip_irr {b r : RealAlg} {y : ℝ} (hb : b.Represents y) (hy : Irrational y) (fuel : ℕ)
    (h : b.checkedRecip fuel = .ok (some r)) (p : Poly ℤ) (hm : p.ModeratePair b.poly) :
    p.ModeratePair r.poly := by
  obtain ⟨N, hN⟩ := hb.checkedRecip_irr hy
  obtain ⟨r', h1, -, h2, hdeg, -⟩ := hN (max N fuel) (le_max_left _ _)
  have h3 := checkedRecip_mono b fuel _ h (max N fuel) (le_max_right _ _)
  rw [h1] at h3
  cases h3
  obtain ⟨g, k, hg, hk, hsize⟩ := hm
  refine ⟨g, k, hg, fun i => ?_, by rwa [hdeg]⟩
  rw [h2, coeff_reverse]
  exact hk _

theorem moderate_recip_rat {b : RealAlg} {q : ℚ} (hb : b.Represents q) (hq : q ≠ 0) (p : Poly ℤ)
    (hm : p.ModeratePair b.poly) : p.ModeratePair (ofRat q⁻¹).poly := by
  have lin : ∀ {a : RealAlg} {u : ℚ}, a.Represents u → a.poly.toPoly.natDegree = 1 ∧
      a.poly.toPoly.coeff 0 = -u.num ∧ a.poly.toPoly.coeff 1 = u.den := by
    intro a u ha
    rcases ha.rat_or_irr with ⟨v, hv, h1, h2, h3⟩ | ⟨-, h⟩
    · have : v = u := by exact_mod_cast hv
      subst this
      exact ⟨h1, h2, h3⟩
    · exact absurd ⟨u, rfl⟩ h
  obtain ⟨d1, c0, c1⟩ := lin hb
  obtain ⟨d1', c0', c1'⟩ := lin (ofRat_represents q⁻¹)
  obtain ⟨g, k, hg, hk, hsize⟩ := hm
  refine ⟨g, k, hg, fun i => ?_, by rw [d1']; rwa [d1] at hsize⟩
  have k0 := hk 0
  have k1 := hk 1
  rw [c0, abs_neg] at k0
  rw [c1] at k1
  have hnum : q.num ≠ 0 := Rat.num_ne_zero.mpr hq
  match i with
  | 0 =>
    rw [c0', abs_neg, Rat.num_inv, abs_mul]
    have : |q.num.sign| = 1 := by
      rcases lt_or_gt_of_ne hnum with h | h
      · rw [Int.sign_eq_neg_one_of_neg h]; rfl
      · rw [Int.sign_eq_one_of_pos h]; rfl
    rw [this, one_mul]
    exact k1
  | 1 =>
    rw [c1', Rat.den_inv, if_neg hnum]
    rw [Nat.abs_cast, Int.natCast_natAbs]
    exact k0
  | i + 2 =>
    rw [coeff_eq_zero_of_natDegree_lt (by rw [d1']; omega), abs_zero]
    positivity

/-- C44, in part: addition ends and is exact, with the code's own factoring and fair random numbers, for
numbers of moderate size whose degrees have no common factor. Missing: the other pairs, where the claim is
false (`C44_add_false`), and numbers of immense size. -/
theorem _root_.Algebraics.C44_add_total_partial (choose : ℕ → List ℕ → ℕ) (hc : Poly.HeapOrder choose)
    (rng : ℕ → ℕ) (hfair : Fair rng) (a b : RealAlg) (x y : ℝ) (ha : a.Represents x) (hb : b.Represents y)
    (hd : a.poly.toPoly.natDegree.Coprime b.poly.toPoly.natDegree) (hm : a.poly.ModeratePair b.poly) :
    ∃ M, ∀ ffuel ≥ M, ∃ N, ∀ fuel ≥ N, ∃ c,
      a.add (factorCall choose rng ffuel) fuel b = .ok c ∧ c.Represents (x + y) := by
  obtain ⟨M, hM⟩ := factorCall_returns_option choose hc rng hfair (addResultant a.poly b.poly)
    fun R h _ => addResultant_moderate _ _ R ha.ne_zero hb.ne_zero hm h
  refine ⟨M, fun ffuel hf => ?_⟩
  exact C44_add_coprime_partial choose hc rng ffuel a b x y ha hb hd fun R h =>
    hM ffuel hf R h (addResultant_ne_zero _ _ R ha.ne_zero hb.ne_zero h)

/-- `√2 + ∛2` -/
example (rng : ℕ → ℕ) (hfair : Fair rng) : ∃ M, ∀ ffuel ≥ M, ∃ N, ∀ fuel ≥ N, ∃ c,
    sqrtTwo.add (factorCall firstSmallest rng ffuel) fuel cbrtTwo = .ok c ∧
      c.Represents (√2 + 2 ^ (1 / 3 : ℝ)) :=
  C44_add_total_partial firstSmallest firstSmallest_order rng hfair sqrtTwo cbrtTwo _ _
    sqrtTwo_represents cbrtTwo_represents sqrtTwo_cbrtTwo sqrtTwo_cbrtTwo_moderate

/-- and random numbers that make it end exist -/
example : ∃ rng : ℕ → ℕ, ∃ ffuel fuel c,
    sqrtTwo.add (factorCall firstSmallest rng ffuel) fuel cbrtTwo = .ok c ∧
      c.Represents (√2 + 2 ^ (1 / 3 : ℝ)) := by
  obtain ⟨rng, hfair⟩ := exists_fair
  obtain ⟨M, hM⟩ := C44_add_total_partial firstSmallest firstSmallest_order rng hfair sqrtTwo cbrtTwo _ _
    sqrtTwo_represents cbrtTwo_represents sqrtTwo_cbrtTwo sqrtTwo_cbrtTwo_moderate
  obtain ⟨N, hN⟩ := hM M le_rfl
  exact ⟨rng, M, N, hN N le_rfl⟩

/-- C44, in part: the same for subtraction. -/
theorem _root_.Algebraics.C44_sub_total_partial (choose : ℕ → List ℕ → ℕ) (hc : Poly.HeapOrder choose)
    (rng : ℕ → ℕ) (hfair : Fair rng) (a b : RealAlg) (x y : ℝ) (ha : a.Represents x) (hb : b.Represents y)
    (hd : a.poly.toPoly.natDegree.Coprime b.poly.toPoly.natDegree) (hm : a.poly.ModeratePair b.poly) :
    ∃ M, ∀ ffuel ≥ M, ∃ N, ∀ fuel ≥ N, ∃ c,
      a.sub (factorCall choose rng ffuel) fuel b = .ok c ∧ c.Represents (x - y) := by
  obtain ⟨n, h1, h2, -⟩ := hb.neg
  obtain ⟨M, hM⟩ := factorCall_returns_option choose hc rng hfair (addResultant a.poly n.poly)
    fun R h _ => addResultant_moderate _ _ R ha.ne_zero h2.ne_zero (moderate_neg hb h1 _ hm) h
  refine ⟨M, fun ffuel hf => ?_⟩
  exact C44_sub_coprime_partial choose hc rng ffuel a b x y ha hb hd fun n' R h h' => by
    rw [h1] at h
    cases h
    exact hM ffuel hf R h' (addResultant_ne_zero _ _ R ha.ne_zero h2.ne_zero h')

/-- `√2 - ∛2` -/
example (rng : ℕ → ℕ) (hfair : Fair rng) : ∃ M, ∀ ffuel ≥ M, ∃ N, ∀ fuel ≥ N, ∃ c,
    sqrtTwo.sub (factorCall firstSmallest rng ffuel) fuel cbrtTwo = .ok c ∧
      c.Represents (√2 - 2 ^ (1 / 3 : ℝ)) :=
  C44_sub_total_partial firstSmallest firstSmallest_order rng hfair sqrtTwo cbrtTwo _ _
    sqrtTwo_represents cbrtTwo_represents sqrtTwo_cbrtTwo sqrtTwo_cbrtTwo_moderate

/-- C45, in part: multiplication ends and is exact, with the code's own factoring and fair random numbers,
for numbers of moderate size whose degrees have no common factor. Missing: the other pairs, where the claim
is false (`C45_mul_false`), and numbers of immense size. -/
theorem _root_.Algebraics.C45_mul_total_partial (choose : ℕ → List ℕ → ℕ) (hc : Poly.HeapOrder choose)
    (rng : ℕ → ℕ) (hfair : Fair rng) (a b : RealAlg) (x y : ℝ) (ha : a.Represents x) (hb : b.Represents y)
    (hd : a.poly.toPoly.natDegree.Coprime b.poly.toPoly.natDegree) (hm : a.poly.ModeratePair b.poly) :
    ∃ M, ∀ ffuel ≥ M, ∃ N, ∀ fuel ≥ N, ∃ c,
      a.mul (factorCall choose rng ffuel) fuel b = .ok c ∧ c.Represents (x * y) := by
  by_cases h0 : x = 0 ∨ y = 0
  · refine ⟨0, fun ffuel _ => ⟨0, fun fuel _ => ?_⟩⟩
    rw [mul_eq_zero.mpr h0]
    exact C45_mul_zero _ a b x y ha hb h0 fuel
  · push Not at h0
    obtain ⟨M, hM⟩ := factorCall_returns_option choose hc rng hfair (mulResultant a.poly b.poly)
      fun R h _ => mulResultant_moderate _ _ R (ha.coeff_zero_ne h0.1) (hb.coeff_zero_ne h0.2) hm h
    exact ⟨M, fun ffuel hf => C45_mul_coprime_partial choose hc rng ffuel a b x y ha hb hd (hM ffuel hf)⟩

/-- `√2 * ∛2` -/
example (rng : ℕ → ℕ) (hfair : Fair rng) : ∃ M, ∀ ffuel ≥ M, ∃ N, ∀ fuel ≥ N, ∃ c,
    sqrtTwo.mul (factorCall firstSmallest rng ffuel) fuel cbrtTwo = .ok c ∧
      c.Represents (√2 * 2 ^ (1 / 3 : ℝ)) :=
  C45_mul_total_partial firstSmallest firstSmallest_order rng hfair sqrtTwo cbrtTwo _ _
    sqrtTwo_represents cbrtTwo_represents sqrtTwo_cbrtTwo sqrtTwo_cbrtTwo_moderate

/-- C45, in part: division ends and is exact, with the code's own factoring and fair random numbers, for
numbers of moderate size whose degrees have no common factor, when the divisor is not zero and is the only
root of its sign of its polynomial (every rational divisor is). Missing: the other pairs, where the claim is
false (`C40_recip_false`, `C45_mul_false`), and numbers of immense size. -/
theorem _root_.Algebraics.C45_div_total_partial (choose : ℕ → List ℕ → ℕ) (hc : Poly.HeapOrder choose)
    (rng : ℕ → ℕ) (hfair : Fair rng) (a b : RealAlg) (x y : ℝ) (ha : a.Represents x) (hb : b.Represents y)
    (hy : y ≠ 0) (hs : ∀ z : ℝ, aeval z b.poly.toPoly = 0 → 0 < y * z → z = y)
    (hd : a.poly.toPoly.natDegree.Coprime b.poly.toPoly.natDegree) (hm : a.poly.ModeratePair b.poly) :
    ∃ M, ∀ ffuel ≥ M, ∃ N, ∀ fuel ≥ N, ∃ c,
      a.checkedExactDiv (factorCall choose rng ffuel) fuel b = .ok (some c) ∧
      a.div (factorCall choose rng ffuel) fuel b = .ok c ∧ c.Represents (x / y) := by
  obtain ⟨r, K, hK, hr, hdeg, hmr⟩ : ∃ (r : RealAlg) (K : ℕ),
      (∀ fuel ≥ K, b.checkedRecip fuel = .ok (some r)) ∧ r.Represents y⁻¹ ∧
      r.poly.toPoly.natDegree = b.poly.toPoly.natDegree ∧ a.poly.ModeratePair r.poly := by
    by_cases hirr : Irrational y
    · obtain ⟨K, hK⟩ := C40_recip_one_sign_partial b y hb hirr hs
      obtain ⟨r, h1, h2⟩ := hK K le_rfl
      obtain ⟨N, hN⟩ := hb.checkedRecip_irr hirr
      obtain ⟨r', h3, -, -, h4, -⟩ := hN (max N K) (le_max_left _ _)
      have h5 := checkedRecip_mono b K _ h1 (max N K) (le_max_right _ _)
      rw [h3] at h5
      cases h5
      exact ⟨r, K, fun fuel hf => checkedRecip_mono b K _ h1 fuel hf, h2, h4,
        moderate_recip_irr hb hirr K h1 _ hm⟩
    · obtain ⟨q, rfl⟩ := not_not.mp hirr
      have hq : q ≠ 0 := fun e => hy (by rw [e, Rat.cast_zero])
      have hr := ofRat_represents q⁻¹
      refine ⟨ofRat q⁻¹, 0, fun fuel _ => by rw [hb.checkedRecip_rat, if_neg hq], ?_, ?_,
        moderate_recip_rat hb hq _ hm⟩
      · rwa [Rat.cast_inv] at hr
      · rcases hr.rat_or_irr with ⟨-, -, h1, -⟩ | ⟨-, h⟩
        · rcases hb.rat_or_irr with ⟨-, -, h2, -⟩ | ⟨-, h⟩
          · rw [h1, h2]
          · exact absurd ⟨q, rfl⟩ h
        · exact absurd ⟨q⁻¹, rfl⟩ h
  obtain ⟨M, hM⟩ := C45_mul_total_partial choose hc rng hfair a r x y⁻¹ ha hr (by rwa [hdeg]) hmr
  refine ⟨M, fun ffuel hf => ?_⟩
  obtain ⟨N, hN⟩ := hM ffuel hf
  refine ⟨max K N, fun fuel hf => ?_⟩
  obtain ⟨c, h3, h4⟩ := hN fuel (le_trans (le_max_right _ _) hf)
  have h6 : a.checkedExactDiv (factorCall choose rng ffuel) fuel b = .ok (some c) := by
    unfold checkedExactDiv
    rw [hK fuel (le_trans (le_max_left _ _) hf)]
    simp [bind, Except.bind, pure, Except.pure, h3]
  refine ⟨c, h6, ?_, by rwa [div_eq_mul_inv]⟩
  unfold RealAlg.div
  rw [h6]
  rfl

/-- `√2 / ∛2` -/
example (rng : ℕ → ℕ) (hfair : Fair rng) : ∃ M, ∀ ffuel ≥ M, ∃ N, ∀ fuel ≥ N, ∃ c,
    sqrtTwo.checkedExactDiv (factorCall firstSmallest rng ffuel) fuel cbrtTwo = .ok (some c) ∧
    sqrtTwo.div (factorCall firstSmallest rng ffuel) fuel cbrtTwo = .ok c ∧
      c.Represents (√2 / 2 ^ (1 / 3 : ℝ)) :=
  C45_div_total_partial firstSmallest firstSmallest_order rng hfair sqrtTwo cbrtTwo _ _
    sqrtTwo_represents cbrtTwo_represents (by positivity) (fun z hz _ => by
      have h1 := cbrtTwo_represents.root
      rw [cbrtTwo_poly] at hz h1
      simp only [map_sub, map_pow, aeval_X, aeval_C] at hz h1
      exact cube_inj (by linarith)) sqrtTwo_cbrtTwo sqrtTwo_cbrtTwo_moderate

/-- C46, in part: comparison ends and is right, with the code's own factoring and fair random numbers, for
numbers of moderate size whose degrees have no common factor. Missing: the other pairs, where the claim is
false (`C46_eq_false`), and numbers of immense size. -/
theorem _root_.Algebraics.C46_total_partial (choose : ℕ → List ℕ → ℕ) (hc : Poly.HeapOrder choose)
    (rng : ℕ → ℕ) (hfair : Fair rng) (a b : RealAlg) (x y : ℝ) (ha : a.Represents x) (hb : b.Represents y)
    (hd : a.poly.toPoly.natDegree.Coprime b.poly.toPoly.natDegree) (hm : a.poly.ModeratePair b.poly) :
    ∃ M, ∀ ffuel ≥ M, ∃ N, ∀ fuel ≥ N,
      (∃ e, a.eq (factorCall choose rng ffuel) fuel b = .ok e ∧ (e = true ↔ x = y)) ∧
      ∃ o, a.cmp (factorCall choose rng ffuel) fuel b = .ok o ∧
        (o = .lt ↔ x < y) ∧ (o = .eq ↔ x = y) ∧ (o = .gt ↔ y < x) := by
  obtain ⟨n, h1, h2, -⟩ := hb.neg
  obtain ⟨M, hM⟩ := factorCall_returns_option choose hc rng hfair (addResultant a.poly n.poly)
    fun R h _ => addResultant_moderate _ _ R ha.ne_zero h2.ne_zero (moderate_neg hb h1 _ hm) h
  refine ⟨M, fun ffuel hf => ?_⟩
  exact C46_coprime_partial choose hc rng ffuel a b x y ha hb hd fun n' R h h' => by
    rw [h1] at h
    cases h
    exact hM ffuel hf R h' (addResultant_ne_zero _ _ R ha.ne_zero h2.ne_zero h')

/-- `√2` and `∛2` -/
example (rng : ℕ → ℕ) (hfair : Fair rng) : ∃ M, ∀ ffuel ≥ M, ∃ N, ∀ fuel ≥ N,
    ∃ o, sqrtTwo.cmp (factorCall firstSmallest rng ffuel) fuel cbrtTwo = .ok o ∧
      (o = .gt ↔ (2 : ℝ) ^ (1 / 3 : ℝ) < √2) := by
  obtain ⟨M, hM⟩ := C46_total_partial firstSmallest firstSmallest_order rng hfair sqrtTwo cbrtTwo _ _
    sqrtTwo_represents cbrtTwo_represents sqrtTwo_cbrtTwo sqrtTwo_cbrtTwo_moderate
  refine ⟨M, fun ffuel hf => ?_⟩
  obtain ⟨N, hN⟩ := hM ffuel hf
  refine ⟨N, fun fuel hf => ?_⟩
  obtain ⟨-, o, h1, -, -, h2⟩ := hN fuel hf
  exact ⟨o, h1, h2⟩

/-! ## Algebraic integers, and other numbers with small leading coefficients -/

theorem neg_leading {b n : RealAlg} {y : ℝ} (hb : b.Represents y) (h : b.neg = .ok n) :
    |n.poly.toPoly.leadingCoeff| = |b.poly.toPoly.leadingCoeff| := by
  have hdeg := neg_natDegree hb h
  obtain ⟨n', h1, -, h2, -⟩ := hb.neg
  rw [h1] at h
  cases h
  rw [leadingCoeff, leadingCoeff, hdeg, h2, coeff_C_mul, Represents.comp_neg_X_coeff, abs_mul, abs_mul,
    abs_pow, abs_neg, abs_one, one_pow, one_mul, one_mul]

/-- C44, in part: addition ends and is exact, with the code's own factoring and fair random numbers, for
numbers of moderate size with small leading coefficients, for example algebraic integers, unless a conjugate
of `y` differs from `-x` by a rational number other than `x + y`. Missing: that case, where the claim is
false (`C44_add_false`), larger leading coefficients, and numbers of immense size. -/
theorem _root_.Algebraics.C44_add_total_integers_partial (choose : ℕ → List ℕ → ℕ)
    (hc : Poly.HeapOrder choose) (rng : ℕ → ℕ) (hfair : Fair rng) (a b : RealAlg) (x y : ℝ)
    (ha : a.Represents x) (hb : b.Represents y)
    (hl : |a.poly.toPoly.leadingCoeff| ^ b.poly.toPoly.natDegree *
      |b.poly.toPoly.leadingCoeff| ^ a.poly.toPoly.natDegree ≤ 4)
    (hq : ∀ q : ℚ, aeval ((q : ℝ) - x) b.poly.toPoly = 0 → (q : ℝ) = x + y)
    (hm : a.poly.ModeratePair b.poly) :
    ∃ M, ∀ ffuel ≥ M, ∃ N, ∀ fuel ≥ N, ∃ c,
      a.add (factorCall choose rng ffuel) fuel b = .ok c ∧ c.Represents (x + y) := by
  obtain ⟨M, hM⟩ := factorCall_returns_option choose hc rng hfair (addResultant a.poly b.poly)
    fun R h _ => addResultant_moderate _ _ R ha.ne_zero hb.ne_zero hm h
  refine ⟨M, fun ffuel hf => ?_⟩
  refine C44_add_unrelated_partial _ a b x y ha hb (fun R hR => ?_) hq
  refine factorCall_right choose hc rng ffuel R ?_
    (hM ffuel hf R hR (addResultant_ne_zero _ _ R ha.ne_zero hb.ne_zero hR))
  rw [addResultant_leading _ _ R ha.ne_zero hb.ne_zero hR, abs_mul, abs_pow, abs_pow]
  exact hl

/-- the square root of three, with isolating interval `[1, 2]`. -/
def sqrtThree : RealAlg := ⟨Poly.ofCoeffs [-3, 0, 1], ⟨1, 2, 0⟩⟩

theorem sqrtThree_poly : sqrtThree.poly.toPoly = X ^ 2 + C 0 * X + C (-3) := toPoly_quadratic 0 (-3)

theorem sqrtThree_represents : sqrtThree.Represents (√3) := by
  have hs : √3 ^ 2 = (3 : ℝ) := Real.sq_sqrt (by norm_num)
  have h0 : 0 ≤ √3 := Real.sqrt_nonneg 3
  have hp := sqrtThree_poly
  refine ⟨?_, ?_, ?_, ?_, ?_⟩
  · rw [hp]
    apply quadratic_irreducible
    intro n hn
    have h2 : n < 2 := by nlinarith
    have h3 : -2 < n := by nlinarith
    interval_cases n <;> omega
  · rw [hp, quadratic_natDegree]; omega
  · rw [hp, quadratic_aeval, hs]; norm_num
  · simp only [DFI.Contains, sqrtThree]
    constructor
    · norm_num
    · norm_num
      nlinarith
  · intro y hy h1
    rw [hp, quadratic_aeval] at h1
    simp only [DFI.Contains, sqrtThree] at hy
    norm_num at hy h1
    nlinarith

theorem monic_pair : |sqrtTwo.poly.toPoly.leadingCoeff| ^ sqrtThree.poly.toPoly.natDegree *
    |sqrtThree.poly.toPoly.leadingCoeff| ^ sqrtTwo.poly.toPoly.natDegree ≤ 4 := by
  have hm : ∀ b c : ℤ, (X ^ 2 + C b * X + C c : ℤ[X]).leadingCoeff = 1 := by
    intro b c
    have : (X ^ 2 + C b * X + C c : ℤ[X]).Monic := by monicity!
    exact this
  rw [sqrtThree_poly, show sqrtTwo.poly.toPoly = _ from toPoly_quadratic 0 (-2), hm, hm]
  norm_num

theorem sqrtTwo_sqrtThree_moderate : sqrtTwo.poly.ModeratePair sqrtThree.poly :=
  moderatePair_of_lists [-2, 0, 1] [-3, 0, 1] 2 2 (by decide) (by decide) (by norm_num)

theorem rat_ne_sqrt (r : ℚ) : (r : ℝ) ≠ √2 := fun h => irrational_sqrt_two ⟨r, h⟩

theorem sqrt_apart (q : ℚ) : ((q : ℝ) - √2) ^ 2 ≠ 3 := by
  intro h
  have hs : √2 ^ 2 = (2 : ℝ) := Real.sq_sqrt (by norm_num)
  by_cases h0 : q = 0
  · subst h0
    norm_num at h
  · have hq : (q : ℝ) ≠ 0 := by exact_mod_cast h0
    apply rat_ne_sqrt ((q ^ 2 - 1) / (2 * q))
    push_cast
    rw [div_eq_iff (by positivity)]
    nlinarith

/-- `√2 + √3` -/
example (rng : ℕ → ℕ) (hfair : Fair rng) : ∃ M, ∀ ffuel ≥ M, ∃ N, ∀ fuel ≥ N, ∃ c,
    sqrtTwo.add (factorCall firstSmallest rng ffuel) fuel sqrtThree = .ok c ∧ c.Represents (√2 + √3) :=
  C44_add_total_integers_partial firstSmallest firstSmallest_order rng hfair sqrtTwo sqrtThree _ _
    sqrtTwo_represents sqrtThree_represents monic_pair (fun q h => by
      rw [sqrtThree_poly, quadratic_aeval] at h
      exact absurd (by push_cast at h; linarith) (sqrt_apart q)) sqrtTwo_sqrtThree_moderate

/-- C44, in part: the same for subtraction. -/
theorem _root_.Algebraics.C44_sub_total_integers_partial (choose : ℕ → List ℕ → ℕ)
    (hc : Poly.HeapOrder choose) (rng : ℕ → ℕ) (hfair : Fair rng) (a b : RealAlg) (x y : ℝ)
    (ha : a.Represents x) (hb : b.Represents y)
    (hl : |a.poly.toPoly.leadingCoeff| ^ b.poly.toPoly.natDegree *
      |b.poly.toPoly.leadingCoeff| ^ a.poly.toPoly.natDegree ≤ 4)
    (hq : ∀ q : ℚ, aeval (x - (q : ℝ)) b.poly.toPoly = 0 → (q : ℝ) = x - y)
    (hm : a.poly.ModeratePair b.poly) :
    ∃ M, ∀ ffuel ≥ M, ∃ N, ∀ fuel ≥ N, ∃ c,
      a.sub (factorCall choose rng ffuel) fuel b = .ok c ∧ c.Represents (x - y) := by
  obtain ⟨n, h1, h2, -⟩ := hb.neg
  obtain ⟨M, hM⟩ := factorCall_returns_option choose hc rng hfair (addResultant a.poly n.poly)
    fun R h _ => addResultant_moderate _ _ R ha.ne_zero h2.ne_zero (moderate_neg hb h1 _ hm) h
  refine ⟨M, fun ffuel hf => ?_⟩
  refine C44_sub_unrelated_partial _ a b x y ha hb (fun n' R h hR => ?_) hq
  rw [h1] at h
  cases h
  refine factorCall_right choose hc rng ffuel R ?_
    (hM ffuel hf R hR (addResultant_ne_zero _ _ R ha.ne_zero h2.ne_zero hR))
  rw [addResultant_leading _ _ R ha.ne_zero h2.ne_zero hR, abs_mul, abs_pow, abs_pow, neg_leading hb h1,
    neg_natDegree hb h1]
  exact hl

/-- `√2 - √3` -/
example (rng : ℕ → ℕ) (hfair : Fair rng) : ∃ M, ∀ ffuel ≥ M, ∃ N, ∀ fuel ≥ N, ∃ c,
    sqrtTwo.sub (factorCall firstSmallest rng ffuel) fuel sqrtThree = .ok c ∧ c.Represents (√2 - √3) :=
  C44_sub_total_integers_partial firstSmallest firstSmallest_order rng hfair sqrtTwo sqrtThree _ _
    sqrtTwo_represents sqrtThree_represents monic_pair (fun q h => by
      rw [sqrtThree_poly, quadratic_aeval] at h
      exact absurd (by push_cast at h; linarith) (sqrt_apart q)) sqrtTwo_sqrtThree_moderate

/-- C46, in part: `==` and comparison end and are right under the same conditions. -/
theorem _root_.Algebraics.C46_total_integers_partial (choose : ℕ → List ℕ → ℕ)
    (hc : Poly.HeapOrder choose) (rng : ℕ → ℕ) (hfair : Fair rng) (a b : RealAlg) (x y : ℝ)
    (ha : a.Represents x) (hb : b.Represents y)
    (hl : |a.poly.toPoly.leadingCoeff| ^ b.poly.toPoly.natDegree *
      |b.poly.toPoly.leadingCoeff| ^ a.poly.toPoly.natDegree ≤ 4)
    (hq : ∀ q : ℚ, aeval (x - (q : ℝ)) b.poly.toPoly = 0 → (q : ℝ) = x - y)
    (hm : a.poly.ModeratePair b.poly) :
    ∃ M, ∀ ffuel ≥ M, ∃ N, ∀ fuel ≥ N,
      (∃ e, a.eq (factorCall choose rng ffuel) fuel b = .ok e ∧ (e = true ↔ x = y)) ∧
      ∃ o, a.cmp (factorCall choose rng ffuel) fuel b = .ok o ∧
        (o = .lt ↔ x < y) ∧ (o = .eq ↔ x = y) ∧ (o = .gt ↔ y < x) := by
  obtain ⟨M, hM⟩ := C44_sub_total_integers_partial choose hc rng hfair a b x y ha hb hl hq hm
  refine ⟨M, fun ffuel hf => ?_⟩
  obtain ⟨N, hN⟩ := hM ffuel hf
  refine ⟨N, fun fuel hf => ?_⟩
  obtain ⟨c, h1, h2⟩ := hN fuel hf
  exact cmp_of_sub _ a b c x y fuel h1 h2

/-- `√2 < √3` -/
example (rng : ℕ → ℕ) (hfair : Fair rng) : ∃ M, ∀ ffuel ≥ M, ∃ N, ∀ fuel ≥ N,
    sqrtTwo.cmp (factorCall firstSmallest rng ffuel) fuel sqrtThree = .ok .lt := by
  obtain ⟨M, hM⟩ := C46_total_integers_partial firstSmallest firstSmallest_order rng hfair sqrtTwo sqrtThree
    _ _ sqrtTwo_represents sqrtThree_represents monic_pair (fun q h => by
      rw [sqrtThree_poly, quadratic_aeval] at h
      exact absurd (by push_cast at h; linarith) (sqrt_apart q)) sqrtTwo_sqrtThree_moderate
  refine ⟨M, fun ffuel hf => ?_⟩
  obtain ⟨N, hN⟩ := hM ffuel hf
  refine ⟨N, fun fuel hf => ?_⟩
  obtain ⟨-, o, h1, h2, -⟩ := hN fuel hf
  rw [h1, h2.mpr (Real.sqrt_lt_sqrt (by norm_num) (by norm_num))]

/-- C45, in part: multiplication ends and is exact, with the code's own factoring and fair random numbers,
for numbers of moderate size with small leading coefficients, for example algebraic integers, unless a
conjugate of `y` is a rational multiple of `1 / x` other than `y`. Missing: that case, where the claim is
false (`C45_mul_false`), larger leading coefficients, and numbers of immense size. -/
theorem _root_.Algebraics.C45_mul_total_integers_partial (choose : ℕ → List ℕ → ℕ)
    (hc : Poly.HeapOrder choose) (rng : ℕ → ℕ) (hfair : Fair rng) (a b : RealAlg) (x y : ℝ)
    (ha : a.Represents x) (hb : b.Represents y)
    (hl : |a.poly.toPoly.leadingCoeff| ^ b.poly.toPoly.natDegree *
      |b.poly.toPoly.leadingCoeff| ^ a.poly.toPoly.natDegree ≤ 4)
    (hq : ∀ q : ℚ, aeval ((q : ℝ) / x) b.poly.toPoly = 0 → (q : ℝ) = x * y)
    (hm : a.poly.ModeratePair b.poly) :
    ∃ M, ∀ ffuel ≥ M, ∃ N, ∀ fuel ≥ N, ∃ c,
      a.mul (factorCall choose rng ffuel) fuel b = .ok c ∧ c.Represents (x * y) := by
  by_cases h0 : x = 0 ∨ y = 0
  · refine ⟨0, fun ffuel _ => ⟨0, fun fuel _ => ?_⟩⟩
    rw [mul_eq_zero.mpr h0]
    exact C45_mul_zero _ a b x y ha hb h0 fuel
  · push Not at h0
    have hx := ha.coeff_zero_ne h0.1
    have hy := hb.coeff_zero_ne h0.2
    obtain ⟨M, hM⟩ := factorCall_returns_option choose hc rng hfair (mulResultant a.poly b.poly)
      fun R h _ => mulResultant_moderate _ _ R hx hy hm h
    refine ⟨M, fun ffuel hf => ?_⟩
    refine C45_mul_unrelated_partial _ a b x y ha hb (fun R hR hR0 => ?_) hq
    refine factorCall_right choose hc rng ffuel R ?_ (hM ffuel hf R hR hR0)
    rw [mulResultant_leading _ _ R hx hy hR, abs_mul, abs_pow, abs_pow]
    exact hl

/-- `√2 * √3` -/
example (rng : ℕ → ℕ) (hfair : Fair rng) : ∃ M, ∀ ffuel ≥ M, ∃ N, ∀ fuel ≥ N, ∃ c,
    sqrtTwo.mul (factorCall firstSmallest rng ffuel) fuel sqrtThree = .ok c ∧ c.Represents (√2 * √3) :=
  C45_mul_total_integers_partial firstSmallest firstSmallest_order rng hfair sqrtTwo sqrtThree _ _
    sqrtTwo_represents sqrtThree_represents monic_pair (fun q h => by
      rw [sqrtThree_poly, quadratic_aeval] at h
      exfalso
      have hs : √2 ^ 2 = (2 : ℝ) := Real.sq_sqrt (by norm_num)
      push_cast at h
      rw [div_pow, hs] at h
      have h6 : (q : ℝ) ^ 2 = 6 := by linarith
      have h6' : q ^ 2 = 6 := by exact_mod_cast h6
      have h7 : ¬ IsSquare (6 : ℚ) := by
        rw [Rat.isSquare_iff]
        rintro ⟨⟨n, hn⟩, -⟩
        have e : (6 : ℚ).num = 6 := rfl
        rw [e] at hn
        have : n < 3 := by nlinarith
        have : -3 < n := by nlinarith
        interval_cases n <;> omega
      exact h7 ⟨q, by rw [← h6', sq]⟩) sqrtTwo_sqrtThree_moderate

/-! ## C43 and C58 -/

/-- C43, in part: `fract` of an irrational number ends and is exactly `x - floor(x)`, with the code's own
factoring and fair random numbers, for numbers of moderate size. -/
theorem _root_.Algebraics.C43_fract_total_partial (choose : ℕ → List ℕ → ℕ) (hc : Poly.HeapOrder choose)
    (rng : ℕ → ℕ) (hfair : Fair rng) (a : RealAlg) (x : ℝ) (h : a.Represents x) (hx : Irrational x)
    (hm : a.poly.ModeratePair (ofInt ⌊x⌋).poly) :
    ∃ M, ∀ ffuel ≥ M, ∃ N, ∀ fuel ≥ N, ∃ c, a.fract (factorCall choose rng ffuel) fuel = .ok c ∧
      c.Represents (x - ⌊x⌋) := by
  obtain ⟨n, h1, h2, -⟩ := (ofInt_represents ⌊x⌋).neg
  obtain ⟨M, hM⟩ := factorCall_returns_option choose hc rng hfair (addResultant a.poly n.poly)
    fun R hR _ => addResultant_moderate _ _ R h.ne_zero h2.ne_zero
      (moderate_neg (ofInt_represents _) h1 _ hm) hR
  refine ⟨M, fun ffuel hf => ?_⟩
  refine C43_fract_own_factor_partial choose hc rng ffuel a x h hx fun n' R hn hR => ?_
  rw [h1] at hn
  cases hn
  exact hM ffuel hf R hR (addResultant_ne_zero _ _ R h.ne_zero h2.ne_zero hR)

/-- the fractional part of `√2` -/
example (rng : ℕ → ℕ) (hfair : Fair rng) : ∃ M, ∀ ffuel ≥ M, ∃ N, ∀ fuel ≥ N, ∃ c,
    sqrtTwo.fract (factorCall firstSmallest rng ffuel) fuel = .ok c ∧ c.Represents (√2 - ⌊√2⌋) :=
  C43_fract_total_partial firstSmallest firstSmallest_order rng hfair sqrtTwo _ sqrtTwo_represents
    irrational_sqrt_two (by
      have : ⌊√2⌋ = 1 := by
        rw [Int.floor_eq_iff]
        constructor
        · push_cast
          rw [Real.le_sqrt' (by norm_num)]
          norm_num
        · push_cast
          rw [Real.sqrt_lt' (by norm_num)]
          norm_num
      rw [this]
      exact moderatePair_of_lists [-2, 0, 1] [-1, 1] 2 2 (by decide) (by decide) (by norm_num))

/-- C58, in part: the remainder of a division of an irrational number by a rational number other than zero
ends and is exact, with the code's own factoring and fair random numbers, for numbers of moderate size. -/
theorem _root_.Algebraics.C58_rem_total_partial (choose : ℕ → List ℕ → ℕ) (hc : Poly.HeapOrder choose)
    (rng : ℕ → ℕ) (hfair : Fair rng) (a b : RealAlg) (x : ℝ) (q : ℚ) (ha : a.Represents x)
    (hx : Irrational x) (hb : b.Represents q) (hq : q ≠ 0) (hm : a.poly.ModeratePair b.poly)
    (hm' : a.poly.ModeratePair (ofRat (truncate (x / q) * q)).poly) :
    |x - truncate (x / q) * q| < |(q : ℝ)| ∧ 0 ≤ (x - truncate (x / q) * q) * x ∧
    ∃ M, ∀ ffuel ≥ M, ∃ N, ∀ fuel ≥ N, ∃ c, a.rem (factorCall choose rng ffuel) fuel b = .ok c ∧
      c.Represents (x - truncate (x / q) * q) := by
  have hx0 : x ≠ 0 := by
    rintro rfl
    exact hx ⟨0, by simp⟩
  have hr := ofRat_represents q⁻¹
  have hr0 : ((q⁻¹ : ℚ) : ℝ) ≠ 0 := by exact_mod_cast inv_ne_zero hq
  obtain ⟨M, hM⟩ := factorCall_returns_option choose hc rng hfair (mulResultant a.poly (ofRat q⁻¹).poly)
    fun R h _ => mulResultant_moderate _ _ R (ha.coeff_zero_ne hx0) (hr.coeff_zero_ne hr0)
      (moderate_recip_rat hb hq _ hm) h
  have ht := ofRat_represents (truncate (x / q) * q)
  obtain ⟨n, h1, h2, -⟩ := ht.neg
  obtain ⟨M', hM'⟩ := factorCall_returns_option choose hc rng hfair (addResultant a.poly n.poly)
    fun R hR _ => addResultant_moderate _ _ R ha.ne_zero h2.ne_zero (moderate_neg ht h1 _ hm') hR
  have key : ∀ ffuel ≥ max M M', _ := fun ffuel hf =>
    C58_rem_own_factor_partial choose hc rng ffuel a b x q ha hx hb hq
      (hM ffuel (le_trans (le_max_left _ _) hf)) fun n' R hn hR => by
        rw [h1] at hn
        cases hn
        exact hM' ffuel (le_trans (le_max_right _ _) hf) R hR
          (addResultant_ne_zero _ _ R ha.ne_zero h2.ne_zero hR)
  obtain ⟨k1, k2, -⟩ := key _ le_rfl
  exact ⟨k1, k2, max M M', fun ffuel hf => (key ffuel hf).2.2⟩

/-- the remainder of `√2` divided by `1/2` is `√2 - 1` -/
example (rng : ℕ → ℕ) (hfair : Fair rng) : ∃ M, ∀ ffuel ≥ M, ∃ N, ∀ fuel ≥ N, ∃ c,
    sqrtTwo.rem (factorCall firstSmallest rng ffuel) fuel (ofRat (1 / 2)) = .ok c ∧
      c.Represents (√2 - 1) := by
  have ht : truncate (√2 / ((1 / 2 : ℚ) : ℝ)) = 2 := by
    have h0 : 0 ≤ √2 / ((1 / 2 : ℚ) : ℝ) := by positivity
    rw [truncate, if_pos h0, Int.floor_eq_iff]
    have h1 : 1 ≤ √2 := by rw [Real.le_sqrt' (by norm_num)]; norm_num
    have h2 : √2 < 3 / 2 := by rw [Real.sqrt_lt' (by norm_num)]; norm_num
    push_cast
    constructor <;> linarith
  have := (C58_rem_total_partial firstSmallest firstSmallest_order rng hfair sqrtTwo (ofRat (1 / 2)) _ (1 / 2)
    sqrtTwo_represents irrational_sqrt_two (ofRat_represents _) (by norm_num)
    (by
      rw [show ofRat (1 / 2) = ⟨Poly.ofCoeffs [-1, 2], (ofRat (1 / 2)).interval⟩ by decide +kernel]
      exact moderatePair_of_lists [-2, 0, 1] [-1, 2] 2 2 (by decide) (by decide) (by norm_num))
    (by
      rw [ht, show ofRat (((2 : ℤ) : ℚ) * (1 / 2)) = ofInt 1 by decide +kernel]
      exact moderatePair_of_lists [-2, 0, 1] [-1, 1] 2 2 (by decide) (by decide) (by norm_num))).2.2
  rw [ht] at this
  simpa using this

end RealAlg

end Algebraics
