import Verif.Props.AlgNumProduct
import Verif.Lemmas.SelectExact

/-!
# C45: exactly when a quotient is wrong; quotients that are rational numbers; `a / a`
-/

namespace Algebraics

open Polynomial RealAlg

namespace RealAlg

/-- division by a number whose reciprocal is found is multiplication by the reciprocal -/
theorem checkedExactDiv_recip (F : FactorCall) {a b r : RealAlg} {M : ℕ}
    (hr : b.checkedRecip M = .ok (some r)) {fuel : ℕ} (hf : M ≤ fuel) (c : RealAlg) :
    (a.checkedExactDiv F fuel b = .ok (some c) ↔ a.mul F fuel r = .ok c) ∧
      (a.div F fuel b = .ok c ↔ a.mul F fuel r = .ok c) := by
  have h := checkedRecip_mono b M _ hr fuel hf
  have e : a.checkedExactDiv F fuel b = (a.mul F fuel r).map some := by
    unfold checkedExactDiv
    rw [h]
    cases h' : a.mul F fuel r <;> simp [bind, Except.bind, pure, Except.pure, h', Except.map]
  unfold RealAlg.div
  rw [e]
  cases a.mul F fuel r <;> simp [Except.map, bind, Except.bind, orPanic]

/-- two intervals without members of both signs: no product of members has the opposite sign -/
theorem mul_no_opposite {i j : DFI} {x y v : ℝ} (hx : i.Contains x) (hy : j.Contains y) (hv : x * y = v)
    (hv0 : v ≠ 0) (hi : ∀ z, i.Contains z → 0 ≤ x * z) (hj : ∀ z, j.Contains z → 0 ≤ y * z) :
    ¬ (i.mul j).Contains (-v) := by
  intro h3
  have key : ∀ (i : DFI) (z X : ℝ), (∀ w, i.Contains w → 0 ≤ z * w) → i.Contains z →
      (X = i.lowerBound ∨ X = i.upperBound) → 0 ≤ z * X := by
    intro i z X hz hi hX
    refine hz X ?_
    obtain ⟨e1, e2⟩ := (DFI.contains_iff_bounds _ _).mp hi
    rw [DFI.contains_iff_bounds]
    rcases hX with rfl | rfl
    · exact ⟨le_rfl, e1.trans e2⟩
    · exact ⟨e1.trans e2, le_rfl⟩
  obtain ⟨X, Y, X', Y', hX, hY, hX', hY', e1, e2⟩ := mul_ends i j
  have p1 := mul_nonneg (key _ x X hi hx hX) (key _ y Y hj hy hY)
  have p2 := mul_nonneg (key _ x X' hi hx hX') (key _ y Y' hj hy hY')
  rw [show x * X * (y * Y) = v * (X * Y) by rw [← hv]; ring] at p1
  rw [show x * X' * (y * Y') = v * (X' * Y') by rw [← hv]; ring] at p2
  rw [DFI.contains_iff_bounds] at h3
  have hP : (0 : ℝ) < 2 ^ (i.mul j).log2Denom := by positivity
  rcases lt_or_gt_of_ne hv0 with h | h
  · have q2 : X' * Y' ≤ 0 := by
      by_contra hc
      exact absurd p2 (not_le.mpr (mul_neg_of_neg_of_pos h (not_le.mp hc)))
    have := h3.2
    rw [DFI.upperBound_real, e2, le_div_iff₀ hP] at this
    have hc : (⌈X' * Y' * 2 ^ (i.mul j).log2Denom⌉ : ℝ) ≤ 0 := by
      have := Int.ceil_le.mpr (show X' * Y' * 2 ^ (i.mul j).log2Denom ≤ (0 : ℤ) by
        rw [Int.cast_zero]; exact mul_nonpos_of_nonpos_of_nonneg q2 hP.le)
      exact_mod_cast (Int.cast_le (R := ℝ)).mpr this
    have := mul_pos (neg_pos.mpr h) hP
    linarith
  · have q1 : 0 ≤ X * Y := by
      by_contra hc
      exact absurd p1 (not_le.mpr (mul_neg_of_pos_of_neg h (not_le.mp hc)))
    have := h3.1
    rw [DFI.lowerBound_real, e1, div_le_iff₀ hP] at this
    have hc : (0 : ℝ) ≤ ⌊X * Y * 2 ^ (i.mul j).log2Denom⌋ := by
      have := Int.le_floor.mpr (show ((0 : ℤ) : ℝ) ≤ X * Y * 2 ^ (i.mul j).log2Denom by
        rw [Int.cast_zero]; exact mul_nonneg q1 hP.le)
      exact_mod_cast (Int.cast_le (R := ℝ)).mpr this
    have := mul_pos h hP
    linarith

/-- the interval of a reciprocal has no members of both signs -/
theorem recip_one_sign {b r : RealAlg} {y : ℝ} (hb : b.Represents y) (hy : Irrational y) {M : ℕ}
    (hr : b.checkedRecip M = .ok (some r)) (z : ℝ) (hz : r.interval.Contains z) : 0 ≤ y⁻¹ * z := by
  obtain ⟨N, hN⟩ := hb.checkedRecip_irr hy
  obtain ⟨b', h1, -, -, -, -, -, h2, h3⟩ := hN (max N M) (le_max_left _ _)
  rw [checkedRecip_mono b M _ hr _ (le_max_right N M)] at h1
  cases h1
  have hy0 : y ≠ 0 := fun e => hy ⟨0, by simp [e]⟩
  rcases lt_or_gt_of_ne hy0 with h | h
  · have e1 : (r.interval.hi : ℝ) ≤ 0 := by exact_mod_cast h3 h
    exact mul_nonneg_of_nonpos_of_nonpos (inv_lt_zero.mpr h).le
      (hz.2.trans (div_nonpos_of_nonpos_of_nonneg e1 (by positivity)))
  · have e1 : (0 : ℝ) ≤ r.interval.lo := by exact_mod_cast h2 h
    exact mul_nonneg (inv_pos.mpr h).le (le_trans (by positivity) hz.1)

end RealAlg

/-- C45: exactly when division is wrong, for a divisor `y` whose reciprocal `r` comes out right (when that
is so is said by `C40_recip_exact_iff`): for irrational numbers with an irrational quotient, the quotient is
exact if and only if no end point of the intervals of `a` times `r` is hit; if one is hit, a rational number
is returned.  It is also exact if one of the numbers is rational. -/
theorem C45_div_exact_iff (F : FactorCall) (a b r : RealAlg) (x y : ℝ) (M : ℕ) (ha : a.Represents x)
    (hr : b.checkedRecip M = .ok (some r)) (hry : r.Represents y⁻¹)
    (hF : ∀ R, mulResultant a.poly r.poly = some R → R.toPoly ≠ 0 → FactorsRight F R)
    (hxy : ¬ Irrational x ∨ ¬ Irrational y ∨ Irrational (x / y)) :
    ((∃ N, ∀ fuel ≥ N, ∃ c, a.div F fuel b = .ok c ∧ c.Represents (x / y)) ↔
      ¬ (Irrational x ∧ Irrational y ∧ EndpointHit (· * ·) DFI.mul a r)) ∧
    (Irrational x ∧ Irrational y ∧ EndpointHit (· * ·) DFI.mul a r →
      ∃ N, ∃ q : ℚ, ∀ fuel ≥ N, a.div F fuel b = .ok (ofRat q)) := by
  have hinv : Irrational y⁻¹ ↔ Irrational y := irrational_inv_iff
  obtain ⟨h1, h2⟩ := C45_mul_exact_iff F a r x y⁻¹ ha hry hF (by
    rwa [hinv, ← div_eq_mul_inv])
  rw [hinv, ← div_eq_mul_inv] at h1
  rw [hinv] at h2
  refine ⟨Iff.trans ⟨?_, ?_⟩ h1, fun h => ?_⟩
  · rintro ⟨N, hN⟩
    refine ⟨max N M, fun fuel hf => ?_⟩
    obtain ⟨c, e1, e2⟩ := hN fuel (le_trans (le_max_left _ _) hf)
    exact ⟨c, ((checkedExactDiv_recip F hr (le_trans (le_max_right _ _) hf) c).2).mp e1, e2⟩
  · rintro ⟨N, hN⟩
    refine ⟨max N M, fun fuel hf => ?_⟩
    obtain ⟨c, e1, e2⟩ := hN fuel (le_trans (le_max_left _ _) hf)
    exact ⟨c, ((checkedExactDiv_recip F hr (le_trans (le_max_right _ _) hf) c).2).mpr e1, e2⟩
  · obtain ⟨N, q, hN⟩ := h2 h
    exact ⟨max N M, q, fun fuel hf => ((checkedExactDiv_recip F hr (le_trans (le_max_right _ _) hf) _).2).mpr
      (hN fuel (le_trans (le_max_left _ _) hf))⟩

/-- C45: a rational quotient of two irrational numbers is exact, if the reciprocal of the divisor comes out
right and the interval of the dividend does not have members of both signs. -/
theorem C45_rational_quotient_partial (F : FactorCall) (a b r : RealAlg) (x y : ℝ) (v : ℚ) (M : ℕ)
    (ha : a.Represents x) (hb : b.Represents y) (hy : Irrational y)
    (hr : b.checkedRecip M = .ok (some r)) (hry : r.Represents y⁻¹) (hv : x / y = v)
    (hs : ∀ z, a.interval.Contains z → 0 ≤ x * z)
    (hF : ∀ R, mulResultant a.poly r.poly = some R → R.toPoly ≠ 0 → FactorsRight F R) :
    ∃ N, ∀ fuel ≥ N, ∃ c, a.checkedExactDiv F fuel b = .ok (some c) ∧ a.div F fuel b = .ok c ∧
      c.Represents v := by
  have hv' : x * y⁻¹ = v := by rw [← div_eq_mul_inv]; exact hv
  obtain ⟨N, hN⟩ := C45_rational_product_partial F a r x y⁻¹ v ha hry hv' hF
  refine ⟨max N M, fun fuel hf => ?_⟩
  obtain ⟨c, h1, h2⟩ := hN fuel (le_trans (le_max_left _ _) hf)
  obtain ⟨e1, e2⟩ := checkedExactDiv_recip F (a := a) hr (le_trans (le_max_right _ _) hf) c
  refine ⟨c, e1.mpr h1, e2.mpr h1, ?_⟩
  rcases h2 with h2 | ⟨h2, h3⟩
  · exact h2
  · by_cases hv0 : v = 0
    · subst hv0
      rw [h2]
      simpa using ofRat_represents 0
    · exact absurd h3 (mul_no_opposite ha.mem hry.mem hv' (by exact_mod_cast hv0) hs
        (recip_one_sign hb hy hr))

/-- C45: `a / a` is one for every irrational number whose reciprocal comes out right and whose interval does
not have members of both signs. -/
theorem C45_self_div_partial (F : FactorCall) (a r : RealAlg) (x : ℝ) (M : ℕ) (ha : a.Represents x)
    (hx : Irrational x) (hr : a.checkedRecip M = .ok (some r)) (hrx : r.Represents x⁻¹)
    (hs : ∀ z, a.interval.Contains z → 0 ≤ x * z)
    (hF : ∀ R, mulResultant a.poly r.poly = some R → R.toPoly ≠ 0 → FactorsRight F R) :
    ∃ N, ∀ fuel ≥ N, ∃ c, a.div F fuel a = .ok c ∧ c.Represents 1 := by
  have hx0 : x ≠ 0 := fun e => hx ⟨0, by simp [e]⟩
  obtain ⟨N, hN⟩ := C45_rational_quotient_partial F a a r x x 1 M ha ha hx hr hrx
    (by rw [div_self hx0]; simp) hs hF
  refine ⟨N, fun fuel hf => ?_⟩
  obtain ⟨c, -, h1, h2⟩ := hN fuel hf
  exact ⟨c, h1, by simpa using h2⟩

/-- C45: for every irrational number `a / a` is one as soon as the number is held with enough precision. -/
theorem C45_self_div_fine (p : Poly ℤ) (x : ℝ) (hx : Irrational x) :
    ∃ D : ℕ, ∀ i : DFI, (⟨p, i⟩ : RealAlg).Represents x → D ≤ i.log2Denom →
      (i.width : ℝ) < 1 / 2 ^ D → ∀ F : FactorCall,
      (∀ r R, (⟨p, i⟩ : RealAlg).checkedRecip 1 = .ok (some r) → mulResultant p r.poly = some R →
        R.toPoly ≠ 0 → FactorsRight F R) →
      ∃ N, ∀ fuel ≥ N, ∃ c, (⟨p, i⟩ : RealAlg).div F fuel ⟨p, i⟩ = .ok c ∧ c.Represents 1 := by
  have hx0 : x ≠ 0 := fun e => hx ⟨0, by simp [e]⟩
  obtain ⟨D, hD⟩ := C40_recip_fine p x hx
  obtain ⟨E, hE⟩ := exists_pow_lt_of_lt_one (abs_pos.mpr hx0) (show (1 / 2 : ℝ) < 1 by norm_num)
  rw [one_div, inv_pow, ← one_div] at hE
  refine ⟨max D E, fun i hi hp hw F hF => ?_⟩
  have hle : ∀ k ≤ max D E, (1 : ℝ) / 2 ^ max D E ≤ 1 / 2 ^ k := fun k hk =>
    one_div_le_one_div_of_le (by positivity) (pow_le_pow_right₀ (by norm_num) hk)
  obtain ⟨r, h1, h2⟩ := hD i hi (le_trans (le_max_left _ _) hp) (lt_of_lt_of_le hw (hle D (le_max_left _ _))) 0
  refine C45_self_div_partial F ⟨p, i⟩ r x 1 hi hx h1 h2 (fun z hz => ?_) (fun R hR => hF r R h1 hR)
  obtain ⟨z1, z2⟩ := (DFI.contains_iff_bounds _ _).mp hz
  obtain ⟨x1, x2⟩ := (DFI.contains_iff_bounds _ _).mp hi.mem
  have hwx : (i.width : ℝ) < |x| := lt_trans (lt_of_lt_of_le hw (hle E (le_max_right _ _))) hE
  rw [DFI.width_real] at hwx
  simp only at z1 z2 x1 x2
  rcases lt_or_gt_of_ne hx0 with h | h
  · rw [abs_of_neg h] at hwx
    exact mul_nonneg_of_nonpos_of_nonpos h.le (by linarith)
  · rw [abs_of_pos h] at hwx
    exact mul_nonneg h.le (by linarith)

namespace RealAlg

/-- two roots strictly inside an interval without roots at the ends, and a selector that cannot shrink:
`select_root` panics -/
theorem selectRoot_panics {σ : Type} {g : σ → Option DFI} {sh : σ → Option σ} (F : FactorCall) (R : Poly ℤ)
    (hR : R.toPoly ≠ 0) (hF : FactorsRight F R) (st : σ) (i : DFI) (hi : g st = some i)
    (hsh : sh st = none) (v w : ℝ) (hvw : v ≠ w) (hv : aeval v R.toPoly = 0) (hw : aeval w R.toPoly = 0)
    (hvi : (i.lowerBound : ℝ) < v ∧ v < i.upperBound) (hwi : (i.lowerBound : ℝ) < w ∧ w < i.upperBound)
    (hl : (aeval (i.lowerBound : ℝ) R.toPoly : ℝ) ≠ 0) (hu : (aeval (i.upperBound : ℝ) R.toPoly : ℝ) ≠ 0)
    (fuel : ℕ) : selectRoot g sh F (fuel + 1) st R = .error .panic := by
  classical
  obtain ⟨r, hF1, hr⟩ := hF
  have hdvd : ∀ e ∈ r.factors, ∀ y : ℝ, aeval y e.1.toPoly = 0 → aeval y R.toPoly = 0 := by
    intro e he y hy
    rw [← hr.product, map_mul]
    apply mul_eq_zero_of_right
    unfold Poly.powerProduct
    rw [map_list_prod, List.prod_eq_zero_iff, List.map_map, List.mem_map]
    refine ⟨e, he, ?_⟩
    simp [hy, (hr.powers e he).ne']
  have hmap : ∀ l : List (Poly ℤ × ℕ), (∀ e ∈ l, e.1.toPoly ≠ 0) →
      l.mapM (fun f => f.1.primitiveSturmSequence Poly.intGcd) = some ((l.map (·.1)).map seqOf) := by
    intro l
    induction l with
    | nil => intro _; rfl
    | cons e l ih =>
      intro hl
      rw [List.mapM_cons, ih fun e he => hl e (by simp [he]), (seqOf_spec e.1 (hl e (by simp))).1]
      rfl
  have hne : ∀ e ∈ r.factors, e.1.toPoly ≠ 0 := fun e he => (hr.irreducible e he).ne_zero
  unfold selectRoot
  rw [hF1]
  simp only [bind, Except.bind]
  rw [hmap _ hne]
  simp only [orPanic, selectLoop, hi]
  have hlu : i.lowerBound ≤ i.upperBound := by exact_mod_cast (hvi.1.trans hvi.2).le
  have hps : ∀ p ∈ r.factors.map (·.1), p.toPoly ≠ 0 := by
    intro p hp
    obtain ⟨e, he, rfl⟩ := List.mem_map.mp hp
    exact hne e he
  rcases scan_spec i.lowerBound i.upperBound hlu _ hps 0 [] with ⟨q, -, h2, p, h3, h4⟩ | ⟨h1, -⟩
  · exfalso
    obtain ⟨e, he, rfl⟩ := List.mem_map.mp h3
    have := hdvd e he _ h4
    rcases h2 with rfl | rfl
    · exact hl this
    · exact hu this
  · rw [h1]
    obtain ⟨e, he, hev⟩ := factors_root hr hR v hv
    obtain ⟨e', he', hew⟩ := factors_root hr hR w hw
    have hmem : ∀ (p : Poly ℤ) (z : ℝ), p.toPoly ≠ 0 → (i.lowerBound : ℝ) < z → z < i.upperBound →
        aeval z p.toPoly = 0 → rootCount i.lowerBound i.upperBound p ≠ 0 := by
      intro p z hp z1 z2 hz
      unfold rootCount
      rw [Ne, Set.ncard_eq_zero (rootSet_between_finite _ _ _ hp)]
      exact Set.Nonempty.ne_empty ⟨z, z1, z2, hz⟩
    have hsum : 1 < ((r.factors.map (·.1)).map (rootCount i.lowerBound i.upperBound)).sum := by
      by_cases hee : e.1 = e'.1
      · have h3 : rootCount i.lowerBound i.upperBound e.1 ≤
            ((r.factors.map (·.1)).map (rootCount i.lowerBound i.upperBound)).sum :=
          List.single_le_sum (by simp) _ (List.mem_map.mpr ⟨e.1, List.mem_map.mpr ⟨e, he, rfl⟩, rfl⟩)
        refine lt_of_lt_of_le ?_ h3
        unfold rootCount
        rw [Set.one_lt_ncard (rootSet_between_finite _ _ _ (hne e he))]
        exact ⟨v, ⟨hvi.1, hvi.2, hev⟩, w, ⟨hwi.1, hwi.2, by rw [hee]; exact hew⟩, hvw⟩
      · exact two_le_sum _ (List.mem_map.mpr ⟨e, he, rfl⟩) (List.mem_map.mpr ⟨e', he', rfl⟩) hee
          (hmem _ v (hne e he) hvi.1 hvi.2 hev) (hmem _ w (hne e' he') hwi.1 hwi.2 hew)
    simp only [zero_add, hsh]
    rw [if_neg (by omega)]

/-- the resultant of `(3 + √2) / (3 + √2)`: `7 (x - 1)² (7 x² - 22 x + 7)` -/
def selfRes : Poly ℤ := Poly.ofCoeffs [49, -252, 406, -252, 49]

theorem toPoly_selfQuadratic : (Poly.ofCoeffs [7, -22, 7] : Poly ℤ).toPoly = C 7 * X ^ 2 + C (-22) * X + C 7 := by
  rw [Poly.toPoly_ofCoeffs]
  simp only [listPoly]
  ring

theorem selfRes_toPoly :
    selfRes.toPoly = C 7 * ((X - C 1) ^ 2 * (C 7 * X ^ 2 + C (-22) * X + C 7)) := by
  rw [show selfRes.toPoly = _ from Poly.toPoly_ofCoeffs _]
  simp only [listPoly]
  have e1 : (C 49 : ℤ[X]) = 49 := rfl
  have e2 : (C (-252) : ℤ[X]) = -252 := by simp
  have e3 : (C 406 : ℤ[X]) = 406 := rfl
  have e4 : (C 7 : ℤ[X]) = 7 := rfl
  have e5 : (C (-22) : ℤ[X]) = -22 := by simp
  simp only [e1, e2, e3, e4, e5, map_one]
  ring

theorem selfRes_eval (z : ℝ) :
    aeval z selfRes.toPoly = 7 * ((z - 1) ^ 2 * (7 * z ^ 2 - 22 * z + 7)) := by
  rw [selfRes_toPoly]
  simp only [map_mul, map_pow, map_sub, map_add, aeval_X, aeval_C, algebraMap_int_eq, Int.coe_castRingHom]
  push_cast
  ring

/-- the right factoring of the resultant -/
def selfFactor : FactorCall := fun _ =>
  .ok ⟨7, [(Poly.ofCoeffs [-1, 1], 2), (Poly.ofCoeffs [7, -22, 7], 1)]⟩

theorem selfQuadratic_irreducible : Irreducible (C 7 * X ^ 2 + C (-22) * X + C 7 : ℤ[X]) := by
  have hdeg : (C 7 * X ^ 2 + C (-22) * X + C 7 : ℤ[X]).natDegree = 2 := natDegree_quadratic (by norm_num)
  have hprim : (C 7 * X ^ 2 + C (-22) * X + C 7 : ℤ[X]).IsPrimitive := by
    intro r hr
    rw [C_dvd_iff_dvd_coeff] at hr
    have h0 := hr 0
    have h1 := hr 1
    simp [coeff_X] at h0 h1
    have : r ∣ 22 - 3 * 7 := Dvd.dvd.sub h1 (Dvd.dvd.mul_left h0 3)
    exact isUnit_of_dvd_one (by simpa using this)
  rw [IsPrimitive.Int.irreducible_iff_irreducible_map_cast hprim]
  have hdeg' : ((C 7 * X ^ 2 + C (-22) * X + C 7 : ℤ[X]).map (Int.castRingHom ℚ)).natDegree = 2 := by
    rw [natDegree_map_eq_of_injective (RingHom.injective_int _), hdeg]
  refine irreducible_of_degree_le_three_of_not_isRoot (by rw [hdeg']; decide) fun q hq => ?_
  rw [IsRoot.def] at hq
  simp at hq
  have h2 : (((7 * q - 11) / 6 : ℚ) : ℝ) ^ 2 = 2 := by
    have : ((7 * q - 11) / 6 : ℚ) ^ 2 = 2 := by nlinarith
    exact_mod_cast this
  have h3 : √2 = |(((7 * q - 11) / 6 : ℚ) : ℝ)| := by rw [← h2, Real.sqrt_sq_eq_abs]
  exact irrational_sqrt_two ⟨|(7 * q - 11) / 6|, by rw [h3]; push_cast; rfl⟩

theorem selfFactor_right : FactorsRight selfFactor selfRes := by
  have e1 : (Poly.ofCoeffs [-1, 1] : Poly ℤ).toPoly = X - C 1 := by rw [toPoly_linear]; simp [sub_eq_add_neg]
  refine ⟨_, rfl, ?_, ?_, ?_, ?_, ?_⟩
  · rw [selfRes_toPoly]
    simp [Poly.powerProduct, e1, toPoly_selfQuadratic]
  · intro e he
    simp only [List.mem_cons, List.not_mem_nil, or_false] at he
    rcases he with rfl | rfl
    · simp only [e1]; exact irreducible_X_sub_C 1
    · simp only [toPoly_selfQuadratic]; exact selfQuadratic_irreducible
  · intro e he
    simp only [List.mem_cons, List.not_mem_nil, or_false] at he
    rcases he with rfl | rfl
    · simp only [e1, leadingCoeff_X_sub_C]; norm_num
    · simp only [toPoly_selfQuadratic]; rw [leadingCoeff_quadratic (by norm_num)]; norm_num
  · intro e he
    simp only [List.mem_cons, List.not_mem_nil, or_false] at he
    rcases he with rfl | rfl <;> norm_num
  · simp only [List.pairwise_cons, List.mem_cons, List.not_mem_nil, or_false, forall_eq, e1,
      toPoly_selfQuadratic]
    refine ⟨?_, by simp⟩
    refine ⟨C (1 / 8) * (C 7 * X - C 15), C (-(1 / 8)), ?_⟩
    simp only [Polynomial.map_sub, Polynomial.map_add, Polynomial.map_mul, Polynomial.map_pow, map_X, map_C,
      Int.coe_castRingHom]
    push_cast
    have h7 : (C 7 : ℚ[X]) = 7 := rfl
    have h15 : (C 15 : ℚ[X]) = 15 := rfl
    have h22 : (C (-22) : ℚ[X]) = -22 := by rw [map_neg]; rfl
    have h8 : (C (1 / 8) : ℚ[X]) * 8 = 1 := by
      rw [show (8 : ℚ[X]) = C 8 from rfl, ← C_mul]; norm_num
    rw [h7, h15, h22, map_neg, map_one]
    linear_combination h8

end RealAlg

/-- C45 is false even for `a / a`: dividing `3 + √2`, held with the isolating interval `[4, 5]`, by itself
panics, for every right factoring of the resultant. -/
theorem C45_self_div_false (F : FactorCall) (hF : FactorsRight F selfRes) (fuel : ℕ) :
    threePlusSqrtTwo.Represents (3 + √2) ∧
    threePlusSqrtTwo.div F (fuel + 1) threePlusSqrtTwo = .error .panic := by
  refine ⟨threePlusSqrtTwo_represents, ?_⟩
  set r : RealAlg := ⟨Poly.ofCoeffs [1, -6, 7], ⟨0, 1, 0⟩⟩ with hrdef
  have h5 : threePlusSqrtTwo.checkedRecip 1 = .ok (some r) := by decide +kernel
  have h6 := checkedRecip_mono _ _ _ h5 (fuel + 1) (by omega)
  obtain ⟨s, hs1, -, hs2⟩ := threePlusSqrtTwo_represents.intervalShrinker
  have h2 : r.intervalShrinker.toOption.bind (fun s => s.shrink) = none := by decide +kernel
  have h3 : r.intervalShrinker.toOption.map (fun s => decide (s.interval = ⟨0, 1, 0⟩)) = some true := by
    decide +kernel
  cases ht : r.intervalShrinker with
  | error e => rw [ht] at h3; simp [Except.toOption] at h3
  | ok t =>
    rw [ht] at h2 h3
    simp only [Except.toOption, Option.bind_some, Option.map_some, Option.some.injEq,
      decide_eq_true_eq] at h2 h3
    have hres : mulResultant threePlusSqrtTwo.poly r.poly = some selfRes := by decide +kernel
    have e1 : threePlusSqrtTwo.toRational = .ok none := by decide +kernel
    have e2 : r.toRational = .ok none := by decide +kernel
    have e3 : (threePlusSqrtTwo.isZero || r.isZero) = false := by decide +kernel
    have e4 : r.isOne = false := by decide +kernel
    have e5 : threePlusSqrtTwo.isOne = false := by decide +kernel
    have hsq : √2 ^ 2 = (2 : ℝ) := Real.sq_sqrt (by norm_num)
    have h0 : 0 < √2 := Real.sqrt_pos.mpr (by norm_num)
    have hlt : √2 < 2 := by nlinarith
    have hint : s.interval.mul t.interval = ⟨0, 5, 0⟩ := by
      rw [hs2, h3]; decide +kernel
    have hlb : ((⟨0, 5, 0⟩ : DFI).lowerBound : ℝ) = 0 := by
      rw [show (⟨0, 5, 0⟩ : DFI).lowerBound = 0 by decide +kernel]; simp
    have hub : ((⟨0, 5, 0⟩ : DFI).upperBound : ℝ) = 5 := by
      rw [show (⟨0, 5, 0⟩ : DFI).upperBound = 5 by decide +kernel]; simp
    have hpanic := selectRoot_panics (g := mulInterval) (sh := shrinkBoth) F selfRes (by
        intro h
        have := selfRes_eval 0
        rw [h] at this
        norm_num at this) hF (s, t) ⟨0, 5, 0⟩ (by unfold mulInterval; simp only [hint])
      (by unfold shrinkBoth; rw [h2]; cases s.shrink <;> rfl) 1 ((11 + 6 * √2) / 7) (by nlinarith)
      (by rw [selfRes_eval]; norm_num) (by rw [selfRes_eval]; nlinarith)
      (by rw [hlb, hub]; norm_num) (by rw [hlb, hub]; constructor <;> nlinarith)
      (by rw [hlb, selfRes_eval]; norm_num) (by rw [hub, selfRes_eval]; norm_num) fuel
    unfold RealAlg.div checkedExactDiv RealAlg.mul
    rw [h6]
    simp only [bind, Except.bind, e1, e2, e3, e4, e5, hs1, ht, hres, orPanic, Bool.false_eq_true, if_false,
      hpanic]

/-- the factoring assumed above exists -/
example (fuel : ℕ) : threePlusSqrtTwo.div selfFactor (fuel + 1) threePlusSqrtTwo = .error .panic :=
  (C45_self_div_false _ selfFactor_right fuel).2

namespace RealAlg

/-- the right factoring of `4 (x² - 1)²`, the resultant of `√2 / √2` -/
def oneFactor : FactorCall := fun _ =>
  .ok ⟨4, [(Poly.ofCoeffs [-1, 1], 2), (Poly.ofCoeffs [1, 1], 2)]⟩

theorem oneFactor_right : FactorsRight oneFactor (Poly.ofCoeffs [4, 0, -8, 0, 4]) := by
  have e1 : (Poly.ofCoeffs [-1, 1] : Poly ℤ).toPoly = X - C 1 := by rw [toPoly_linear]; simp [sub_eq_add_neg]
  have e2 : (Poly.ofCoeffs [1, 1] : Poly ℤ).toPoly = X + C 1 := by rw [toPoly_linear]; simp
  refine ⟨_, rfl, ?_, ?_, ?_, ?_, ?_⟩
  · rw [Poly.toPoly_ofCoeffs]
    simp only [listPoly, Poly.powerProduct, List.map_cons, List.map_nil, List.prod_cons, List.prod_nil, e1, e2,
      map_zero, map_one]
    have h4 : (C 4 : ℤ[X]) = 4 := rfl
    have h8 : (C (-8) : ℤ[X]) = -8 := by rw [map_neg]; rfl
    rw [h4, h8]
    ring
  · intro e he
    simp only [List.mem_cons, List.not_mem_nil, or_false] at he
    rcases he with rfl | rfl
    · simp only [e1]; exact irreducible_X_sub_C 1
    · simp only [e2]
      have := irreducible_X_sub_C (-1 : ℤ)
      simpa using this
  · intro e he
    simp only [List.mem_cons, List.not_mem_nil, or_false] at he
    rcases he with rfl | rfl
    · simp only [e1, leadingCoeff_X_sub_C]; norm_num
    · simp only [e2, leadingCoeff_X_add_C]; norm_num
  · intro e he
    simp only [List.mem_cons, List.not_mem_nil, or_false] at he
    rcases he with rfl | rfl <;> norm_num
  · simp only [List.pairwise_cons, List.mem_cons, List.not_mem_nil, or_false, forall_eq, e1, e2]
    refine ⟨?_, by simp⟩
    refine ⟨C (-(1 / 2)), C (1 / 2), ?_⟩
    simp only [Polynomial.map_sub, Polynomial.map_add, map_X, map_C, Int.coe_castRingHom, Int.cast_one]
    have h2 : (C (1 / 2) : ℚ[X]) * 2 = 1 := by
      rw [show (2 : ℚ[X]) = C 2 from rfl, ← C_mul]; norm_num
    rw [map_neg, map_one]
    linear_combination h2

end RealAlg

/-- `√2 / √2` is one, although the interval `[0, 1]` of the reciprocal touches zero. -/
example : ∃ N, ∀ fuel ≥ N, ∃ c, sqrtTwo.div oneFactor fuel sqrtTwo = .ok c ∧ c.Represents 1 := by
  have hs : √2 ^ 2 = (2 : ℝ) := Real.sq_sqrt (by norm_num)
  have h0 : 0 < √2 := Real.sqrt_pos.mpr (by norm_num)
  have hr : sqrtTwo.checkedRecip 1 = .ok (some ⟨Poly.ofCoeffs [1, 0, -2], ⟨0, 1, 0⟩⟩) := by decide +kernel
  obtain ⟨N, hN⟩ := C40_recip_one_sign_partial sqrtTwo _ sqrtTwo_represents irrational_sqrt_two (by
    intro y hy hpos
    rw [show sqrtTwo.poly.toPoly = X ^ 2 + C 0 * X + C (-2) from toPoly_quadratic 0 (-2),
      quadratic_aeval] at hy
    norm_num at hy
    have hy0 : 0 < y := (mul_pos_iff_of_pos_left h0).mp hpos
    have : (y - √2) * (y + √2) = 0 := by nlinarith
    rcases mul_eq_zero.mp this with h | h
    · linarith
    · linarith)
  obtain ⟨r, h1, h2⟩ := hN (max N 1) (le_max_left _ _)
  rw [checkedRecip_mono _ _ _ hr _ (le_max_right N 1)] at h1
  cases h1
  refine C45_self_div_partial oneFactor sqrtTwo _ _ 1 sqrtTwo_represents irrational_sqrt_two hr h2
    (fun z hz => ?_) (fun R hR _ => ?_)
  · have := hz.1
    simp only [sqrtTwo] at this
    norm_num at this
    exact mul_nonneg h0.le (by linarith)
  · rw [show mulResultant sqrtTwo.poly (Poly.ofCoeffs [1, 0, -2]) = some (Poly.ofCoeffs [4, 0, -8, 0, 4]) by
      decide +kernel] at hR
    cases hR
    exact oneFactor_right

end Algebraics
