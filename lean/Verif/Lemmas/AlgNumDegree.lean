import Verif.Lemmas.AlgNumConj
import Mathlib.FieldTheory.IntermediateField.Adjoin.Algebra
import Mathlib.Algebra.Polynomial.Reverse

/-!
# Degrees and conjugates

When a sum or a product of conjugates can be rational, and what sums and products look like when the
degrees of the two operands have no common factor.
-/

namespace Algebraics

open Polynomial IntermediateField

namespace RealAlg

/-- the roots of an irreducible integer polynomial, over the rational numbers -/
theorem aeval_map_int (p : ℤ[X]) (z : ℂ) : aeval z (p.map (Int.castRingHom ℚ)) = aeval z p := by
  rw [show (Int.castRingHom ℚ) = algebraMap ℤ ℚ from rfl, aeval_map_algebraMap]

theorem integral_root {p : ℤ[X]} (hp : p ≠ 0) {z : ℂ} (hz : aeval z p = 0) : IsIntegral ℚ z :=
  (isAlgebraic_iff_isIntegral (K := ℚ)).mp ⟨p.map (Int.castRingHom ℚ),
    (Polynomial.map_ne_zero_iff (RingHom.injective_int _)).mpr hp, by rw [aeval_map_int, hz]⟩

theorem minpoly_natDegree {p : ℤ[X]} (hp : Irreducible p) (hd : 0 < p.natDegree) {z : ℂ}
    (hz : aeval z p = 0) : (minpoly ℚ z).natDegree = p.natDegree := by
  have hl : (p.leadingCoeff : ℚ) ≠ 0 := by exact_mod_cast leadingCoeff_ne_zero.mpr hp.ne_zero
  rw [minpoly_root hp hd hz, natDegree_mul_C (inv_ne_zero hl),
    natDegree_map_eq_of_injective (RingHom.injective_int _)]

/-- a rational polynomial with one root of an irreducible polynomial has all of them -/
theorem root_transfer {p : ℤ[X]} (hp : Irreducible p) (hd : 0 < p.natDegree) {z w : ℂ}
    (hz : aeval z p = 0) (hw : aeval w p = 0) (f : ℚ[X]) (hf : aeval z f = 0) : aeval w f = 0 := by
  have h : minpoly ℚ w ∣ f := by
    rw [minpoly_root hp hd hw, ← minpoly_root hp hd hz]
    exact minpoly.dvd ℚ z hf
  obtain ⟨g, rfl⟩ := h
  rw [map_mul, minpoly.aeval, zero_mul]

/-- if two roots add up to a rational number, then every root has a partner with the same sum -/
theorem sum_rat_transfer {p q : ℤ[X]} (hp : Irreducible p) (hd : 0 < p.natDegree) {x' y' x : ℂ}
    (hx' : aeval x' p = 0) (hy' : aeval y' q = 0) (hx : aeval x p = 0) {r : ℚ}
    (h : (r : ℂ) = x' + y') : aeval ((r : ℂ) - x) q = 0 := by
  have e : ∀ z : ℂ, aeval z ((q.map (Int.castRingHom ℚ)).comp (C r - X)) = aeval ((r : ℂ) - z) q := by
    intro z
    rw [aeval_comp, ← aeval_map_int]
    simp
  rw [← e]
  apply root_transfer hp hd hx' hx
  rw [e, h, add_sub_cancel_left, hy']

/-- the same for products -/
theorem prod_rat_transfer {p q : ℤ[X]} (hp : Irreducible p) (hd : 0 < p.natDegree) {x' y' x : ℂ}
    (hx' : aeval x' p = 0) (hy' : aeval y' q = 0) (hx : aeval x p = 0) (h0 : x' ≠ 0) {r : ℚ}
    (h : (r : ℂ) = x' * y') : aeval ((r : ℂ) / x) q = 0 := by
  have hx0 : x ≠ 0 := by
    rintro rfl
    apply h0
    have := root_transfer hp hd hx hx' X (by simp)
    simpa using this
  have e : ∀ z : ℂ, z ≠ 0 → (aeval z ((q.map (Int.castRingHom ℚ)).comp (C r * X)).reverse = 0 ↔
      aeval ((r : ℂ) / z) q = 0) := by
    intro z hz
    have hi : Invertible z⁻¹ := invertibleOfNonzero (inv_ne_zero hz)
    have := eval₂_reverse_eq_zero_iff (algebraMap ℚ ℂ) z⁻¹ ((q.map (Int.castRingHom ℚ)).comp (C r * X))
    rw [invOf_eq_inv, inv_inv] at this
    rw [aeval_def, this, ← aeval_def, aeval_comp, ← aeval_map_int]
    simp [div_eq_mul_inv]
  rw [← e x hx0]
  apply root_transfer hp hd hx' hx
  rw [e x' h0, h, mul_div_cancel_left₀ _ h0, hy']

/-- numbers that generate the same field have the same degree -/
theorem natDegree_eq_of_mem {z w : ℂ} (hz : IsIntegral ℚ z) (hw : IsIntegral ℚ w) (h1 : z ∈ ℚ⟮w⟯)
    (h2 : w ∈ ℚ⟮z⟯) : (minpoly ℚ z).natDegree = (minpoly ℚ w).natDegree := by
  rw [← adjoin.finrank hz, ← adjoin.finrank hw]
  have : ℚ⟮z⟯ = ℚ⟮w⟯ := le_antisymm (adjoin_simple_le_iff.mpr h1) (adjoin_simple_le_iff.mpr h2)
  rw [this]

theorem rat_mem (K : IntermediateField ℚ ℂ) (q : ℚ) : (q : ℂ) ∈ K := by
  have := K.algebraMap_mem q
  rwa [eq_ratCast] at this

/-- a rational number minus `x` has the degree of `x` -/
theorem degree_of_rat_sub {p q : ℤ[X]} (hp : Irreducible p) (hq : Irreducible q) (hdp : 0 < p.natDegree)
    (hdq : 0 < q.natDegree) {x : ℂ} (hx : aeval x p = 0) {r : ℚ} (h : aeval ((r : ℂ) - x) q = 0) :
    p.natDegree = q.natDegree := by
  rw [← minpoly_natDegree hp hdp hx, ← minpoly_natDegree hq hdq h]
  refine natDegree_eq_of_mem (integral_root hp.ne_zero hx) (integral_root hq.ne_zero h) ?_ ?_
  · have := sub_mem (rat_mem ℚ⟮(r : ℂ) - x⟯ r) (mem_adjoin_simple_self ℚ ((r : ℂ) - x))
    rwa [sub_sub_cancel] at this
  · exact sub_mem (rat_mem _ r) (mem_adjoin_simple_self ℚ x)

/-- a rational number divided by `x` has the degree of `x` -/
theorem degree_of_rat_div {p q : ℤ[X]} (hp : Irreducible p) (hq : Irreducible q) (hdp : 0 < p.natDegree)
    (hdq : 0 < q.natDegree) {x : ℂ} (hx : aeval x p = 0) {r : ℚ} (hr : r ≠ 0)
    (h : aeval ((r : ℂ) / x) q = 0) : p.natDegree = q.natDegree := by
  rw [← minpoly_natDegree hp hdp hx, ← minpoly_natDegree hq hdq h]
  refine natDegree_eq_of_mem (integral_root hp.ne_zero hx) (integral_root hq.ne_zero h) ?_ ?_
  · have := div_mem (rat_mem ℚ⟮(r : ℂ) / x⟯ r) (mem_adjoin_simple_self ℚ ((r : ℂ) / x))
    have hr' : (r : ℂ) ≠ 0 := by exact_mod_cast hr
    rwa [div_div_cancel₀ hr'] at this
  · exact div_mem (rat_mem _ r) (mem_adjoin_simple_self ℚ x)

/-! ### coprime degrees -/

/-- if the degrees of `x` and `y` have no common factor, the minimal polynomial of `y` stays the same
over the field of `x` -/
theorem minpoly_coprime {x y : ℂ} (hx : IsIntegral ℚ x) (hy : IsIntegral ℚ y)
    (hc : (minpoly ℚ x).natDegree.Coprime (minpoly ℚ y).natDegree) :
    minpoly ℚ⟮x⟯ y = (minpoly ℚ y).map (algebraMap ℚ ℚ⟮x⟯) := by
  have hy' : IsIntegral ℚ⟮x⟯ y := hy.tower_top
  have hdvd : minpoly ℚ⟮x⟯ y ∣ (minpoly ℚ y).map (algebraMap ℚ ℚ⟮x⟯) :=
    minpoly.dvd_map_of_isScalarTower ℚ ℚ⟮x⟯ y
  have hmon : ((minpoly ℚ y).map (algebraMap ℚ ℚ⟮x⟯)).Monic := (minpoly.monic hy).map _
  have : FiniteDimensional ℚ ℚ⟮x⟯ := adjoin.finiteDimensional hx
  have : FiniteDimensional ℚ⟮x⟯ ℚ⟮x⟯⟮y⟯ := adjoin.finiteDimensional hy'
  have : FiniteDimensional ℚ ℚ⟮x⟯⟮y⟯ := FiniteDimensional.trans ℚ ℚ⟮x⟯ _
  have h1 : Module.finrank ℚ ℚ⟮x⟯ * Module.finrank ℚ⟮x⟯ ℚ⟮x⟯⟮y⟯ = Module.finrank ℚ ℚ⟮x⟯⟮y⟯ :=
    Module.finrank_mul_finrank ℚ ℚ⟮x⟯ ℚ⟮x⟯⟮y⟯
  rw [adjoin.finrank hx, adjoin.finrank hy'] at h1
  have h2 : (minpoly ℚ (AdjoinSimple.gen ℚ⟮x⟯ y)).natDegree ∣ Module.finrank ℚ ℚ⟮x⟯⟮y⟯ :=
    minpoly.degree_dvd (IsIntegral.of_finite ℚ _)
  have h3 : minpoly ℚ (AdjoinSimple.gen ℚ⟮x⟯ y) = minpoly ℚ y := by
    rw [← minpoly.algebraMap_eq (A := ℚ) (algebraMap ℚ⟮x⟯⟮y⟯ ℂ).injective]
    rfl
  rw [h3, ← h1] at h2
  have h4 := hc.symm.dvd_of_dvd_mul_left h2
  have h5 : (minpoly ℚ y).natDegree ≤ (minpoly ℚ⟮x⟯ y).natDegree :=
    Nat.le_of_dvd (minpoly.natDegree_pos hy') h4
  refine (eq_of_monic_of_dvd_of_natDegree_le (minpoly.monic hy') hmon hdvd ?_).symm
  rwa [natDegree_map]

/-- with coprime degrees, what `x` and `y` satisfy over the field of `x`, `x` and every conjugate of `y`
satisfy too -/
theorem conj_right {x y y' : ℂ} (hx : IsIntegral ℚ x) (hy : IsIntegral ℚ y)
    (hc : (minpoly ℚ x).natDegree.Coprime (minpoly ℚ y).natDegree)
    (hy' : aeval y' (minpoly ℚ y) = 0) (f : ℚ⟮x⟯[X]) (hf : aeval y f = 0) : aeval y' f = 0 := by
  obtain ⟨g, rfl⟩ := minpoly.dvd ℚ⟮x⟯ y hf
  rw [minpoly_coprime hx hy hc, map_mul, aeval_map_algebraMap, hy', zero_mul]

theorem aeval_lift (K : IntermediateField ℚ ℂ) (f : ℚ[X]) (u : ℂ) (h : K[X]) :
    aeval u ((f.map (algebraMap ℚ K)).comp h) = aeval (aeval u h) f := by
  rw [aeval_comp, aeval_map_algebraMap]

/-- with coprime degrees all sums of a root of `p` and a root of `q` are conjugates -/
theorem sums_conjugate {p q : ℤ[X]} (hp : Irreducible p) (hq : Irreducible q) (hdp : 0 < p.natDegree)
    (hdq : 0 < q.natDegree) (hc : p.natDegree.Coprime q.natDegree) {x y x' y' : ℂ}
    (hx : aeval x p = 0) (hy : aeval y q = 0) (hx' : aeval x' p = 0) (hy' : aeval y' q = 0) (f : ℚ[X])
    (hf : aeval (x + y) f = 0) : aeval (x' + y') f = 0 := by
  have hiy' := integral_root hq.ne_zero hy'
  have h1 : aeval (x + y') f = 0 := by
    have := conj_right (integral_root hp.ne_zero hx) (integral_root hq.ne_zero hy) (y' := y')
      (by rwa [minpoly_natDegree hp hdp hx, minpoly_natDegree hq hdq hy])
      (by rw [minpoly_root hq hdq hy, ← minpoly_root hq hdq hy', minpoly.aeval])
      ((f.map (algebraMap ℚ ℚ⟮x⟯)).comp (C (AdjoinSimple.gen ℚ x) + X))
      (by rw [aeval_lift]; simpa using hf)
    rw [aeval_lift] at this
    simpa using this
  have := conj_right hiy' (integral_root hp.ne_zero hx) (y' := x')
    (by rw [minpoly_natDegree hp hdp hx, minpoly_natDegree hq hdq hy']; exact hc.symm)
    (by rw [minpoly_root hp hdp hx, ← minpoly_root hp hdp hx', minpoly.aeval])
    ((f.map (algebraMap ℚ ℚ⟮y'⟯)).comp (C (AdjoinSimple.gen ℚ y') + X))
    (by rw [aeval_lift]; simpa [add_comm] using h1)
  rw [aeval_lift] at this
  simpa [add_comm] using this

/-- with coprime degrees all products of a root of `p` and a root of `q` are conjugates -/
theorem products_conjugate {p q : ℤ[X]} (hp : Irreducible p) (hq : Irreducible q)
    (hdp : 0 < p.natDegree) (hdq : 0 < q.natDegree) (hc : p.natDegree.Coprime q.natDegree)
    {x y x' y' : ℂ} (hx : aeval x p = 0) (hy : aeval y q = 0) (hx' : aeval x' p = 0)
    (hy' : aeval y' q = 0) (f : ℚ[X]) (hf : aeval (x * y) f = 0) : aeval (x' * y') f = 0 := by
  have hiy' := integral_root hq.ne_zero hy'
  have h1 : aeval (x * y') f = 0 := by
    have := conj_right (integral_root hp.ne_zero hx) (integral_root hq.ne_zero hy) (y' := y')
      (by rwa [minpoly_natDegree hp hdp hx, minpoly_natDegree hq hdq hy])
      (by rw [minpoly_root hq hdq hy, ← minpoly_root hq hdq hy', minpoly.aeval])
      ((f.map (algebraMap ℚ ℚ⟮x⟯)).comp (C (AdjoinSimple.gen ℚ x) * X))
      (by rw [aeval_lift]; simpa using hf)
    rw [aeval_lift] at this
    simpa using this
  have := conj_right hiy' (integral_root hp.ne_zero hx) (y' := x')
    (by rw [minpoly_natDegree hp hdp hx, minpoly_natDegree hq hdq hy']; exact hc.symm)
    (by rw [minpoly_root hp hdp hx, ← minpoly_root hp hdp hx', minpoly.aeval])
    ((f.map (algebraMap ℚ ℚ⟮y'⟯)).comp (C (AdjoinSimple.gen ℚ y') * X))
    (by rw [aeval_lift]; simpa [mul_comm y'] using h1)
  rw [aeval_lift] at this
  simpa [mul_comm y'] using this

/-! ### polynomials all of whose roots are conjugates -/

/-- a square-free primitive divisor of a polynomial all of whose roots are conjugates is irreducible -/
theorem irreducible_of_conjugates (R p : ℤ[X]) (hR : ∀ z w : ℂ, aeval z R = 0 → aeval w R = 0 →
      minpoly ℚ z = minpoly ℚ w) (hdvd : p ∣ R) (hprim : p.IsPrimitive)
    (hd : p.natDegree ≠ 0) (hsq : Squarefree (p.map (Int.castRingHom ℚ))) : Irreducible p := by
  rw [IsPrimitive.Int.irreducible_iff_irreducible_map_cast hprim]
  have hp0 : p.map (Int.castRingHom ℚ) ≠ 0 := fun h => hd (by
    rw [(Polynomial.map_eq_zero_iff (RingHom.injective_int _)).mp h, natDegree_zero])
  have hnu : ¬ IsUnit (p.map (Int.castRingHom ℚ)) := by
    intro h
    apply hd
    rw [← natDegree_map_eq_of_injective (RingHom.injective_int (Int.castRingHom ℚ))]
    exact natDegree_eq_zero_of_isUnit h
  have hroot : ∀ u : ℚ[X], Irreducible u → u ∣ p.map (Int.castRingHom ℚ) → ∃ z : ℂ,
      aeval z R = 0 ∧ Associated u (minpoly ℚ z) := by
    intro u hu hup
    obtain ⟨z, hz⟩ := IsAlgClosed.exists_aeval_eq_zero ℂ u hu.degree_pos.ne'
    refine ⟨z, ?_, ?_⟩
    · obtain ⟨c, rfl⟩ := hdvd
      obtain ⟨v, hv⟩ := hup
      rw [map_mul, ← aeval_map_int p, hv, map_mul, hz, zero_mul, zero_mul]
    · have h := minpoly.eq_of_irreducible hu hz
      rw [← h]
      have hl : u.leadingCoeff⁻¹ ≠ 0 := inv_ne_zero (leadingCoeff_ne_zero.mpr hu.ne_zero)
      exact (associated_mul_unit_right u _ (isUnit_C.mpr (IsUnit.mk0 _ hl)))
  obtain ⟨u, hu, v, huv⟩ := WfDvdMonoid.exists_irreducible_factor hnu hp0
  by_cases hv : IsUnit v
  · rw [huv]
    exact (irreducible_mul_isUnit hv).mpr hu
  · exfalso
    have hv0 : v ≠ 0 := fun h => hp0 (by rw [huv, h, mul_zero])
    obtain ⟨w, hw, t, hwt⟩ := WfDvdMonoid.exists_irreducible_factor hv hv0
    obtain ⟨z1, h1, h2⟩ := hroot u hu ⟨v, huv⟩
    obtain ⟨z2, h3, h4⟩ := hroot w hw ⟨u * t, by rw [huv, hwt]; ring⟩
    rw [hR z1 z2 h1 h3] at h2
    have h5 : Associated u w := h2.trans h4.symm
    have h6 : u * u ∣ p.map (Int.castRingHom ℚ) := by
      rw [huv, hwt]
      exact mul_dvd_mul_left u (h5.dvd.trans (dvd_mul_right w t))
    exact hu.not_isUnit (hsq u h6)

end RealAlg

end Algebraics
