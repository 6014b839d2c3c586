import Verif.Lemmas.AlgLeading
import Verif.Lemmas.ResultantSize

/-!
# The resultant of a power

`src/algebraic_numbers.rs:737-745`: its leading coefficient, and its value for rational bases.
-/

namespace Algebraics

open Polynomial

namespace RealAlg

/-- the resultant of a power, over the roots of the polynomial of the base. -/
theorem powResultant_prod (p R : Poly ℤ) (n d : ℕ) (hn : 0 < n) (hp : p.toPoly ≠ 0)
    (hR : powResultant p n d = some R) :
    overC R.toPoly = C ((overC p.toPoly).leadingCoeff ^ n) *
      ((overC p.toPoly).roots.map fun x => (X ^ d - C (x ^ n) : ℂ[X])).prod := by
  have hsplit : (overC p.toPoly).Splits := IsAlgClosed.splits _
  apply Polynomial.funext
  intro z
  rw [overC_eval, resultant_value _ _ R (liftPoly_ne_zero hp)
    (by rw [powArg_toPoly]; exact (natDegree_C_sub_X_pow _ n hn).2) hR z
    (by rw [liftPoly_map, overC_natDegree, liftPoly_natDegree])
    (by rw [powArg_map, powArg_toPoly, (natDegree_C_sub_X_pow _ n hn).1, (natDegree_C_sub_X_pow _ n hn).1]),
    liftPoly_map, powArg_map,
    resultant_eq_prod_eval _ _ _ (le_refl _) hsplit, (natDegree_C_sub_X_pow _ n hn).1, eval_mul, eval_C,
    eval_multiset_prod, Multiset.map_map]
  congr 2
  apply Multiset.map_congr rfl
  intro x _
  simp

theorem powResultant_leading (p R : Poly ℤ) (n d : ℕ) (hn : 0 < n) (hd : 0 < d) (hp : p.toPoly ≠ 0)
    (hR : powResultant p n d = some R) : R.toPoly.leadingCoeff = p.toPoly.leadingCoeff ^ n := by
  have h := congrArg leadingCoeff (powResultant_prod p R n d hn hp hR)
  rw [leadingCoeff_mul, leadingCoeff_C, leadingCoeff_map_prod _ _ 1
    (by intro x _; exact leadingCoeff_X_pow_sub_C hd), one_pow, mul_one, overC_leadingCoeff,
    overC_leadingCoeff] at h
  exact_mod_cast h

/-- for a rational base it is `denom^n X^d - numer^n`. -/
theorem powResultant_rat {b : RealAlg} {q : ℚ} (h : b.Represents q) (R : Poly ℤ) (n d : ℕ) (hn : 0 < n)
    (hR : powResultant b.poly n d = some R) :
    R.toPoly = C ((q.den : ℤ) ^ n) * X ^ d - C (q.num ^ n) := by
  have hden : (q.den : ℂ) ≠ 0 := by exact_mod_cast q.den_nz
  have hp : overC b.poly.toPoly = C (q.den : ℂ) * (X - C (q : ℂ)) := by
    rcases h.rat_or_irr with ⟨q', h1, h2, h3, h4⟩ | ⟨-, h2⟩
    · obtain rfl : q' = q := by exact_mod_cast h1
      rw [eq_X_add_C_of_natDegree_le_one h2.le, h3, h4]
      have h6 : (q' : ℂ) = q'.num / q'.den := by exact_mod_cast (Rat.num_div_den q').symm
      rw [h6, mul_sub, ← C_mul, mul_div_cancel₀ _ hden]
      rw [overC, Polynomial.map_add, Polynomial.map_mul, map_C, map_C, map_X, Int.coe_castRingHom]
      dsimp only
      rw [Int.cast_neg, Int.cast_natCast, C_neg]
      ring
    · exact absurd ⟨q, rfl⟩ h2
  have h1 := powResultant_prod b.poly R n d hn h.ne_zero hR
  have hr : (overC b.poly.toPoly).roots = {(q : ℂ)} := by
    rw [hp, roots_C_mul _ hden, roots_X_sub_C]
  have hl : (overC b.poly.toPoly).leadingCoeff = q.den := by
    rw [hp, leadingCoeff_mul, leadingCoeff_C, leadingCoeff_X_sub_C, mul_one]
  rw [hr, hl, Multiset.map_singleton, Multiset.prod_singleton] at h1
  apply map_injective (Int.castRingHom ℂ) (RingHom.injective_int _)
  change overC R.toPoly = _
  rw [h1]
  have h6 : (q : ℂ) = q.num / q.den := by exact_mod_cast (Rat.num_div_den q).symm
  rw [mul_sub, ← C_mul, h6, div_pow, mul_div_cancel₀ _ (pow_ne_zero _ hden)]
  rw [Polynomial.map_sub, Polynomial.map_mul, Polynomial.map_pow, map_C, map_C, map_X, Int.coe_castRingHom]
  dsimp only
  rw [Int.cast_pow, Int.cast_pow, Int.cast_natCast]

theorem measure_X_pow_sub_C (d : ℕ) (hd : d ≠ 0) (c : ℂ) :
    (X ^ d - C c : ℂ[X]).mahlerMeasure ≤ 1 + ‖c‖ := by
  refine (mahlerMeasure_le_sum_norm_coeff _).trans ?_
  rw [sum_over_range' _ (by simp) (d + 1) (by rw [natDegree_X_pow_sub_C]; omega), Finset.sum_range_succ']
  have hco : ∀ i, (X ^ d - C c : ℂ[X]).coeff (i + 1) = if i + 1 = d then 1 else 0 := by
    intro i
    rw [coeff_sub, coeff_X_pow, coeff_C, if_neg (Nat.succ_ne_zero i), sub_zero]
  have h0 : (X ^ d - C c : ℂ[X]).coeff 0 = -c := by
    rw [coeff_sub, coeff_X_pow, coeff_C, if_neg hd.symm, if_pos rfl, zero_sub]
  rw [h0, norm_neg]
  refine add_le_add (le_of_eq ?_) (le_refl _)
  rw [Finset.sum_eq_single (d - 1)]
  · rw [hco, if_pos (by omega), norm_one]
  · intro i _ hi
    rw [hco, if_neg (by omega), norm_zero]
  · intro h
    exact absurd (Finset.mem_range.mpr (by omega)) h

theorem measure_X_pow_sub (d n : ℕ) (w : ℂ) :
    (X ^ d - C (w ^ n) : ℂ[X]).mahlerMeasure ≤ 2 * max 1 ‖w‖ ^ n := by
  have h1 : (1 : ℝ) ≤ max 1 ‖w‖ := le_max_left _ _
  have h2 : ‖w‖ ^ n ≤ max 1 ‖w‖ ^ n := pow_le_pow_left₀ (norm_nonneg _) (le_max_right _ _) n
  have h3 : (1 : ℝ) ≤ max 1 ‖w‖ ^ n := one_le_pow₀ h1
  rcases Nat.eq_zero_or_pos d with rfl | hd
  · rw [pow_zero, ← C_1, ← C_sub, mahlerMeasure_const]
    refine (norm_sub_le _ _).trans ?_
    rw [norm_one, norm_pow]
    linarith
  · have := measure_X_pow_sub_C d hd.ne' (w ^ n)
    rw [norm_pow] at this
    linarith

/-- the resultant of a power: its degree and its measure -/
theorem powResultant_size (p R : Poly ℤ) (n d : ℕ) (hn : 0 < n) (hp : p.toPoly ≠ 0)
    (hR : powResultant p n d = some R) :
    R.toPoly.natDegree ≤ p.toPoly.natDegree * d ∧
    (overC R.toPoly).mahlerMeasure ≤ 2 ^ p.toPoly.natDegree * (overC p.toPoly).mahlerMeasure ^ n := by
  have hsplit : (overC p.toPoly).Splits := IsAlgClosed.splits _
  have key := powResultant_prod p R n d hn hp hR
  have hcard : (overC p.toPoly).roots.card = p.toPoly.natDegree := by
    rw [← hsplit.natDegree_eq_card_roots, overC_natDegree]
  constructor
  · rw [← overC_natDegree, key]
    refine (natDegree_C_mul_le _ _).trans ?_
    rw [← hcard]
    exact natDegree_prod_le _ _ _ fun x _ => (natDegree_X_pow_sub_C).le
  · rw [key, mahlerMeasure_mul, mahlerMeasure_const, measure_prod]
    have h := prod_map_le (overC p.toPoly).roots (fun x => (X ^ d - C (x ^ n) : ℂ[X]).mahlerMeasure)
      (fun x => 2 * max 1 ‖x‖ ^ n) (fun _ _ => mahlerMeasure_nonneg _) (fun x _ => measure_X_pow_sub d n x)
    rw [Multiset.prod_map_mul, Multiset.map_const', Multiset.prod_replicate, hcard,
      Multiset.prod_map_pow] at h
    rw [mahlerMeasure_eq_leadingCoeff_mul_prod_roots (overC p.toPoly), norm_pow]
    refine (mul_le_mul_of_nonneg_left h (by positivity)).trans (le_of_eq ?_)
    rw [mul_pow]
    ring

/-- the resultant of a power is of moderate size if the base and the exponent are -/
theorem powResultant_moderate (p R : Poly ℤ) (n d g : ℕ) (hn : 0 < n) (hp : p.toPoly ≠ 0)
    (hg : ∀ i, |p.toPoly.coeff i| < 2 ^ g)
    (hsize : p.toPoly.natDegree * d * (6 * (p.toPoly.natDegree * d) + p.toPoly.natDegree +
      n * (p.toPoly.natDegree + g) + 1) < 2 ^ 29)
    (hR : powResultant p n d = some R) : R.Moderate := by
  obtain ⟨hdeg, hm⟩ := powResultant_size p R n d hn hp hR
  have h1 := pow_le_pow_left₀ (mahlerMeasure_nonneg _) (measure_bits p.toPoly g hg) n
  set m := p.toPoly.natDegree
  have h2 : (overC R.toPoly).mahlerMeasure ≤ 2 ^ (m + n * (m + g)) := by
    rw [pow_add, mul_comm n, pow_mul]
    exact hm.trans (mul_le_mul_of_nonneg_left h1 (by positivity))
  refine ⟨m * d + (m + n * (m + g)) + 1, fun i => bits_of_measure R.toPoly (m * d) _ hdeg h2 i, ?_⟩
  refine lt_of_le_of_lt (Nat.mul_le_mul hdeg (Nat.add_le_add_right (Nat.mul_le_mul_left 5 hdeg) _)) ?_
  refine lt_of_le_of_lt (le_of_eq ?_) hsize
  ring

end RealAlg

end Algebraics
