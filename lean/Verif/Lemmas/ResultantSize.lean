import Mathlib.NumberTheory.MahlerMeasure
import Verif.Lemmas.AlgLeading
import Verif.Spec.Factor

/-!
# The size of the resultants

The coefficients of the polynomials built for a sum and a product, bounded by the degrees and the coefficients
of the two operands.
-/

namespace Algebraics

open Polynomial

namespace RealAlg

theorem max_one_add (x y : ℂ) : max 1 ‖x + y‖ ≤ 2 * max 1 ‖x‖ * max 1 ‖y‖ := by
  have hx : 1 ≤ max 1 ‖x‖ := le_max_left _ _
  have hy : 1 ≤ max 1 ‖y‖ := le_max_left _ _
  have hx' : ‖x‖ ≤ max 1 ‖x‖ := le_max_right _ _
  have hy' : ‖y‖ ≤ max 1 ‖y‖ := le_max_right _ _
  refine max_le (by nlinarith) ((norm_add_le x y).trans ?_)
  nlinarith

theorem max_one_mul (x y : ℂ) : max 1 ‖x * y‖ ≤ max 1 ‖x‖ * max 1 ‖y‖ := by
  have hx : 1 ≤ max 1 ‖x‖ := le_max_left _ _
  have hy : 1 ≤ max 1 ‖y‖ := le_max_left _ _
  rw [norm_mul]
  refine max_le (by nlinarith) (mul_le_mul (le_max_right _ _) (le_max_right _ _) (norm_nonneg _) (by linarith))

/-- a product over a multiset, factor by factor -/
theorem prod_map_le {ι : Type} (s : Multiset ι) (f g : ι → ℝ) (h0 : ∀ i ∈ s, 0 ≤ f i)
    (h : ∀ i ∈ s, f i ≤ g i) : (s.map f).prod ≤ (s.map g).prod := by
  induction s using Multiset.induction_on with
  | empty => simp
  | cons a s ih =>
    rw [Multiset.map_cons, Multiset.map_cons, Multiset.prod_cons, Multiset.prod_cons]
    have h1 := h0 a (Multiset.mem_cons_self a s)
    have h2 := h a (Multiset.mem_cons_self a s)
    have h3 : 0 ≤ (s.map f).prod := by
      apply Multiset.prod_nonneg
      intro x hx
      obtain ⟨i, hi, rfl⟩ := Multiset.mem_map.mp hx
      exact h0 i (Multiset.mem_cons_of_mem hi)
    exact mul_le_mul h2 (ih (fun i hi => h0 i (Multiset.mem_cons_of_mem hi))
      fun i hi => h i (Multiset.mem_cons_of_mem hi)) h3 (h1.trans h2)

/-- the measure of a product over a multiset -/
theorem measure_prod {ι : Type} (s : Multiset ι) (f : ι → ℂ[X]) :
    (s.map f).prod.mahlerMeasure = (s.map fun i => (f i).mahlerMeasure).prod := by
  rw [prod_mahlerMeasure_eq_mahlerMeasure_prod, Multiset.map_map]
  rfl

/-- moving the roots -/
theorem measure_shift (q : ℂ[X]) (x : ℂ) :
    (q.comp (X - C x)).mahlerMeasure ≤ (2 * max 1 ‖x‖) ^ q.natDegree * q.mahlerMeasure := by
  have hq : q.Splits := IsAlgClosed.splits q
  have e1 : q.comp (X - C x) = C q.leadingCoeff * (q.roots.map fun y => X - C (x + y)).prod := by
    conv_lhs => rw [hq.eq_prod_roots]
    rw [mul_comp, C_comp, multiset_prod_comp, Multiset.map_map]
    congr 2
    apply Multiset.map_congr rfl
    intro y _
    simp only [Function.comp_apply, sub_comp, X_comp, C_comp, C_add]
    ring
  rw [e1, mahlerMeasure_mul, mahlerMeasure_const, measure_prod,
    mahlerMeasure_eq_leadingCoeff_mul_prod_roots, hq.natDegree_eq_card_roots]
  have h := prod_map_le q.roots (fun y => (X - C (x + y)).mahlerMeasure)
    (fun y => (2 * max 1 ‖x‖) * max 1 ‖y‖) (fun _ _ => mahlerMeasure_nonneg _)
    (fun y _ => by rw [mahlerMeasure_X_sub_C]; exact max_one_add x y)
  rw [Multiset.prod_map_mul, Multiset.map_const', Multiset.prod_replicate] at h
  calc _ ≤ ‖q.leadingCoeff‖ * _ := mul_le_mul_of_nonneg_left h (norm_nonneg _)
    _ = _ := by ring

/-- scaling the roots -/
theorem measure_scale (p : ℂ[X]) (y : ℂ) (hy : y ≠ 0) :
    (C (y ^ p.natDegree) * p.comp (C y⁻¹ * X)).mahlerMeasure ≤
      max 1 ‖y‖ ^ p.natDegree * p.mahlerMeasure := by
  have hp : p.Splits := IsAlgClosed.splits p
  have e1 : C (y ^ p.natDegree) * p.comp (C y⁻¹ * X) =
      C p.leadingCoeff * (p.roots.map fun x => X - C (y * x)).prod := by
    conv_lhs => rw [hp.eq_prod_roots]
    rw [mul_comp, C_comp, multiset_prod_comp, Multiset.map_map, ← hp.eq_prod_roots, mul_left_comm,
      hp.natDegree_eq_card_roots]
    congr 1
    rw [C_pow, ← Multiset.prod_replicate, ← Multiset.map_const', ← Multiset.prod_map_mul]
    congr 1
    apply Multiset.map_congr rfl
    intro x _
    simp only [Function.comp_apply, sub_comp, X_comp, C_comp, C_mul]
    rw [mul_sub, ← mul_assoc, ← C_mul, mul_inv_cancel₀ hy, C_1, one_mul]
  rw [e1, mahlerMeasure_mul, mahlerMeasure_const, measure_prod,
    mahlerMeasure_eq_leadingCoeff_mul_prod_roots, hp.natDegree_eq_card_roots]
  have h := prod_map_le p.roots (fun x => (X - C (y * x)).mahlerMeasure)
    (fun x => max 1 ‖y‖ * max 1 ‖x‖) (fun _ _ => mahlerMeasure_nonneg _)
    (fun x _ => by rw [mahlerMeasure_X_sub_C]; exact max_one_mul y x)
  rw [Multiset.prod_map_mul, Multiset.map_const', Multiset.prod_replicate] at h
  calc _ ≤ ‖p.leadingCoeff‖ * _ := mul_le_mul_of_nonneg_left h (norm_nonneg _)
    _ = _ := by ring

/-- the measure of a polynomial with integer coefficients of `h` bits -/
theorem measure_bits (p : ℤ[X]) (h : ℕ) (hh : ∀ i, |p.coeff i| < 2 ^ h) :
    (overC p).mahlerMeasure ≤ 2 ^ (p.natDegree + h) := by
  refine (mahlerMeasure_le_sqrt_natDegree_add_one_mul_supNorm _).trans ?_
  rw [overC_natDegree, pow_add]
  refine mul_le_mul ?_ ?_ (supNorm_nonneg _) (by positivity)
  · rw [Real.sqrt_le_left (by positivity)]
    have h1 : p.natDegree + 1 ≤ 2 ^ p.natDegree := Nat.lt_two_pow_self
    have h2 : ((p.natDegree + 1 : ℕ) : ℝ) ≤ 2 ^ p.natDegree := by exact_mod_cast h1
    push_cast at h2
    have h3 : (1 : ℝ) ≤ 2 ^ p.natDegree := one_le_pow₀ (by norm_num)
    nlinarith
  · obtain ⟨j, hj⟩ := exists_eq_supNorm (overC p)
    rw [hj, overC, coeff_map, eq_intCast, Complex.norm_intCast]
    exact_mod_cast (hh j).le

/-- coefficients from the measure -/
theorem bits_of_measure (R : ℤ[X]) (D B : ℕ) (hD : R.natDegree ≤ D) (hB : (overC R).mahlerMeasure ≤ 2 ^ B)
    (i : ℕ) : |R.coeff i| < 2 ^ (D + B + 1) := by
  have h1 := norm_coeff_le_choose_mul_mahlerMeasure i (overC R)
  have h2 : ((overC R).natDegree.choose i : ℝ) ≤ 2 ^ D := by
    rw [overC_natDegree]
    have : R.natDegree.choose i ≤ 2 ^ D :=
      (Nat.choose_le_two_pow _ _).trans (Nat.pow_le_pow_right (by norm_num) hD)
    exact_mod_cast this
  have h3 : ‖(overC R).coeff i‖ ≤ 2 ^ D * 2 ^ B :=
    h1.trans (mul_le_mul h2 hB (mahlerMeasure_nonneg _) (by positivity))
  rw [overC, coeff_map, eq_intCast, Complex.norm_intCast, ← pow_add] at h3
  have h4 : |R.coeff i| ≤ 2 ^ (D + B) := by exact_mod_cast h3
  refine lt_of_le_of_lt h4 ?_
  exact pow_lt_pow_right₀ (by norm_num) (Nat.lt_succ_self _)

theorem natDegree_prod_le {ι : Type} (s : Multiset ι) (f : ι → ℂ[X]) (d : ℕ)
    (h : ∀ i ∈ s, (f i).natDegree ≤ d) : (s.map f).prod.natDegree ≤ s.card * d := by
  induction s using Multiset.induction_on with
  | empty => simp
  | cons a s ih =>
    rw [Multiset.map_cons, Multiset.prod_cons, Multiset.card_cons]
    have h1 := h a (Multiset.mem_cons_self a s)
    have h2 := ih fun i hi => h i (Multiset.mem_cons_of_mem hi)
    refine natDegree_mul_le.trans ?_
    rw [add_mul, one_mul, add_comm]
    exact Nat.add_le_add h2 h1

/-- the resultant of a sum: its degree and its measure -/
theorem addResultant_size (p q R : Poly ℤ) (hp : p.toPoly ≠ 0) (hq : q.toPoly ≠ 0)
    (hR : addResultant p q = some R) :
    R.toPoly.natDegree ≤ p.toPoly.natDegree * q.toPoly.natDegree ∧
    (overC R.toPoly).mahlerMeasure ≤ 2 ^ (p.toPoly.natDegree * q.toPoly.natDegree) *
      (overC p.toPoly).mahlerMeasure ^ q.toPoly.natDegree *
      (overC q.toPoly).mahlerMeasure ^ p.toPoly.natDegree := by
  have hsplit : (overC p.toPoly).Splits := IsAlgClosed.splits _
  have key := addResultant_prod p q R hp hq hR
  have hcard : (overC p.toPoly).roots.card = p.toPoly.natDegree := by
    rw [← hsplit.natDegree_eq_card_roots, overC_natDegree]
  constructor
  · rw [← overC_natDegree, key]
    refine (natDegree_C_mul_le _ _).trans ?_
    rw [← hcard]
    refine natDegree_prod_le _ _ _ fun x _ => ?_
    refine natDegree_comp_le.trans ?_
    rw [natDegree_X_sub_C, mul_one, overC_natDegree]
  · rw [key, mahlerMeasure_mul, mahlerMeasure_const, measure_prod]
    have h := prod_map_le (overC p.toPoly).roots (fun x => ((overC q.toPoly).comp (X - C x)).mahlerMeasure)
      (fun x => (2 ^ q.toPoly.natDegree * (overC q.toPoly).mahlerMeasure) * max 1 ‖x‖ ^ q.toPoly.natDegree)
      (fun _ _ => mahlerMeasure_nonneg _)
      (fun x _ => (measure_shift _ x).trans (le_of_eq (by rw [overC_natDegree, mul_pow]; ring)))
    rw [Multiset.prod_map_mul, Multiset.map_const', Multiset.prod_replicate, hcard,
      Multiset.prod_map_pow] at h
    rw [mahlerMeasure_eq_leadingCoeff_mul_prod_roots (overC p.toPoly), norm_pow]
    refine (mul_le_mul_of_nonneg_left h (by positivity)).trans (le_of_eq ?_)
    rw [mul_pow, mul_pow, ← pow_mul, mul_comm q.toPoly.natDegree]
    ring

/-- the resultant of a product: its degree and its measure -/
theorem mulResultant_size (p q R : Poly ℤ) (hp : p.toPoly.coeff 0 ≠ 0) (hq : q.toPoly.coeff 0 ≠ 0)
    (hR : mulResultant p q = some R) :
    R.toPoly.natDegree ≤ p.toPoly.natDegree * q.toPoly.natDegree ∧
    (overC R.toPoly).mahlerMeasure ≤
      (overC p.toPoly).mahlerMeasure ^ q.toPoly.natDegree *
      (overC q.toPoly).mahlerMeasure ^ p.toPoly.natDegree := by
  have hsplit : (overC q.toPoly).Splits := IsAlgClosed.splits _
  obtain ⟨m, key⟩ := mulResultant_prod p q R hp hq hR
  have hcard : (overC q.toPoly).roots.card = q.toPoly.natDegree := by
    rw [← hsplit.natDegree_eq_card_roots, overC_natDegree]
  constructor
  · rw [← overC_natDegree, key]
    refine (natDegree_C_mul_le _ _).trans ((natDegree_C_mul_le _ _).trans ?_)
    rw [← hcard, mul_comm]
    refine natDegree_prod_le _ _ _ fun x _ => (natDegree_C_mul_le _ _).trans ?_
    refine natDegree_comp_le.trans ?_
    rw [overC_natDegree]
    exact (Nat.mul_le_mul_left _ ((natDegree_C_mul_le _ _).trans natDegree_X_le)).trans (mul_one _).le
  · rw [key, mahlerMeasure_mul, mahlerMeasure_const, norm_pow, norm_neg, norm_one, one_pow, one_mul,
      mahlerMeasure_mul, mahlerMeasure_const, measure_prod]
    have h := prod_map_le (overC q.toPoly).roots (fun y => (C (y ^ p.toPoly.natDegree) *
        (overC p.toPoly).comp (C y⁻¹ * X)).mahlerMeasure)
      (fun y => (overC p.toPoly).mahlerMeasure * max 1 ‖y‖ ^ p.toPoly.natDegree)
      (fun _ _ => mahlerMeasure_nonneg _)
      (fun y hy => by
        have hy0 : y ≠ 0 := by
          refine root_ne_zero hq ?_
          rw [← overC_eval]
          exact (mem_roots'.mp hy).2
        have := measure_scale (overC p.toPoly) y hy0
        rw [overC_natDegree] at this
        exact this.trans (le_of_eq (mul_comm _ _)))
    rw [Multiset.prod_map_mul, Multiset.map_const', Multiset.prod_replicate, hcard,
      Multiset.prod_map_pow] at h
    rw [mahlerMeasure_eq_leadingCoeff_mul_prod_roots (overC q.toPoly), norm_pow]
    refine (mul_le_mul_of_nonneg_left h (by positivity)).trans (le_of_eq ?_)
    rw [mul_pow]
    ring

/-- the two measures, in bits -/
theorem measures_bits (p q : ℤ[X]) (g h : ℕ) (hg : ∀ i, |p.coeff i| < 2 ^ g)
    (hh : ∀ i, |q.coeff i| < 2 ^ h) :
    (overC p).mahlerMeasure ^ q.natDegree * (overC q).mahlerMeasure ^ p.natDegree ≤
      2 ^ (2 * (p.natDegree * q.natDegree) + q.natDegree * g + p.natDegree * h) := by
  have h1 := pow_le_pow_left₀ (mahlerMeasure_nonneg _) (measure_bits p g hg) q.natDegree
  have h2 := pow_le_pow_left₀ (mahlerMeasure_nonneg _) (measure_bits q h hh) p.natDegree
  refine (mul_le_mul h1 h2 (pow_nonneg (mahlerMeasure_nonneg _) _) (by positivity)).trans (le_of_eq ?_)
  rw [← pow_mul, ← pow_mul, ← pow_add]
  congr 1
  ring

theorem moderate_of_size (p q R : Poly ℤ) (h : p.ModeratePair q)
    (hdeg : R.toPoly.natDegree ≤ p.toPoly.natDegree * q.toPoly.natDegree)
    (hm : (overC R.toPoly).mahlerMeasure ≤ 2 ^ (p.toPoly.natDegree * q.toPoly.natDegree) *
      (overC p.toPoly).mahlerMeasure ^ q.toPoly.natDegree *
      (overC q.toPoly).mahlerMeasure ^ p.toPoly.natDegree) : R.Moderate := by
  obtain ⟨g, k, hg, hk, hsize⟩ := h
  set m := p.toPoly.natDegree
  set n := q.toPoly.natDegree
  have h1 := measures_bits p.toPoly q.toPoly g k hg hk
  have h2 : (overC R.toPoly).mahlerMeasure ≤ 2 ^ (m * n + (2 * (m * n) + n * g + m * k)) := by
    rw [pow_add]
    rw [mul_assoc] at hm
    exact hm.trans (mul_le_mul_of_nonneg_left h1 (by positivity))
  refine ⟨m * n + (m * n + (2 * (m * n) + n * g + m * k)) + 1,
    fun i => bits_of_measure R.toPoly (m * n) _ hdeg h2 i, ?_⟩
  refine lt_of_le_of_lt (Nat.mul_le_mul hdeg (Nat.add_le_add_right (Nat.mul_le_mul_left 5 hdeg) _)) ?_
  refine lt_of_le_of_lt (le_of_eq ?_) hsize
  ring

/-- the resultant of a sum of numbers of moderate size is of moderate size -/
theorem addResultant_moderate (p q R : Poly ℤ) (hp : p.toPoly ≠ 0) (hq : q.toPoly ≠ 0)
    (h : p.ModeratePair q) (hR : addResultant p q = some R) : R.Moderate :=
  have hs := addResultant_size p q R hp hq hR
  moderate_of_size p q R h hs.1 hs.2

/-- the resultant of a product of numbers of moderate size is of moderate size -/
theorem mulResultant_moderate (p q R : Poly ℤ) (hp : p.toPoly.coeff 0 ≠ 0) (hq : q.toPoly.coeff 0 ≠ 0)
    (h : p.ModeratePair q) (hR : mulResultant p q = some R) : R.Moderate := by
  have hs := mulResultant_size p q R hp hq hR
  refine moderate_of_size p q R h hs.1 (hs.2.trans ?_)
  rw [mul_assoc]
  refine le_mul_of_one_le_left ?_ (one_le_pow₀ (by norm_num))
  exact mul_nonneg (pow_nonneg (mahlerMeasure_nonneg _) _) (pow_nonneg (mahlerMeasure_nonneg _) _)

end RealAlg

end Algebraics
