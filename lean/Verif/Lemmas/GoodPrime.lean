import Verif.Lemmas.Mignotte
import Verif.Spec.Factor
import Mathlib.NumberTheory.Chebyshev
import Mathlib.RingTheory.Polynomial.Resultant.Basic
import Mathlib.LinearAlgebra.Matrix.AbsoluteValue
import Mathlib.FieldTheory.Perfect

/-!
# A suitable prime below `2^31` exists for polynomials of moderate size
-/

namespace Algebraics

open Polynomial

/-- the product of the primes below `2^31` is at least `2^(2^30+1)` -/
theorem primorial_large (k : ℕ) (hk : k ≤ 2 ^ 30 + 1) : 2 ^ k ≤ primorial (2 ^ 31 - 1) := by
  have hpos : 0 < primorial (2 ^ 31 - 1) := primorial_pos _
  have h1 := Chebyshev.theta_ge (2 ^ 31 - 1)
  have h2 := Chebyshev.theta_eq_log_primorial ((2 ^ 31 - 1 : ℕ) : ℝ)
  rw [Nat.floor_natCast] at h2
  rw [h2] at h1
  have hlog2 : 0 < Real.log 2 := Real.log_pos (by norm_num)
  have hn : ((2 ^ 31 - 1 : ℕ) : ℝ) = 2 ^ 31 - 1 := by norm_num
  rw [hn] at h1
  have h3 : Real.log (2 ^ 31 - 1 + 1) = 31 * Real.log 2 := by
    rw [sub_add_cancel, Real.log_pow]; norm_num
  have h4 : Real.log (2 ^ 31 - 1) ≤ 31 * Real.log 2 := by
    rw [← h3]
    exact Real.log_le_log (by norm_num) (by norm_num)
  have h5 : √(2 ^ 31 - 1 : ℝ) ≤ 2 ^ 16 := by
    rw [Real.sqrt_le_left (by norm_num)]; norm_num
  have h5' : 0 ≤ √(2 ^ 31 - 1 : ℝ) := Real.sqrt_nonneg _
  have h4' : 0 ≤ Real.log (2 ^ 31 - 1) := Real.log_nonneg (by norm_num)
  have h6 : 2 * √(2 ^ 31 - 1 : ℝ) * Real.log (2 ^ 31 - 1) ≤ 2 * 2 ^ 16 * (31 * Real.log 2) := by
    apply mul_le_mul _ h4 h4' (by norm_num)
    linarith
  have h7 : (k : ℝ) * Real.log 2 ≤ Real.log (primorial (2 ^ 31 - 1)) := by
    have hk' : (k : ℝ) ≤ 2 ^ 30 + 1 := by exact_mod_cast hk
    have h8 : (k : ℝ) * Real.log 2 ≤ (2 ^ 30 + 1) * Real.log 2 :=
      mul_le_mul_of_nonneg_right hk' hlog2.le
    rw [h3] at h1
    have h9 : ((2 : ℝ) ^ 31 - 1) * Real.log 2 - 31 * Real.log 2 - 2 * 2 ^ 16 * (31 * Real.log 2) =
        (2 ^ 31 - 1 - 31 - 2 * 2 ^ 16 * 31) * Real.log 2 := by ring
    have h10 : ((2 : ℝ) ^ 30 + 1) * Real.log 2 ≤ (2 ^ 31 - 1 - 31 - 2 * 2 ^ 16 * 31) * Real.log 2 :=
      mul_le_mul_of_nonneg_right (by norm_num) hlog2.le
    linarith
  rw [← Real.log_pow] at h7
  have h11 := (Real.log_le_log_iff (by positivity) (by exact_mod_cast hpos)).mp h7
  exact_mod_cast h11

/-- not all odd primes below `2^31` divide a number of at most `2^30` bits -/
theorem exists_odd_prime (N : ℤ) (hN : N ≠ 0) (k : ℕ) (hk : k ≤ 2 ^ 30) (hNk : |N| < 2 ^ k) :
    ∃ p : ℕ, p.Prime ∧ p ≠ 2 ∧ (p : ℤ) < 2 ^ 31 ∧ ¬ (p : ℤ) ∣ N := by
  by_contra hcon
  push Not at hcon
  have hdvd : primorial (2 ^ 31 - 1) ∣ 2 * N.natAbs := by
    unfold primorial
    refine Finset.prod_primes_dvd _ ?_ ?_
    · intro p hp
      exact (Finset.mem_filter.mp hp).2.prime
    · intro p hp
      obtain ⟨h1, h2⟩ := Finset.mem_filter.mp hp
      by_cases h3 : p = 2
      · exact h3 ▸ Dvd.intro _ rfl
      · refine Dvd.dvd.mul_left ?_ _
        have hlt : p < 2 ^ 31 := by
          have := Finset.mem_range.mp h1
          omega
        have := hcon p h2 h3 (by exact_mod_cast hlt)
        exact Int.natCast_dvd.mp this
  have h0 : 0 < 2 * N.natAbs := by
    have := Int.natAbs_pos.mpr hN
    omega
  have h1 := Nat.le_of_dvd h0 hdvd
  have h2 := primorial_large (k + 1) (by omega)
  have h3 : N.natAbs < 2 ^ k := by
    have : (N.natAbs : ℤ) < 2 ^ k := by rwa [Int.natCast_natAbs]
    exact_mod_cast this
  rw [pow_succ] at h2
  omega

/-- a prime that divides neither the leading coefficient nor the resultant with the derivative -/
theorem squarefree_mod (z : ℤ[X]) (m : ℕ) (hm : z.natDegree = m + 1) (p : ℕ) [Fact p.Prime]
    (hp : ¬ (p : ℤ) ∣ z.resultant (derivative z) (m + 1) m) :
    Squarefree (z.map (Int.castRingHom (ZMod p))) := by
  obtain ⟨a, b, -, -, h⟩ := exists_mul_add_mul_eq_C_resultant z (derivative z) (m := m + 1) (n := m) hm.le
    ((natDegree_derivative_le z).trans (by omega)) (Or.inl (by omega))
  set R := z.resultant (derivative z) (m + 1) m with hR
  have hR0 : ((R : ℤ) : ZMod p) ≠ 0 := fun h => hp ((ZMod.intCast_zmod_eq_zero_iff_dvd _ _).mp h)
  have h1 := congrArg (Polynomial.map (Int.castRingHom (ZMod p))) h
  rw [Polynomial.map_add, Polynomial.map_mul, Polynomial.map_mul, map_C] at h1
  apply Separable.squarefree
  refine ⟨C (((R : ℤ) : ZMod p)⁻¹) * a.map (Int.castRingHom (ZMod p)),
    C (((R : ℤ) : ZMod p)⁻¹) * b.map (Int.castRingHom (ZMod p)), ?_⟩
  rw [derivative_map]
  have h2 : C (((R : ℤ) : ZMod p)⁻¹) * C (((R : ℤ) : ZMod p)) = 1 := by
    rw [← C_mul, inv_mul_cancel₀ hR0, C_1]
  rw [eq_intCast] at h1
  linear_combination C (((R : ℤ) : ZMod p)⁻¹) * h1 + h2

theorem resultant_derivative_ne_zero (z : ℤ[X]) (m : ℕ) (hm : z.natDegree = m + 1)
    (hs : Squarefree (z.map (Int.castRingHom ℚ))) : z.resultant (derivative z) (m + 1) m ≠ 0 := by
  intro h
  have hinj : Function.Injective (Int.castRingHom ℚ) := Int.cast_injective
  have h1 := resultant_map_map z (derivative z) (m + 1) m (Int.castRingHom ℚ)
  rw [h, map_zero] at h1
  have h2 : (z.map (Int.castRingHom ℚ)).natDegree = m + 1 := by
    rw [natDegree_map_eq_of_injective hinj, hm]
  have h3 : ((derivative z).map (Int.castRingHom ℚ)).natDegree = m := by
    rw [← derivative_map]
    refine natDegree_eq_of_degree_eq_some ?_
    rw [degree_derivative (by rw [h2]; omega), h2]; rfl
  have h4 : resultant (z.map (Int.castRingHom ℚ)) ((derivative z).map (Int.castRingHom ℚ)) = 0 := by
    rw [h2, h3]; exact h1
  rw [resultant_eq_zero_iff] at h4
  apply h4.2
  rw [← derivative_map]
  exact PerfectField.separable_iff_squarefree.mpr hs

/-- how large the resultant can be -/
theorem resultant_derivative_le (z : ℤ[X]) (m : ℕ) (B : ℤ) (hB : ∀ i, |z.coeff i| ≤ B)
    (hm : z.natDegree = m + 1) :
    |z.resultant (derivative z) (m + 1) m| ≤ ((2 * (m + 1) * (m + 1) : ℕ) * B) ^ (2 * m + 1) := by
  have hB0 : 0 ≤ B := (abs_nonneg _).trans (hB 0)
  have hder : ∀ i, |(derivative z).coeff i| ≤ (m + 1 : ℕ) * B := by
    intro i
    by_cases hi : i ≤ m
    · rw [coeff_derivative, abs_mul, mul_comm]
      have h1 : |((i : ℤ) + 1)| ≤ (m + 1 : ℕ) := by
        rw [abs_of_nonneg (by positivity)]; push_cast; exact_mod_cast Nat.succ_le_succ hi
      exact mul_le_mul h1 (hB _) (abs_nonneg _) (by positivity)
    · rw [coeff_eq_zero_of_natDegree_lt]
      · simp; positivity
      · exact lt_of_le_of_lt (natDegree_derivative_le z) (by omega)
  have hcoef : ∀ i, |z.coeff i| ≤ (m + 1 : ℕ) * B := by
    intro i
    refine (hB i).trans ?_
    have : (1 : ℤ) ≤ ((m + 1 : ℕ) : ℤ) := by exact_mod_cast Nat.succ_le_succ (Nat.zero_le m)
    nlinarith
  have hentry : ∀ i j, AbsoluteValue.abs (sylvester z (derivative z) (m + 1) m i j) ≤ ((m + 1 : ℕ) : ℤ) * B := by
    intro i j
    have h0 : (0 : ℤ) ≤ ((m + 1 : ℕ) : ℤ) * B := by positivity
    rw [AbsoluteValue.abs_apply]
    unfold sylvester
    rw [Matrix.of_apply]
    induction j using Fin.addCases with
    | left j =>
      rw [Fin.addCases_left]
      by_cases hc : (i : ℕ) ∈ Set.Icc (j : ℕ) (j + m)
      · rw [if_pos hc]; exact hder _
      · rw [if_neg hc, abs_zero]; exact h0
    | right j =>
      rw [Fin.addCases_right]
      by_cases hc : (i : ℕ) ∈ Set.Icc (j : ℕ) (j + (m + 1))
      · rw [if_pos hc]; exact hcoef _
      · rw [if_neg hc, abs_zero]; exact h0
  have hdet := Matrix.det_le hentry
  rw [AbsoluteValue.abs_apply] at hdet
  rw [resultant]
  refine hdet.trans ?_
  rw [Fintype.card_fin, show m + 1 + m = 2 * m + 1 by ring, nsmul_eq_mul]
  have hfact : ((2 * m + 1).factorial : ℤ) ≤ ((2 * (m + 1) : ℕ) : ℤ) ^ (2 * m + 1) := by
    have h1 := Nat.factorial_le_pow (2 * m + 1)
    have h2 : (2 * m + 1) ^ (2 * m + 1) ≤ (2 * (m + 1)) ^ (2 * m + 1) :=
      Nat.pow_le_pow_left (by omega) _
    exact_mod_cast h1.trans h2
  calc ((2 * m + 1).factorial : ℤ) * (((m + 1 : ℕ) : ℤ) * B) ^ (2 * m + 1)
      ≤ ((2 * (m + 1) : ℕ) : ℤ) ^ (2 * m + 1) * (((m + 1 : ℕ) : ℤ) * B) ^ (2 * m + 1) :=
        mul_le_mul_of_nonneg_right hfact (by positivity)
    _ = _ := by rw [← mul_pow]; push_cast; ring

/-- a divisor has moderate coefficients -/
theorem divisor_coeff_le (f z : ℤ[X]) (hf : f ≠ 0) (hz : z ∣ f) (h : ℕ) (hh : ∀ i, |f.coeff i| < 2 ^ h)
    (i : ℕ) : |z.coeff i| ≤ 2 ^ (2 * f.natDegree + h) := by
  obtain ⟨k, hk⟩ := hz
  have h1 := mignotte f z 1 k hf (by rw [mul_one]; exact hk) (2 ^ h) (fun i => (hh i).le) i
  rw [leadingCoeff_one, one_mul] at h1
  have h2 : ((f.natDegree : ℤ) + 1) ≤ 2 ^ (2 * f.natDegree) := by
    have h3 : f.natDegree + 1 ≤ 2 ^ f.natDegree := Nat.lt_two_pow_self
    have h4 : 2 ^ f.natDegree ≤ 2 ^ (2 * f.natDegree) := Nat.pow_le_pow_right (by norm_num) (by omega)
    exact_mod_cast h3.trans h4
  have h3 : z.coeff i ^ 2 ≤ (2 ^ (2 * f.natDegree + h)) ^ 2 := by
    refine h1.trans ?_
    have : (2 : ℤ) ^ (2 * f.natDegree) * ((f.natDegree : ℤ) + 1) * (2 ^ h) ^ 2 ≤
        2 ^ (2 * f.natDegree) * 2 ^ (2 * f.natDegree) * (2 ^ h) ^ 2 := by
      gcongr
    refine this.trans (le_of_eq ?_)
    ring
  exact abs_le_of_sq_le_sq h3 (by positivity)

namespace Poly

/-- a suitable prime exists for each divisor of a polynomial of degree `n` with coefficients of `h` bits, as
long as `n (4 n + h)` is below `2^29` -/
theorem exists_goodPrime (f z : Poly ℤ) (h : ℕ) (hf : f.toPoly ≠ 0) (hz : z.toPoly ∣ f.toPoly)
    (hh : ∀ i, |f.toPoly.coeff i| < 2 ^ h)
    (hsize : f.toPoly.natDegree * (5 * f.toPoly.natDegree + h) < 2 ^ 29)
    (hd : 2 ≤ z.toPoly.natDegree) (hs : Squarefree (z.toPoly.map (Int.castRingHom ℚ))) :
    ∃ p, z.GoodPrime p := by
  obtain ⟨m, hm⟩ : ∃ m, z.toPoly.natDegree = m + 1 := ⟨z.toPoly.natDegree - 1, by omega⟩
  have hz0 : z.toPoly ≠ 0 := ne_zero_of_dvd_ne_zero hf hz
  have hn : m + 1 ≤ f.toPoly.natDegree := by rw [← hm]; exact natDegree_le_of_dvd hz hf
  set n := f.toPoly.natDegree with hndef
  have hB := divisor_coeff_le f.toPoly z.toPoly hf hz h hh
  set R := z.toPoly.resultant (Polynomial.derivative z.toPoly) (m + 1) m with hR
  have hRle := resultant_derivative_le z.toPoly m _ hB hm
  have hR0 := resultant_derivative_ne_zero z.toPoly m hm hs
  have hlc0 : z.toPoly.leadingCoeff ≠ 0 := leadingCoeff_ne_zero.mpr hz0
  have hlc : |z.toPoly.leadingCoeff| ≤ 2 ^ (2 * n + h) := hB _
  -- the size of the product
  have hpoly : ((2 * (m + 1) * (m + 1) : ℕ) : ℤ) ≤ 2 ^ (3 * n) := by
    have h1 : m + 1 ≤ 2 ^ n := hn.trans Nat.lt_two_pow_self.le
    have h2 : 2 ≤ 2 ^ n := by
      calc 2 = 2 ^ 1 := rfl
        _ ≤ 2 ^ n := Nat.pow_le_pow_right (by norm_num) (by omega)
    have h3 : 2 * (m + 1) * (m + 1) ≤ 2 ^ n * 2 ^ n * 2 ^ n :=
      Nat.mul_le_mul (Nat.mul_le_mul h2 h1) h1
    have h4 : 2 ^ n * 2 ^ n * 2 ^ n = 2 ^ (3 * n) := by ring
    rw [h4] at h3
    exact_mod_cast h3
  have hRle' : |R| ≤ 2 ^ ((5 * n + h) * (2 * m + 1)) := by
    refine hRle.trans ?_
    rw [pow_mul]
    apply pow_le_pow_left₀ (by positivity)
    calc ((2 * (m + 1) * (m + 1) : ℕ) : ℤ) * 2 ^ (2 * n + h) ≤ 2 ^ (3 * n) * 2 ^ (2 * n + h) :=
          mul_le_mul_of_nonneg_right hpoly (by positivity)
      _ = 2 ^ (5 * n + h) := by rw [← pow_add]; congr 1; ring
  have hN : |z.toPoly.leadingCoeff * R| < 2 ^ ((5 * n + h) * (2 * n) + 1) := by
    rw [abs_mul]
    have h1 : |z.toPoly.leadingCoeff| * |R| ≤ 2 ^ (5 * n + h) * 2 ^ ((5 * n + h) * (2 * m + 1)) := by
      apply mul_le_mul _ hRle' (abs_nonneg _) (by positivity)
      exact hlc.trans (pow_le_pow_right₀ (by norm_num) (by omega))
    have h2 : (2 : ℤ) ^ (5 * n + h) * 2 ^ ((5 * n + h) * (2 * m + 1)) = 2 ^ ((5 * n + h) * (2 * (m + 1))) := by
      rw [← pow_add]; congr 1; ring
    rw [h2] at h1
    have h3 : (5 * n + h) * (2 * (m + 1)) ≤ (5 * n + h) * (2 * n) := Nat.mul_le_mul_left _ (by omega)
    refine h1.trans_lt (pow_lt_pow_right₀ (by norm_num) (by omega))
  obtain ⟨p, hp, hp2, hlt, hnd⟩ := exists_odd_prime (z.toPoly.leadingCoeff * R) (mul_ne_zero hlc0 hR0)
    ((5 * n + h) * (2 * n) + 1) (by
      have : (5 * n + h) * (2 * n) = 2 * (n * (5 * n + h)) := by ring
      omega) hN
  have : Fact p.Prime := ⟨hp⟩
  refine ⟨p, hp, hp2, hlt, fun h => hnd (h.mul_right _), ?_⟩
  exact squarefree_mod z.toPoly m hm p fun h => hnd (h.mul_left _)

end Poly
end Algebraics
