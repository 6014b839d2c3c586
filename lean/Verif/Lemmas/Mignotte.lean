import Mathlib.NumberTheory.MahlerMeasure
import Verif.Lemmas.PolyMore
import Verif.Model.Factor

/-!
# The bound on the coefficients of a factor
-/

namespace Algebraics

open Polynomial

/-- Mignotte's bound: a coefficient of `g`, times the leading coefficient of `h`, where `g h k = f`. -/
theorem mignotte (f g h k : ℤ[X]) (hf : f ≠ 0) (hfe : f = g * h * k) (B : ℤ) (hB : ∀ i, |f.coeff i| ≤ B)
    (i : ℕ) : (h.leadingCoeff * g.coeff i) ^ 2 ≤ 2 ^ (2 * f.natDegree) * (f.natDegree + 1) * B ^ 2 := by
  have hg : g ≠ 0 := by rintro rfl; simp at hfe; exact hf hfe
  have hh : h ≠ 0 := by rintro rfl; simp at hfe; exact hf hfe
  have hk : k ≠ 0 := by rintro rfl; simp at hfe; exact hf hfe
  have hB0 : 0 ≤ B := (abs_nonneg _).trans (hB 0)
  let φ := Int.castRingHom ℂ
  have hinj : Function.Injective φ := φ.injective_int
  have hdf : f.natDegree = g.natDegree + h.natDegree + k.natDegree := by
    rw [hfe, natDegree_mul (mul_ne_zero hg hh) hk, natDegree_mul hg hh]
  have h1 : ‖(g.map φ).coeff i‖ ≤ 2 ^ f.natDegree * (g.map φ).mahlerMeasure := by
    refine (norm_coeff_le_choose_mul_mahlerMeasure i _).trans ?_
    apply mul_le_mul_of_nonneg_right _ (mahlerMeasure_nonneg _)
    rw [natDegree_map_eq_of_injective hinj]
    have h2 : (g.natDegree.choose i) ≤ 2 ^ g.natDegree := Nat.choose_le_two_pow _ _
    have h3 : 2 ^ g.natDegree ≤ 2 ^ f.natDegree := Nat.pow_le_pow_right (by norm_num) (by omega)
    exact_mod_cast h2.trans h3
  have h2 : ‖(h.map φ).leadingCoeff‖ ≤ (h.map φ).mahlerMeasure := leadingCoeff_le_mahlerMeasure _
  have h3 : 1 ≤ (k.map φ).mahlerMeasure := one_le_mahlerMeasure_of_ne_zero hk
  have h4 : (f.map φ).mahlerMeasure =
      (g.map φ).mahlerMeasure * (h.map φ).mahlerMeasure * (k.map φ).mahlerMeasure := by
    rw [hfe, Polynomial.map_mul, Polynomial.map_mul, mahlerMeasure_mul, mahlerMeasure_mul]
  have h5 : (f.map φ).mahlerMeasure ≤ √(f.natDegree + 1) * B := by
    refine (mahlerMeasure_le_sqrt_natDegree_add_one_mul_supNorm _).trans ?_
    rw [natDegree_map_eq_of_injective hinj]
    apply mul_le_mul_of_nonneg_left _ (Real.sqrt_nonneg _)
    obtain ⟨j, hj⟩ := exists_eq_supNorm (f.map φ)
    rw [hj, coeff_map, eq_intCast, Complex.norm_intCast]
    exact_mod_cast hB j
  have g0 := mahlerMeasure_nonneg (g.map φ)
  have h0 := mahlerMeasure_nonneg (h.map φ)
  have h6 : |((h.leadingCoeff * g.coeff i : ℤ) : ℝ)| ≤ 2 ^ f.natDegree * (√(f.natDegree + 1) * B) := by
    have e1 : |((h.leadingCoeff * g.coeff i : ℤ) : ℝ)| =
        ‖(h.map φ).leadingCoeff‖ * ‖(g.map φ).coeff i‖ := by
      rw [leadingCoeff_map_of_injective hinj, coeff_map, eq_intCast, eq_intCast, Complex.norm_intCast,
        Complex.norm_intCast, ← abs_mul]
      push_cast; rfl
    rw [e1]
    calc ‖(h.map φ).leadingCoeff‖ * ‖(g.map φ).coeff i‖
        ≤ (h.map φ).mahlerMeasure * (2 ^ f.natDegree * (g.map φ).mahlerMeasure) :=
          mul_le_mul h2 h1 (norm_nonneg _) h0
      _ = 2 ^ f.natDegree * ((g.map φ).mahlerMeasure * (h.map φ).mahlerMeasure * 1) := by ring
      _ ≤ 2 ^ f.natDegree * (f.map φ).mahlerMeasure := by
          rw [h4]
          gcongr
      _ ≤ _ := by gcongr
  have h7 := pow_le_pow_left₀ (abs_nonneg _) h6 2
  rw [sq_abs, mul_pow, mul_pow, Real.sq_sqrt (by positivity)] at h7
  have : (((h.leadingCoeff * g.coeff i) ^ 2 : ℤ) : ℝ) ≤
      ((2 ^ (2 * f.natDegree) * (f.natDegree + 1) * B ^ 2 : ℤ) : ℝ) := by
    push_cast
    push_cast at h7
    rw [mul_comm 2 f.natDegree, pow_mul]
    linarith
  exact_mod_cast this

namespace Poly

/-- the modulus is large enough for every factor, scaled as the code does it -/
theorem factor_bound (f : Poly ℤ) (M : ℕ) (hM : f.factorLimit.toNat < M * M) (g h k : ℤ[X])
    (hf : f.toPoly ≠ 0) (hfe : f.toPoly = g * h * k) (μ : ℕ) (hμ : (μ : ℤ) ≤ f.toPoly.leadingCoeff) (i : ℕ) :
    2 * |h.leadingCoeff * (μ * g.coeff i)| < M := by
  have h1 := mignotte f.toPoly g h k hf hfe f.maxNorm (maxNorm_spec f).1 i
  have h2 : f.factorLimit = 4 * (2 ^ (2 * f.toPoly.natDegree) * (f.toPoly.natDegree + 1) * f.maxNorm ^ 2) *
      f.toPoly.leadingCoeff ^ 2 := by
    unfold factorLimit
    simp only
    rw [highest_eq, degree_eq, if_neg hf, Option.getD_some]
    simp only [shl]
    rw [mul_comm f.toPoly.natDegree 2]
    push_cast
    ring
  have h3 : f.factorLimit < (M : ℤ) * M := by
    have := Int.self_le_toNat f.factorLimit
    have h4 : (f.factorLimit.toNat : ℤ) < (M * M : ℕ) := by exact_mod_cast hM
    push_cast at h4
    omega
  have h4 : (2 * |h.leadingCoeff * (μ * g.coeff i)|) ^ 2 < (M : ℤ) ^ 2 := by
    rw [mul_pow, sq_abs]
    have e : (h.leadingCoeff * (μ * g.coeff i)) ^ 2 = (μ : ℤ) ^ 2 * (h.leadingCoeff * g.coeff i) ^ 2 := by ring
    have hμ2 : (μ : ℤ) ^ 2 ≤ f.toPoly.leadingCoeff ^ 2 := pow_le_pow_left₀ (by positivity) hμ 2
    rw [e]
    have h5 : (μ : ℤ) ^ 2 * (h.leadingCoeff * g.coeff i) ^ 2 ≤
        f.toPoly.leadingCoeff ^ 2 * (2 ^ (2 * f.toPoly.natDegree) * (f.toPoly.natDegree + 1) * f.maxNorm ^ 2) :=
      mul_le_mul hμ2 h1 (by positivity) (by positivity)
    nlinarith
  exact lt_of_pow_lt_pow_left₀ 2 (by positivity) h4

end Poly
end Algebraics
