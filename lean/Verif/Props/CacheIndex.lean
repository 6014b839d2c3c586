import Verif.Lemmas.CacheIndex

/-!
Property C76: what a request to the constant cache costs, with the `f64` arithmetic of the index.
-/

namespace Algebraics
open Cache

/-- what is assumed of `f64::log2`: from 1 on it is not decreasing and not negative, and up to `2^65` it is within
`2^-10` of the logarithm (the platforms deliver a last digit or two of 53). -/
structure IsF64Log2 (log2 : ℚ → ℚ) : Prop where
  mono : MonotoneOn log2 (Set.Ici 1)
  nonneg : ∀ x, 1 ≤ x → 0 ≤ log2 x
  near : ∀ x : ℚ, 1 ≤ x → x ≤ 2 ^ 65 → |((log2 x : ℚ) : ℝ) - Real.logb 2 x| ≤ 1 / 2 ^ 10

/-- C76: the index never decreases with the precision, in spite of the rounding. This is what C06, C12 and C67 assume
of it. -/
theorem C76_index_monotone (log2 : ℚ → ℚ) (h : IsF64Log2 log2) : Monotone (f64Closure log2) := f64Closure_mono h.mono

/-- C76: for a request of `n` binary digits the constant is computed to at least `n` and less than
`3/2 (max n 32 + 1)` digits. -/
theorem C76_cost (log2 : ℚ → ℚ) (h : IsF64Log2 log2) (n : ℕ) (hn : n < 2 ^ 64) :
    n ≤ required (index (f64Closure log2)) (index (f64Closure log2) n) ∧
    2 * required (index (f64Closure log2)) (index (f64Closure log2) n) < 3 * (max n 32 + 1) := by
  have hm := C76_index_monotone log2 h
  refine ⟨le_required hm n hn, ?_⟩
  set r := required (index (f64Closure log2)) (index (f64Closure log2) n) with hr
  have hrlt : r < 2 ^ 64 := required_lt _ _
  have hir : index (f64Closure log2) r ≤ index (f64Closure log2) n :=
    (requiredLoop_spec (index_mono hm) _ 64 0 (dvd_zero _) (by rw [index_zero]; omega) (by
      intro m _ h2; omega)).1
  have hR : max r 32 < 2 ^ 64 := by omega
  have hN : max n 32 < 2 ^ 64 := by omega
  have h32 : f64Closure log2 32 ≤ f64Closure log2 (max n 32) := hm (le_max_right _ _)
  have hf : f64Closure log2 (max r 32) ≤ f64Closure log2 (max n 32) := by unfold index at hir; omega
  have sR := abs_le.mp (f64Scaled_near h.near h.nonneg (max r 32) hR)
  have sN := abs_le.mp (f64Scaled_near h.near h.nonneg (max n 32) hN)
  have pR : 0 ≤ f64Scaled log2 (max r 32) := f64Round_nonneg _
  have pN : 0 ≤ f64Scaled log2 (max n 32) := f64Round_nonneg _
  generalize hRR : max r 32 = R at *
  generalize hNN : max n 32 = N at *
  have lR : Real.logb 2 ((R:ℝ) + 1) ≤ 64 := by
    rw [Real.logb_le_iff_le_rpow (by norm_num) (by positivity)]
    have : (R:ℝ) + 1 ≤ 2 ^ (64:ℕ) := by exact_mod_cast hR
    exact_mod_cast this
  have fl : ⌊f64Scaled log2 R⌋ ≤ ⌊f64Scaled log2 N⌋ := by
    have a1 : 0 ≤ ⌊f64Scaled log2 R⌋ := Int.floor_nonneg.mpr pR
    have a2 : 0 ≤ ⌊f64Scaled log2 N⌋ := Int.floor_nonneg.mpr pN
    have a3 : ⌊f64Scaled log2 R⌋ < 2 ^ 64 - 1 := by
      rw [Int.floor_lt]
      have : ((f64Scaled log2 R : ℚ) : ℝ) < ((2 ^ 64 - 1 : ℤ) : ℝ) := by push_cast; norm_num at *; linarith
      exact_mod_cast this
    unfold f64Closure at hf
    omega
  have lt : f64Scaled log2 R < f64Scaled log2 N + 1 := by
    have b1 := Int.lt_floor_add_one (f64Scaled log2 R)
    have b2 := Int.floor_le (f64Scaled log2 N)
    have b3 : ((⌊f64Scaled log2 R⌋ : ℤ) : ℚ) ≤ ⌊f64Scaled log2 N⌋ := by exact_mod_cast fl
    linarith
  have lt' : ((f64Scaled log2 R : ℚ) : ℝ) < (f64Scaled log2 N : ℚ) + 1 := by exact_mod_cast lt
  have key : Real.logb 2 ((R:ℝ) + 1) < Real.logb 2 ((N:ℝ) + 1) + 1 / 2 := by norm_num at *; linarith
  have key2 : ((R:ℝ) + 1) ^ 2 < 2 * ((N:ℝ) + 1) ^ 2 := by
    have e : Real.logb 2 (2 * ((N:ℝ) + 1) ^ 2) = 1 + 2 * Real.logb 2 ((N:ℝ) + 1) := by
      rw [Real.logb_mul (by norm_num) (by positivity), Real.logb_pow]; norm_num
    have e' : Real.logb 2 (((R:ℝ) + 1) ^ 2) = 2 * Real.logb 2 ((R:ℝ) + 1) := by rw [Real.logb_pow]; norm_num
    rw [← Real.logb_lt_logb_iff (b := 2) (by norm_num) (by positivity) (by positivity), e, e']
    linarith
  have key3 : 2 * ((R:ℝ) + 1) < 3 * ((N:ℝ) + 1) := by
    have p : (0:ℝ) ≤ N := by positivity
    by_contra hc
    have hc := not_lt.mp hc
    nlinarith [mul_self_le_mul_self (by positivity) hc]
  have key4 : 2 * (R + 1) < 3 * (N + 1) := by exact_mod_cast key3
  omega

/-- the logarithm cut off after ten binary digits meets the hypothesis. -/
example : ∃ log2, IsF64Log2 log2 := by
  refine ⟨fun x => (⌊Real.logb 2 x * 2 ^ 10⌋ : ℚ) / 2 ^ 10, fun a ha b hb hab => ?_, fun x hx => ?_, fun x hx _ => ?_⟩
  · have : Real.logb 2 a ≤ Real.logb 2 b :=
      Real.logb_le_logb_of_le (by norm_num) (by exact_mod_cast lt_of_lt_of_le one_pos (Set.mem_Ici.mp ha)) (by exact_mod_cast hab)
    gcongr
  · have : 0 ≤ Real.logb 2 x := Real.logb_nonneg (by norm_num) (by exact_mod_cast hx)
    have : 0 ≤ ⌊Real.logb 2 x * 2 ^ 10⌋ := Int.floor_nonneg.mpr (by positivity)
    positivity
  · have h1 := Int.floor_le (Real.logb 2 x * 2 ^ 10)
    have h2 : Real.logb 2 x * 2 ^ 10 < ⌊Real.logb 2 x * 2 ^ 10⌋ + 1 := Int.lt_floor_add_one _
    have key : ∀ k L : ℝ, k ≤ L * 2 ^ 10 → L * 2 ^ 10 < k + 1 → |k / 2 ^ 10 - L| ≤ 1 / 2 ^ 10 := by
      intro k L h1 h2
      rw [abs_le]
      constructor <;> norm_num at * <;> linarith
    push_cast
    exact key _ _ h1 h2

end Algebraics
