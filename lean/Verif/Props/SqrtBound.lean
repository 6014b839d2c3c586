import Mathlib.Analysis.Real.Sqrt
import Verif.Model.SqrtBound


/-!
# The bound that ends Hensel lifting (C30)

The loop that lifts a factorization stops by comparing the modulus with the square root of a bound,
plus one.  The square root is irrational in general; the code keeps the integers around it.
-/

namespace Algebraics

namespace ExactInexactInt

/-- Specification: the real number `x` is one of the numbers the value stands for. -/
def Stands (e : ExactInexactInt) (x : ℝ) : Prop :=
  match e with
  | exact v => x = v
  | inexact l => (l : ℝ) < x ∧ x < l + 1

theorem bigIntSqrt_spec {v : ℤ} (h : 0 ≤ v) :
    ∃ s : ℕ, bigIntSqrt v = some (s : ℤ) ∧ ((s : ℤ) * s ≤ v) ∧ v < (s + 1) * (s + 1) := by
  refine ⟨Nat.sqrt v.toNat, by rw [bigIntSqrt, if_neg (not_lt.mpr h)], ?_, ?_⟩
  · have := Nat.sqrt_le v.toNat
    have h2 : ((Nat.sqrt v.toNat * Nat.sqrt v.toNat : ℕ) : ℤ) ≤ (v.toNat : ℤ) := by exact_mod_cast this
    rw [Int.toNat_of_nonneg h] at h2
    exact_mod_cast h2
  · have := Nat.lt_succ_sqrt v.toNat
    have h2 : (v.toNat : ℤ) < ((Nat.sqrt v.toNat + 1) * (Nat.sqrt v.toNat + 1) : ℕ) := by
      exact_mod_cast this
    rw [Int.toNat_of_nonneg h] at h2
    exact_mod_cast h2

end ExactInexactInt

open ExactInexactInt Poly

/-- **C30**: the arithmetic of the bound.  An integer stands for itself.  If a value stands for the
real number `x ≥ 0`, the square root returns and stands for `√x`; adding `k` stands for `x + k`; and
every comparison with an integer, in either order, is the comparison of `x` with that integer.  The
square root of a negative integer panics. -/
theorem C30_bound_arithmetic :
    (∀ v : ℤ, (ExactInexactInt.new v).Stands v) ∧
      (∀ (e : ExactInexactInt) (x : ℝ), e.Stands x → 0 ≤ x →
        ∃ r, e.sqrt = some r ∧ r.Stands (√x)) ∧
      (∀ v : ℤ, v < 0 → (ExactInexactInt.new v).sqrt = none) ∧
      (∀ (e : ExactInexactInt) (x : ℝ) (k : ℤ), e.Stands x → (e.add k).Stands (x + k)) ∧
      ∀ (e : ExactInexactInt) (x : ℝ) (n : ℤ), e.Stands x →
        (e.partialCmp n = some .lt ↔ x < n) ∧ (e.partialCmp n = some .eq ↔ x = n) ∧
        (e.partialCmp n = some .gt ↔ n < x) ∧ (e.eqInt n = true ↔ x = n) ∧
        (partialCmpInt n e = some .lt ↔ n < x) ∧ (partialCmpInt n e = some .eq ↔ x = n) ∧
        (partialCmpInt n e = some .gt ↔ x < n) ∧ (ltInt n e = true ↔ n < x) := by
  refine ⟨fun v => rfl, ?_, ?_, ?_, ?_⟩
  · rintro (v | l) x h hx
    · simp only [Stands] at h
      subst h
      have hv : 0 ≤ v := by exact_mod_cast hx
      obtain ⟨s, hs, h1, h2⟩ := bigIntSqrt_spec hv
      by_cases he : (s : ℤ) * s = v
      · refine ⟨.exact s, by simp only [ExactInexactInt.sqrt, hs, if_pos he], ?_⟩
        simp only [Stands]
        rw [← he]; push_cast
        exact Real.sqrt_mul_self (Nat.cast_nonneg s)
      · refine ⟨.inexact s, by simp only [ExactInexactInt.sqrt, hs, if_neg he], ?_⟩
        simp only [Stands]
        have h1' : ((s : ℤ) * s : ℤ) < v := lt_of_le_of_ne h1 he
        have h1r : (s : ℝ) * s < v := by exact_mod_cast h1'
        have h2r : (v : ℝ) < (s + 1) * (s + 1) := by exact_mod_cast h2
        push_cast
        constructor
        · exact Real.lt_sqrt_of_sq_lt (by nlinarith)
        · rw [Real.sqrt_lt' (by positivity)]; nlinarith
    · simp only [Stands] at h
      have hl : 0 ≤ l := by
        by_contra hn
        have : (l : ℝ) + 1 ≤ 0 := by exact_mod_cast (by omega : l + 1 ≤ 0)
        linarith [h.2]
      obtain ⟨s, hs, h1, h2⟩ := bigIntSqrt_spec hl
      refine ⟨.inexact s, by simp only [ExactInexactInt.sqrt, hs], ?_⟩
      simp only [Stands]
      have h1r : (s : ℝ) * s ≤ l := by exact_mod_cast h1
      have h2r : (l : ℝ) + 1 ≤ (s + 1) * (s + 1) := by exact_mod_cast h2
      push_cast
      constructor
      · exact Real.lt_sqrt_of_sq_lt (by nlinarith [h.1])
      · rw [Real.sqrt_lt' (by positivity)]; nlinarith [h.2]
  · intro v hv
    simp [ExactInexactInt.new, ExactInexactInt.sqrt, bigIntSqrt, hv]
  · rintro (v | l) x k h
    · simp only [Stands, ExactInexactInt.add] at h ⊢
      push_cast; rw [h]
    · simp only [Stands, ExactInexactInt.add] at h ⊢
      push_cast; constructor <;> linarith [h.1, h.2]
  · rintro (v | l) x n h
    · simp only [Stands] at h
      subst h
      simp only [eqInt, ltInt, partialCmpInt, partialCmp, Option.map_some, Int.cast_lt, Int.cast_inj]
      rcases lt_trichotomy v n with hc | hc | hc
      · rw [compare_lt_iff_lt.mpr hc]
        simp [hc, hc.ne, hc.le, Ordering.swap]
      · rw [compare_eq_iff_eq.mpr hc]
        simp [hc, Ordering.swap]
      · rw [compare_gt_iff_gt.mpr hc]
        simp [hc, hc.ne', hc.le, Ordering.swap]
    · simp only [Stands] at h
      by_cases hc : n ≤ l
      · have : (n : ℝ) < x := lt_of_le_of_lt (by exact_mod_cast hc) h.1
        simp [eqInt, ltInt, partialCmpInt, partialCmp, hc, Ordering.swap, this, this.le, this.ne']
      · have hn : (l : ℝ) + 1 ≤ n := by exact_mod_cast (by omega : l + 1 ≤ n)
        have : x < (n : ℝ) := lt_of_lt_of_le h.2 hn
        simp [eqInt, ltInt, partialCmpInt, partialCmp, hc, Ordering.swap, this, this.le, this.ne]

/-- **C30**: the loop goes on exactly as long as the modulus is below `√limit + 1`, as real numbers,
where `limit` is the bound on four times the square of any coefficient of a factor; both as the code
computes it and in the shape the model of the loop uses. -/
theorem C30_bound (limit n : ℕ) :
    (∃ m, neededModulus (limit : ℤ) = some m ∧ needsLift limit n = ltInt (n : ℤ) m) ∧
      (needsLift limit n = true ↔ (n : ℝ) < √(limit : ℝ) + 1) := by
  obtain ⟨h1, h2, -, h4, h5⟩ := C30_bound_arithmetic
  obtain ⟨r, hr, hs⟩ := h2 (ExactInexactInt.new (limit : ℤ)) ((limit : ℤ) : ℝ) (h1 limit)
    (by positivity)
  have hs' := h4 r _ 1 hs
  have hlt := (h5 (r.add 1) _ (n : ℤ) hs').2.2.2.2.2.2.2
  have hm : neededModulus (limit : ℤ) = some (r.add 1) := by rw [neededModulus, hr]
  have hn : needsLift limit n = ltInt (n : ℤ) (r.add 1) := by
    have hb : bigIntSqrt (limit : ℤ) = some (Nat.sqrt limit : ℤ) := by
      rw [bigIntSqrt, if_neg (by omega)]; simp
    simp only [ExactInexactInt.new, ExactInexactInt.sqrt, hb] at hr
    by_cases he : Nat.sqrt limit * Nat.sqrt limit = limit
    · rw [if_pos (by exact_mod_cast he)] at hr
      obtain rfl := Option.some.inj hr
      simp only [needsLift, if_pos he]
      rw [Bool.eq_iff_iff, hlt.trans ?_, decide_eq_true_iff]
      have : √((limit : ℤ) : ℝ) = (Nat.sqrt limit : ℝ) := by
        simpa [Stands] using hs
      rw [this]
      push_cast
      exact_mod_cast Iff.rfl
    · rw [if_neg (by exact_mod_cast he)] at hr
      obtain rfl := Option.some.inj hr
      simp only [needsLift, if_neg he]
      rw [Bool.eq_iff_iff, decide_eq_true_iff]
      simp only [ltInt, partialCmpInt, ExactInexactInt.add, partialCmp]
      by_cases hc : (n : ℤ) ≤ (Nat.sqrt limit : ℤ) + 1
      · rw [if_pos hc]; simp [Ordering.swap]; exact_mod_cast hc
      · rw [if_neg hc]; simp [Ordering.swap]; omega
  refine ⟨⟨_, hm, hn⟩, ?_⟩
  rw [hn, hlt]
  push_cast
  exact Iff.rfl

/-- the bound `√768 + 1 ≈ 28.7` of `x² - 1`: the moduli 3 and 9 are lifted, 81 is not; and the
square root of an inexact number. -/
example : needsLift 768 3 = true ∧ needsLift 768 9 = true ∧ needsLift 768 81 = false := by
  have h : (27 : ℝ) < √768 ∧ √(768 : ℝ) < 28 :=
    ⟨Real.lt_sqrt_of_sq_lt (by norm_num), by rw [Real.sqrt_lt' (by norm_num)]; norm_num⟩
  refine ⟨(C30_bound 768 3).2.mpr ?_, (C30_bound 768 9).2.mpr ?_, ?_⟩
  · push_cast; linarith [h.1]
  · push_cast; linarith [h.1]
  · rw [← Bool.not_eq_true, (C30_bound 768 81).2]; push_cast; linarith [h.2]

example : (ExactInexactInt.inexact 8).Stands (17 / 2) ∧ (0 : ℝ) ≤ 17 / 2 := by
  constructor
  · simp only [Stands]; norm_num
  · norm_num

end Algebraics
