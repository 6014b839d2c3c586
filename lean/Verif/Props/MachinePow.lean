import Verif.Props.MachinePoly
import Verif.Lemmas.MachinePolyCut

/-!
# C83: exactly when a power of a polynomial over a machine type panics
-/

namespace Algebraics

namespace MachinePoly

open Polynomial

/-- Multiplying `f` by `g` stays within the type: every product of two coefficients fits, and so does every sum of the
first products that make up a coefficient of the result. -/
def ProductFits (w : ℕ) (f g : ℤ[X]) : Prop :=
  (∀ i j, InRange w (f.coeff i * g.coeff j)) ∧
  ∀ n, ∀ k ≤ n, InRange w (∑ i ∈ Finset.range (k + 1), f.coeff i * g.coeff (n - i))

theorem inRange_zero_all (w : ℕ) : InRange w 0 := by
  unfold InRange
  constructor
  · have : (0 : ℤ) < 2 ^ (w - 1) := by positivity
    omega
  · positivity

theorem take_mul_coeff (l r : List ℤ) (k n : ℕ) (h : k ≤ n) :
    (listPoly (l.take (k + 1)) * listPoly r).coeff n =
      ∑ i ∈ Finset.range (k + 1), (listPoly l).coeff i * (listPoly r).coeff (n - i) := by
  rw [Polynomial.coeff_mul, Finset.Nat.sum_antidiagonal_eq_sum_range_succ
    (fun i j => (listPoly (l.take (k + 1))).coeff i * (listPoly r).coeff j)]
  have hsub : Finset.range (k + 1) ⊆ Finset.range (n + 1) := Finset.range_subset_range.2 (by omega)
  rw [← Finset.sum_subset hsub]
  · refine Finset.sum_congr rfl fun i hi => ?_
    have hi := Finset.mem_range.1 hi
    rw [listPoly_coeff, listPoly_coeff l, List.getD_eq_getElem?_getD, List.getD_eq_getElem?_getD, List.getElem?_take,
      if_pos hi]
  · intro i _ hi
    have hi : k + 1 ≤ i := by simpa using hi
    rw [listPoly_coeff (l.take (k + 1)), List.getD_eq_getElem?_getD, List.getElem?_take, if_neg (by omega)]
    simp

/-- the condition of a product does not depend on how the polynomials are stored -/
theorem mul_isSome_iff (w : ℕ) (l r : List ℤ) :
    (mul w .panics l r).isSome ↔ ProductFits w (listPoly l) (listPoly r) := by
  rw [mul_isSome]
  have hl : ∀ i, l.length ≤ i → (listPoly l).coeff i = 0 := fun i hi => by
    rw [listPoly_coeff, List.getD_eq_getElem?_getD, List.getElem?_eq_none hi]; rfl
  have hr : ∀ i, r.length ≤ i → (listPoly r).coeff i = 0 := fun i hi => by
    rw [listPoly_coeff, List.getD_eq_getElem?_getD, List.getElem?_eq_none hi]; rfl
  constructor
  · intro h
    refine ⟨fun i j => ?_, ?_⟩
    · by_cases hi : i < l.length
      · by_cases hj : j < r.length
        · have := (h i hi j hj).1
          rwa [← listPoly_coeff, ← listPoly_coeff] at this
        · rw [hr j (by omega), mul_zero]; exact inRange_zero_all w
      · rw [hl i (by omega), zero_mul]; exact inRange_zero_all w
    · have main : ∀ n, ∀ k ≤ n, k < l.length →
          InRange w (∑ i ∈ Finset.range (k + 1), (listPoly l).coeff i * (listPoly r).coeff (n - i)) := by
        intro n k hk hkl
        by_cases hj : n - k < r.length
        · have := (h k hkl (n - k) hj).2
          rw [show k + (n - k) = n by omega, take_mul_coeff l r k n hk] at this
          exact this
        · rw [Finset.sum_eq_zero fun i hi => ?_]
          · exact inRange_zero_all w
          · have := Finset.mem_range.1 hi
            rw [hr _ (by omega), mul_zero]
      intro n k hk
      by_cases hkl : k < l.length
      · exact main n k hk hkl
      · by_cases h0 : l.length = 0
        · rw [Finset.sum_eq_zero fun i hi => by rw [hl i (by omega), zero_mul]]
          exact inRange_zero_all w
        · have hsub : Finset.range (l.length - 1 + 1) ⊆ Finset.range (k + 1) :=
            Finset.range_subset_range.2 (by omega)
          rw [← Finset.sum_subset hsub]
          · exact main n _ (by omega) (by omega)
          · intro i _ hi
            have hi : l.length - 1 + 1 ≤ i := by simpa using hi
            rw [hl i (by omega), zero_mul]
  · intro h k hk j hj
    refine ⟨?_, ?_⟩
    · have := h.1 k j
      rwa [listPoly_coeff, listPoly_coeff] at this
    · rw [take_mul_coeff l r k (k + j) (by omega)]
      exact h.2 (k + j) k (by omega)

theorem powLoop_isSome_iff (w : ℕ) (fuel : ℕ) : ∀ (base : List ℤ) (e : ℕ) (r : Option (List ℤ)), e < 2 ^ fuel → 0 < e →
    ((Poly.powLoop (mul w .panics) fuel base e r).isSome ↔
      (∀ i, 2 ^ (i + 1) ≤ e → ProductFits w (listPoly base ^ 2 ^ i) (listPoly base ^ 2 ^ i)) ∧
      ∀ i, e.testBit i = true → (r ≠ none ∨ e % 2 ^ i ≠ 0) →
        ProductFits w ((r.elim 1 listPoly) * listPoly base ^ (e % 2 ^ i)) (listPoly base ^ 2 ^ i)) := by
  induction fuel with
  | zero => intro base e r he h0; simp at he; omega
  | succ fuel ih =>
    intro base e r he h0
    have hexact : ∀ a b c : List ℤ, mul w .panics a b = some c → listPoly c = listPoly a * listPoly b :=
      fun a b c h => exact_of_hom (mul_hom (blind_panics w) _ _ _ h)
    -- the step for the lowest bit
    have hstep : (Poly.powStep (mul w .panics) (e % 2 == 1) base r).isSome ↔
        (e.testBit 0 = true → r ≠ none → ProductFits w (r.elim 1 listPoly) (listPoly base)) := by
      unfold Poly.powStep
      rw [Nat.testBit_zero]
      by_cases ho : e % 2 = 1
      · rw [if_pos (by simpa using ho)]
        cases r with
        | none => simp
        | some v => simp [ho, mul_isSome_iff]
      · rw [if_neg (by simpa using ho)]
        simp [ho]
    have hval : ∀ r', Poly.powStep (mul w .panics) (e % 2 == 1) base r = some r' →
        r'.elim 1 listPoly = (r.elim 1 listPoly) * listPoly base ^ (e % 2) ∧
        (r' ≠ none ↔ r ≠ none ∨ e % 2 ≠ 0) := by
      intro r' h'
      unfold Poly.powStep at h'
      by_cases ho : e % 2 = 1
      · rw [if_pos (by simpa using ho)] at h'
        rw [ho]
        cases r with
        | none => simp only [Option.some.injEq] at h'; subst h'; simp
        | some v =>
          simp only [Option.map_eq_some_iff] at h'
          obtain ⟨d, h1, rfl⟩ := h'
          simp [hexact _ _ _ h1]
      · rw [if_neg (by simpa using ho)] at h'
        cases h'
        have : e % 2 = 0 := by omega
        simp [this]
    rw [Poly.powLoop]
    cases hs : Poly.powStep (mul w .panics) (e % 2 == 1) base r with
    | none =>
      rw [hs] at hstep
      simp only [Option.isSome_none, Bool.false_eq_true, false_iff]
      rintro ⟨-, h⟩
      apply hstep.not.1 (by simp)
      intro hb hr
      have := h 0 hb (Or.inl hr)
      simpa [Nat.mod_one] using this
    | some r' =>
      have hfirst := hstep.1 (by rw [hs]; rfl)
      obtain ⟨hv, hn⟩ := hval r' hs
      have hzero : e.testBit 0 = true → (r ≠ none ∨ e % 2 ^ 0 ≠ 0) →
          ProductFits w ((r.elim 1 listPoly) * listPoly base ^ (e % 2 ^ 0)) (listPoly base ^ 2 ^ 0) := by
        intro hb hr
        have hr : r ≠ none := by simpa [Nat.mod_one] using hr
        simpa [Nat.mod_one] using hfirst hb hr
      simp only
      by_cases he2 : e / 2 = 0
      · rw [if_pos he2]
        have he1 : e = 1 := by omega
        subst he1
        simp only [Option.isSome_some, true_iff]
        refine ⟨fun i hi => ?_, fun i hi hr => ?_⟩
        · have : 2 ≤ 2 ^ (i + 1) := by
            rw [pow_succ]; have := Nat.one_le_two_pow (n := i); omega
          omega
        · cases i with
          | zero => exact hzero hi hr
          | succ i => simp [Nat.testBit_succ] at hi
      · rw [if_neg he2]
        have hmodi : ∀ i, e % 2 ^ (i + 1) = e % 2 + 2 * (e / 2 % 2 ^ i) := fun i => by
          rw [pow_succ, mul_comm, Nat.mod_mul]
        cases hsq : mul w .panics base base with
        | none =>
          simp only [Option.isSome_none, Bool.false_eq_true, false_iff]
          rintro ⟨h, -⟩
          have := h 0 (by omega)
          rw [pow_zero, pow_one, ← mul_isSome_iff, hsq] at this
          simp at this
        | some sq =>
          have hsqv := hexact _ _ _ hsq
          have hsqf : ProductFits w (listPoly base) (listPoly base) := by
            rw [← mul_isSome_iff, hsq]; rfl
          have hpow : ∀ k, listPoly sq ^ k = listPoly base ^ (2 * k) := fun k => by
            rw [hsqv, pow_mul, pow_two]
          simp only
          rw [ih sq (e / 2) r' (by rw [pow_succ] at he; omega) (by omega)]
          have hA : (∀ i, 2 ^ (i + 1) ≤ e / 2 → ProductFits w (listPoly sq ^ 2 ^ i) (listPoly sq ^ 2 ^ i)) ↔
              ∀ i, 2 ^ (i + 1) ≤ e → ProductFits w (listPoly base ^ 2 ^ i) (listPoly base ^ 2 ^ i) := by
            constructor
            · intro h i hi
              cases i with
              | zero => simpa using hsqf
              | succ i =>
                have := h i (by rw [pow_succ] at hi; omega)
                rwa [hpow, ← pow_succ'] at this
            · intro h i hi
              have := h (i + 1) (by rw [pow_succ]; omega)
              rwa [hpow, ← pow_succ']
          have hB : (∀ i, (e / 2).testBit i = true → (r' ≠ none ∨ e / 2 % 2 ^ i ≠ 0) →
                ProductFits w ((r'.elim 1 listPoly) * listPoly sq ^ (e / 2 % 2 ^ i)) (listPoly sq ^ 2 ^ i)) ↔
              ∀ i, e.testBit i = true → (r ≠ none ∨ e % 2 ^ i ≠ 0) →
                ProductFits w ((r.elim 1 listPoly) * listPoly base ^ (e % 2 ^ i)) (listPoly base ^ 2 ^ i) := by
            have key : ∀ i, (r'.elim 1 listPoly) * listPoly sq ^ (e / 2 % 2 ^ i) =
                (r.elim 1 listPoly) * listPoly base ^ (e % 2 ^ (i + 1)) := fun i => by
              rw [hv, hpow, hmodi, pow_add, mul_assoc]
            have cond : ∀ i, (r' ≠ none ∨ e / 2 % 2 ^ i ≠ 0) ↔ (r ≠ none ∨ e % 2 ^ (i + 1) ≠ 0) := fun i => by
              rw [hn, hmodi, or_assoc]
              refine or_congr Iff.rfl ?_
              omega
            constructor
            · intro h i hi hr
              cases i with
              | zero => exact hzero hi hr
              | succ i =>
                rw [Nat.testBit_succ] at hi
                have := h i hi ((cond i).2 hr)
                rwa [key, hpow, ← pow_succ'] at this
            · intro h i hi hr
              have := h (i + 1) (by rw [Nat.testBit_succ]; exact hi) ((cond i).1 hr)
              rwa [key, hpow, ← pow_succ']
          rw [hA, hB]

/-- C83: exactly when a power panics with overflow checks on: when squaring one of the powers `p ^ (2 ^ i)` that are
needed does not stay within the type, or multiplying the result for the lower bits of the exponent by `p ^ (2 ^ i)`. -/
theorem C83_pow_panics_iff (w : ℕ) (p : List ℤ) (e : ℕ) (he : 0 < e) :
    checkedPow w .panics p e = none ↔
      (∃ i, 2 ^ (i + 1) ≤ e ∧ ¬ ProductFits w (listPoly p ^ 2 ^ i) (listPoly p ^ 2 ^ i)) ∨
      ∃ i, e.testBit i = true ∧ e % 2 ^ i ≠ 0 ∧ ¬ ProductFits w (listPoly p ^ (e % 2 ^ i)) (listPoly p ^ 2 ^ i) := by
  have h := powLoop_isSome_iff w (e + 1) p e none (lt_trans (Nat.lt_succ_self _) Nat.lt_two_pow_self) he
  have hc : checkedPow w .panics p e = none ↔ ¬ (Poly.powLoop (mul w .panics) (e + 1) p e none).isSome := by
    unfold checkedPow
    rw [if_neg (by omega), if_neg (by omega)]
    split_ifs with h1
    · have : e = 1 := by exact_mod_cast h1
      subst this
      rw [h]
      simp only [false_iff, not_not]
      refine ⟨fun i hi => ?_, fun i hi hr => ?_⟩
      · have : 2 ≤ 2 ^ (i + 1) := by
          rw [pow_succ]; have := Nat.one_le_two_pow (n := i); omega
        omega
      · cases i with
        | zero => simp at hr
        | succ i => simp [Nat.testBit_succ] at hi
    · rw [Int.toNat_natCast]
      cases Poly.powLoop (mul w .panics) (e + 1) p e none <;> simp
  rw [hc, h, not_and_or]
  push Not
  simp

/-- `(100 + x)^2` panics with 8 bits, in the first squaring. -/
example : checkedPow 8 .panics [100, 1] (2 : ℕ) = none := by
  rw [C83_pow_panics_iff 8 _ 2 (by omega)]
  refine Or.inl ⟨0, by norm_num, fun h => ?_⟩
  have := h.1 0 0
  simp [InRange] at this

end MachinePoly

end Algebraics
