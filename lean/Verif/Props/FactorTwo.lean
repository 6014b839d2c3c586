import Verif.Lemmas.FactorTwo
import Verif.Props.FactorIrr

/-!
Property C27, what holds with no condition on the leading coefficient: a factor returned is irreducible or a
product of just two irreducible polynomials, and among the factors of one power at most one is reducible.
-/

namespace Algebraics

open Polynomial

/-- C27, in part: for every input, every stream of random numbers and every order of the heap, every factor
returned is irreducible over the integers or the product of exactly two irreducible polynomials, one of degree
at least 2 and the other not constant; and of any two factors returned with the same power at least one is
irreducible.  Missing: that the remaining one is irreducible too, which is false, see
`C27_irreducible_false`. -/
theorem C27_at_most_two_partial (choose : ℕ → List ℕ → ℕ) (hc : Poly.HeapOrder choose) (rng : ℕ → ℕ)
    (fuel pos : ℕ) (f : Poly ℤ)
    (r : Poly.Factors) (pos' : ℕ) (h : f.factor choose rng fuel pos = .ok (r, pos')) :
    (∀ e ∈ r.factors, Irreducible e.1.toPoly ∨ ∃ g h, Irreducible g ∧ Irreducible h ∧
      e.1.toPoly = g * h ∧ 2 ≤ g.natDegree ∧ 1 ≤ h.natDegree) ∧
    r.factors.Pairwise fun a b => a.2 = b.2 → Irreducible a.1.toPoly ∨ Irreducible b.1.toPoly :=
  Poly.factor_two choose hc rng fuel pos f r pos' h

/-- C27, in part: a factor returned of degree at most 2 is irreducible.  Missing: larger degrees; the witness of
`C27_irreducible_false` has degree 9. -/
theorem C27_low_degree_partial (choose : ℕ → List ℕ → ℕ) (hc : Poly.HeapOrder choose) (rng : ℕ → ℕ)
    (fuel pos : ℕ) (f : Poly ℤ)
    (r : Poly.Factors) (pos' : ℕ) (h : f.factor choose rng fuel pos = .ok (r, pos')) :
    ∀ e ∈ r.factors, e.1.toPoly.natDegree ≤ 2 → Irreducible e.1.toPoly := by
  intro e he hd
  rcases (C27_at_most_two_partial choose hc rng fuel pos f r pos' h).1 e he with h1 | ⟨g, k, h1, h2, h3, h4, h5⟩
  · exact h1
  · rw [h3, natDegree_mul h1.ne_zero h2.ne_zero] at hd
    omega

/-- C27, in part: every factor returned is irreducible when the leading coefficient of the input is, up to the
sign, 6.  Missing: the other leading coefficients from 5 on. -/
theorem C27_leading_six_partial (choose : ℕ → List ℕ → ℕ) (hc : Poly.HeapOrder choose) (rng : ℕ → ℕ)
    (fuel pos : ℕ) (f : Poly ℤ) (hl : |f.toPoly.leadingCoeff| = 6)
    (r : Poly.Factors) (pos' : ℕ) (h : f.factor choose rng fuel pos = .ok (r, pos')) :
    ∀ e ∈ r.factors, Irreducible e.1.toPoly := by
  refine C27_irreducible_partial choose hc rng fuel pos f ?_ r pos' h
  intro z z1 z2 z3 p hp
  obtain ⟨k, hk⟩ := z3
  have h5 : z.toPoly.leadingCoeff ∣ 6 := by
    rw [← hl, dvd_abs, hk, leadingCoeff_mul]; exact Dvd.intro _ rfl
  have h6 := Int.le_of_dvd (by norm_num) h5
  obtain ⟨p1, p2, -, p4, -⟩ := hp
  have hp2 := p1.two_le
  generalize z.toPoly.leadingCoeff = c at z2 h5 h6 p4
  by_cases hcp : c < p
  · rw [Int.emod_eq_of_lt z2.le hcp]
  · have hp6 : (p : ℤ) ≤ 6 := by omega
    have hp6' : p ≤ 6 := by exact_mod_cast hp6
    interval_cases p
    · exact absurd rfl p2
    · interval_cases c <;> revert p4 h5 <;> decide
    · exact absurd p1 (by norm_num)
    · interval_cases c <;> revert p4 h5 hcp <;> decide
    · exact absurd p1 (by norm_num)

/-! The witness of `C27_irreducible_false` is a run in which the second case occurs: one factor is returned, and it
is the product of exactly two irreducible ones. -/

example (rng : ℕ → ℕ) : ∃ g h : ℤ[X], Irreducible g ∧ Irreducible h ∧ missed.toPoly = g * h := by
  obtain ⟨h1, -, h3⟩ := C27_irreducible_false
  obtain ⟨h4, -⟩ := C27_at_most_two_partial firstSmallest firstSmallest_order rng 0 0 missed _ _
    (h1 firstSmallest firstSmallest_order rng 0 0)
  rcases h4 (missed, 1) (by simp) with h | ⟨g, h, q1, q2, q3, -⟩
  · exact absurd h h3
  · exact ⟨g, h, q1, q2, q3⟩

/-! A run in which there are several factors of one power. -/

example (rng : ℕ → ℕ) : Irreducible (Poly.ofCoeffs [1, 2] : Poly ℤ).toPoly ∨
    Irreducible (Poly.ofCoeffs [1, 0, 1] : Poly ℤ).toPoly := by
  have h := (C27_at_most_two_partial firstSmallest firstSmallest_order rng 0 0 splits _ _
    (Splits.factor_eq firstSmallest firstSmallest_order rng 0 0)).2
  simp only [List.pairwise_cons] at h
  exact h.1 (Poly.ofCoeffs [1, 0, 1], 1) (by simp) rfl

example (rng : ℕ → ℕ) : Irreducible (Poly.ofCoeffs [1, 0, 1] : Poly ℤ).toPoly :=
  C27_low_degree_partial firstSmallest firstSmallest_order rng 0 0 splits _ _
    (Splits.factor_eq firstSmallest firstSmallest_order rng 0 0) (Poly.ofCoeffs [1, 0, 1], 1) (by decide +kernel)
    (by rw [Poly.toPoly_ofCoeffs]; simp; compute_degree)

/-! An input with leading coefficient 6: `6 x + 1`. -/

theorem six_run (choose : ℕ → List ℕ → ℕ) (rng : ℕ → ℕ) (fuel pos : ℕ) :
    (Poly.ofCoeffs [1, 6] : Poly ℤ).factor choose rng fuel pos = .ok (⟨1, [(Poly.ofCoeffs [1, 6], 1)]⟩, pos) := by
  unfold Poly.factor
  simp only
  rw [show (Poly.ofCoeffs [1, 6] : Poly ℤ).coeffs.mapM (fun v => checkedExactDivInt v
    ((Poly.ofCoeffs [1, 6] : Poly ℤ).content Poly.intGcd)) = some [1, 6] by decide +kernel]
  simp only
  have hr : (Poly.ofCoeffs ([1, 6].map fun v : ℤ => (v : ℚ)) : Poly ℚ) = .ofCoeffs [1, 6] := by
    decide +kernel
  rw [hr, show (Poly.ofCoeffs [1, 6] : Poly ℚ).yun Poly.ratGcd = some (1, [.ofCoeffs [1, 6]]) by decide +kernel]
  simp only
  rw [Poly.factorLoop, show Poly.ofCoeffs (Poly.ratElements (.ofCoeffs [1, 6])) = .ofCoeffs [1, 6] by decide +kernel,
    Poly.factorSquareFree, if_pos (by decide +kernel)]
  rfl

example (rng : ℕ → ℕ) : Irreducible (Poly.ofCoeffs [1, 6] : Poly ℤ).toPoly :=
  C27_leading_six_partial firstSmallest firstSmallest_order rng 0 0 _
    (by rw [← Poly.highest_eq]; decide +kernel) _ _ (six_run firstSmallest rng 0 0) (Poly.ofCoeffs [1, 6], 1)
    (by decide +kernel)

end Algebraics
