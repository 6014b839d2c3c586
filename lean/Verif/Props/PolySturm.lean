import Verif.Lemmas.PolySturm

/-!
# Properties of Sturm sequences (C25)

`signChanges` (`Verif.Spec.Sturm`) is the number of sign changes of a list of numbers, zeros skipped.
-/

namespace Algebraics

open Polynomial

/-! ## C25 -/

/-- C25: for every nonzero integer polynomial the primitive Sturm sequence exists (no panic), starts
with the polynomial, and the difference of its sign change counts at `a` and `b` is the exact number of
distinct real roots in `(a, b]`, whenever neither end point is a multiple root. -/
theorem C25_primitive_sturm (p : Poly ℤ) (hp : p.toPoly ≠ 0) :
    ∃ l, p.primitiveSturmSequence Poly.intGcd = some l ∧ l.head? = some p ∧
      ∀ a b : ℝ, a ≤ b →
        (aeval a p.toPoly ≠ 0 ∨ aeval a (derivative p.toPoly) ≠ 0) →
        (aeval b p.toPoly ≠ 0 ∨ aeval b (derivative p.toPoly) ≠ 0) →
        signChanges (l.map fun s => aeval a s.toPoly) =
          signChanges (l.map fun s => aeval b s.toPoly) +
            {x : ℝ | a < x ∧ x ≤ b ∧ aeval x p.toPoly = 0}.ncard :=
  Poly.genericSturm_spec (Int.castRingHom ℝ) Int.cast_injective _ _ Poly.primitiveRemainder_ok
    Poly.primitiveDerivative_ok p hp

/-- C25: the same for the plain sequence over the rationals. -/
theorem C25_rational_sturm (p : Poly ℚ) (hp : p.toPoly ≠ 0) :
    ∃ l, p.sturmSequence = some l ∧ l.head? = some p ∧
      ∀ a b : ℝ, a ≤ b →
        (aeval a p.toPoly ≠ 0 ∨ aeval a (derivative p.toPoly) ≠ 0) →
        (aeval b p.toPoly ≠ 0 ∨ aeval b (derivative p.toPoly) ≠ 0) →
        signChanges (l.map fun s => aeval a s.toPoly) =
          signChanges (l.map fun s => aeval b s.toPoly) +
            {x : ℝ | a < x ∧ x ≤ b ∧ aeval x p.toPoly = 0}.ncard :=
  Poly.genericSturm_spec (algebraMap ℚ ℝ) (algebraMap ℚ ℝ).injective _ _ Poly.rem_ok_rat
    (fun v => ⟨_, rfl, 1, one_pos, by rw [Poly.toPoly_derivative, derivative_map]; simp⟩) p hp

/-- C25, as stated in the property list: for a square-free integer polynomial (no root is a root of the
derivative) and rational points `a < b` that are not roots, the difference of the sign change counts,
computed with exact rational arithmetic, is the number of distinct real roots in the open interval. -/
theorem C25_open_interval (p : Poly ℤ) (hp : p.toPoly ≠ 0) (a b : ℚ) (hab : a < b)
    (ha : aeval a p.toPoly ≠ 0) (hb : aeval b p.toPoly ≠ 0) :
    ∃ l, p.primitiveSturmSequence Poly.intGcd = some l ∧
      signChanges (l.map fun s => aeval a s.toPoly) =
        signChanges (l.map fun s => aeval b s.toPoly) +
          {x : ℝ | (a : ℝ) < x ∧ x < b ∧ aeval x p.toPoly = 0}.ncard := by
  obtain ⟨l, h1, -, h2⟩ := C25_primitive_sturm p hp
  have hev : ∀ (x : ℚ) (q : ℤ[X]), (aeval (x : ℝ) q) = ((aeval x q : ℚ) : ℝ) := by
    intro x q
    exact aeval_algebraMap_apply ℝ x q
  have hsc : ∀ x : ℚ, signChanges (l.map fun s => aeval (x:ℝ) s.toPoly) =
      signChanges (l.map fun s => aeval x s.toPoly) := by
    intro x
    rw [← Sturm.signChanges_cast (l.map fun s => aeval x s.toPoly), List.map_map]
    congr 1
    apply List.map_congr_left
    intro s _
    exact hev x _
  have h3 := h2 a b (by exact_mod_cast hab.le) (Or.inl (by rw [hev]; exact_mod_cast ha))
    (Or.inl (by rw [hev]; exact_mod_cast hb))
  rw [hsc, hsc] at h3
  refine ⟨l, h1, h3.trans ?_⟩
  congr 2
  ext x
  simp only [Set.mem_ofPred_eq]
  constructor
  · rintro ⟨h4, h5, h6⟩
    refine ⟨h4, lt_of_le_of_ne h5 ?_, h6⟩
    rintro rfl
    rw [hev] at h6
    exact hb (by exact_mod_cast h6)
  · rintro ⟨h4, h5, h6⟩
    exact ⟨h4, h5.le, h6⟩

/-- C25: the zero polynomial yields the empty sequence. -/
theorem C25_zero (p : Poly ℤ) (hp : p.toPoly = 0) :
    p.primitiveSturmSequence Poly.intGcd = some [] := by
  unfold Poly.primitiveSturmSequence Poly.genericSturm
  rw [(Poly.len_eq_zero_iff p).mpr hp]

/-- `x^3 - 2x`: three roots; the sequence and the counts at `-2`, `1` and `2`. -/
example : (Poly.ofCoeffs [0, -2, 0, 1] : Poly ℤ).primitiveSturmSequence Poly.intGcd =
      some [Poly.ofCoeffs [0, -2, 0, 1], Poly.ofCoeffs [-2, 0, 3], Poly.ofCoeffs [0, 1],
        Poly.ofCoeffs [1]] ∧
    signChanges ([4, 10, -2, 1] : List ℤ) = 2 := by
  constructor <;> decide +kernel

example : signChanges ([-4, 10, -2, 1] : List ℤ) = 3 ∧ signChanges ([-1, 1, 1, 1] : List ℤ) = 1 ∧
    signChanges ([4, 10, 2, 1] : List ℤ) = 0 := by decide +kernel

/-- a polynomial with a double root: the sequence ends with a zero polynomial -/
example : (Poly.ofCoeffs [1, -2, 1] : Poly ℤ).primitiveSturmSequence Poly.intGcd =
      some [Poly.ofCoeffs [1, -2, 1], Poly.ofCoeffs [-1, 1], Poly.ofCoeffs []] := by decide +kernel

example : (Poly.ofCoeffs [0, -2, 0, 1] : Poly ℚ).sturmSequence =
      some [Poly.ofCoeffs [0, -2, 0, 1], Poly.ofCoeffs [-2, 0, 3], Poly.ofCoeffs [0, 4 / 3],
        Poly.ofCoeffs [2]] := by decide +kernel

end Algebraics
