import Verif.Lemmas.Yun

/-!
# Properties of square-free factorization (C24)
-/

namespace Algebraics

open Polynomial

/-- C19 for rational coefficients: the content of a nonzero polynomial is nonzero, has the sign of the
leading coefficient, is a greatest common divisor of the coefficients in the sense of integer multiples,
and the primitive part is an integer polynomial without common divisor and with positive leading
coefficient; their product is the polynomial. -/
theorem C19_rational_content (p : Poly ℚ) (hp : p.toPoly ≠ 0) :
    ∃ c r, p.nonzeroContent Poly.ratGcd = some c ∧ p.content Poly.ratGcd = c ∧
      p.primitivePart Poly.ratGcd = some r ∧ c ≠ 0 ∧ (0 < c ↔ 0 < p.toPoly.leadingCoeff) ∧
      (∀ d, IntMultiple d c ↔ ∀ i, IntMultiple d (p.toPoly.coeff i)) ∧
      p.toPoly = C c * r.toPoly ∧
      ∃ z : ℤ[X], z.IsPrimitive ∧ 0 < z.leadingCoeff ∧ r.toPoly = z.map (Int.castRingHom ℚ) := by
  obtain ⟨c, h1, h2, h3, h4⟩ := Poly.rat_content p hp
  obtain ⟨c', r, h1', -, -, h5, h6, h7⟩ := Poly.rat_primitive p hp
  rw [h1] at h1'
  obtain rfl := Option.some.inj h1'
  refine ⟨c, r, h1, by rw [Poly.content, h1]; rfl, by rw [Poly.primitivePart, h1]; exact h5, h2, h3, h4,
    h7, h6⟩

example : (Poly.ofCoeffs [1 / 2, 0, -3 / 4] : Poly ℚ).content Poly.ratGcd = -1 / 4 ∧
    (Poly.ofCoeffs [1 / 2, 0, -3 / 4] : Poly ℚ).primitivePart Poly.ratGcd =
      some (Poly.ofCoeffs [-2, 0, 3]) := by decide +kernel

/-! ## C24 -/

/-- C24: for every nonconstant rational polynomial Yun's algorithm terminates without a panic; the
factors are square-free and pairwise coprime, each is an integer polynomial without common coefficient
divisor and with positive leading coefficient, the last one is not constant, and
`p = c · f₁ · f₂² · f₃³ ⋯` exactly, with `c` of the sign of the leading coefficient. -/
theorem C24_yun (p : Poly ℚ) (hp : p.toPoly.natDegree ≠ 0) :
    ∃ c l, p.yun Poly.ratGcd = some (c, l) ∧ c ≠ 0 ∧ (0 < c ↔ 0 < p.toPoly.leadingCoeff) ∧
      (∀ f ∈ l, Squarefree f.toPoly ∧
        ∃ z : ℤ[X], z.IsPrimitive ∧ 0 < z.leadingCoeff ∧ f.toPoly = z.map (Int.castRingHom ℚ)) ∧
      (∀ (i j : ℕ) (hi : i < l.length) (hj : j < l.length), i ≠ j →
        IsCoprime l[i].toPoly l[j].toPoly) ∧
      p.toPoly = C c * ∏ i : Fin l.length, l[i].toPoly ^ (i.val + 1) ∧
      ∃ h : l ≠ [], (l.getLast h).toPoly.natDegree ≠ 0 := by
  obtain ⟨c, l, h1, h2, h3, h4, h5, h6, h7, -⟩ := Poly.yun_spec p hp
  refine ⟨c, l, h1, h2, h3, ?_, h5, h6, h7⟩
  intro f hf
  obtain ⟨i, hi, rfl⟩ := List.getElem_of_mem hf
  exact ⟨(h4 i hi).2, (h4 i hi).1⟩

/-- C24: constants are returned as the constant factor with no polynomial factors. -/
theorem C24_yun_constant (p : Poly ℚ) (hp : p.toPoly.natDegree = 0) :
    p.yun Poly.ratGcd = some (p.toPoly.coeff 0, []) := by
  unfold Poly.yun
  have h : p.degree.getD 0 = 0 := by
    rw [Poly.degree_eq]
    by_cases h0 : p.toPoly = 0
    · rw [if_pos h0]; rfl
    · rw [if_neg h0]; exact hp
  rw [if_pos h, Poly.nonzeroHighest_eq]
  by_cases h0 : p.toPoly = 0
  · rw [if_pos h0, h0]; simp
  · rw [if_neg h0, leadingCoeff, hp]; rfl

/-- C24: the `i`-th factor (counted from zero) collects exactly the irreducible polynomials that divide
`p` with multiplicity `i+1`. -/
theorem C24_yun_multiplicity (p : Poly ℚ) (hp : p.toPoly.natDegree ≠ 0) :
    ∃ c l, p.yun Poly.ratGcd = some (c, l) ∧
      ∀ (i : ℕ) (hi : i < l.length) (π : ℚ[X]), Irreducible π →
        (π ∣ l[i].toPoly ↔ π ^ (i + 1) ∣ p.toPoly ∧ ¬ π ^ (i + 2) ∣ p.toPoly) := by
  obtain ⟨c, l, h1, -, -, -, -, -, -, h8⟩ := Poly.yun_spec p hp
  exact ⟨c, l, h1, h8⟩

/-- C24: `is_square_free` never panics and decides square-freeness of nonzero rational polynomials. -/
theorem C24_is_square_free (p : Poly ℚ) (hp : p.toPoly ≠ 0) :
    ∃ b, p.isSquareFree = some b ∧ (b = true ↔ Squarefree p.toPoly) :=
  Poly.isSquareFree_spec p hp

/-- C24: the same over the integers modulo a prime, the way factorization uses it. -/
theorem C24_is_square_free_mod (q : ℕ) [Fact q.Prime] (p : Poly (ZMod q)) (hp : p.toPoly ≠ 0) :
    ∃ b, p.isSquareFree = some b ∧ (b = true ↔ Squarefree p.toPoly) :=
  Poly.isSquareFree_spec p hp

/-- C24: the zero polynomial is reported square-free, although every square divides it. -/
theorem C24_is_square_free_zero : (Poly.ofCoeffs [] : Poly ℚ).isSquareFree = some true := by
  decide +kernel

/-- `-2 (x+1) (x^2-2)^2 = -2x^5 - 2x^4 + 8x^3 + 8x^2 - 8x - 8`, halved -/
example : (Poly.ofCoeffs [-4, -4, 4, 4, -1, -1] : Poly ℚ).yun Poly.ratGcd =
    some (-1, [Poly.ofCoeffs [1, 1], Poly.ofCoeffs [-2, 0, 1]]) := by decide +kernel

example : (Poly.ofCoeffs [0, 0, 0, 1 / 2] : Poly ℚ).yun Poly.ratGcd =
    some (1 / 2, [Poly.ofCoeffs [1], Poly.ofCoeffs [1], Poly.ofCoeffs [0, 1]]) := by decide +kernel

example : (Poly.ofCoeffs [1, 2, 1] : Poly ℚ).isSquareFree = some false ∧
    (Poly.ofCoeffs [-2, 0, 1] : Poly ℚ).isSquareFree = some true := by decide +kernel

end Algebraics
