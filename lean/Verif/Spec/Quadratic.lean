import Mathlib.Data.Real.Sqrt
import Verif.Model.Quadratic

/-!
# What a quadratic number stands for

Specification side only, after the documentation of `RealQuadraticNumber`
(`/repo/src/quadratic_numbers.rs:87-97`).
-/

namespace Algebraics

namespace Quad

/-- the number that `a x^2 + b x + c` stands for: `-c / b` when `a = 0`, and otherwise
`(-b + sqrt(b^2 - 4 a c)) / (2 a)`. -/
noncomputable def value (x : Quad) : ℝ :=
  if x.quadraticTerm = 0 then -(x.constantTerm : ℝ) / (x.linearTerm : ℝ)
  else (-(x.linearTerm : ℝ) + √((x.linearTerm : ℝ) ^ 2 - 4 * x.quadraticTerm * x.constantTerm)) /
    (2 * x.quadraticTerm)

/-- the polynomial stands for a real number. -/
def HasValue (x : Quad) : Prop :=
  (x.quadraticTerm = 0 → x.linearTerm ≠ 0) ∧
    0 ≤ x.linearTerm ^ 2 - 4 * x.quadraticTerm * x.constantTerm

/-- the lowest terms in which the library keeps its numbers: a rational number as a fraction in lowest
terms with a positive denominator, an irrational one as a polynomial without a common factor. -/
def Canonical (x : Quad) : Prop :=
  (x.quadraticTerm = 0 ∧ 0 < x.linearTerm ∧ Int.gcd x.constantTerm x.linearTerm = 1) ∨
    (x.quadraticTerm ≠ 0 ∧ 0 ≤ x.linearTerm ^ 2 - 4 * x.quadraticTerm * x.constantTerm ∧
      ¬ IsSquare (x.linearTerm ^ 2 - 4 * x.quadraticTerm * x.constantTerm) ∧
      Int.gcd (Int.gcd x.constantTerm x.linearTerm) x.quadraticTerm = 1)

end Quad

end Algebraics
