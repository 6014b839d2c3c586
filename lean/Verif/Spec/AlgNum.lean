import Verif.Model.AlgNum
import Verif.Spec.Interval
import Verif.Spec.Poly
import Verif.Spec.Factor
import Mathlib.Algebra.Polynomial.AlgebraMap
import Mathlib.Analysis.SpecialFunctions.Pow.Real

/-!
# What a `RealAlgebraicNumber` stands for

Specification side only: which pairs of a polynomial and an interval stand for which real number. This
is the contract of `RealAlgebraicNumber::new_unchecked`: an irreducible polynomial over the integers
and an interval that isolates one of its real roots.
-/

namespace Algebraics

open Polynomial

/-- `a` stands for the real number `x`: the polynomial is irreducible over the integers, `x` is a root
of it, `x` lies in the interval, and no other root does. The code reads numerator and denominator of a
rational number off a polynomial of degree one, so there the leading coefficient must be positive (a
denominator); for higher degrees the sign is left free. -/
structure RealAlg.Represents (a : RealAlg) (x : ℝ) : Prop where
  irreducible : Irreducible a.poly.toPoly
  positive : a.poly.toPoly.natDegree = 1 → 0 < a.poly.toPoly.leadingCoeff
  root : aeval x a.poly.toPoly = 0
  mem : a.interval.Contains x
  isolated : ∀ y : ℝ, a.interval.Contains y → aeval y a.poly.toPoly = 0 → y = x

/-- width of an interval, as a rational number. -/
def DFI.width (a : DFI) : ℚ := ((a.hi : ℚ) - a.lo) / 2 ^ a.log2Denom

/-- the closed interval `b` lies inside `a`. -/
def DFI.Within (b a : DFI) : Prop := ∀ x : ℝ, b.Contains x → a.Contains x

/-- `shrink` called `n` times in a row (`none` = one of the calls panics). -/
def Shrinker.shrinkTimes : ℕ → Shrinker → Option Shrinker
  | 0, s => some s
  | n + 1, s => (Shrinker.shrinkTimes n s).bind fun t => t.shrink.map (·.1)

/-- `r` is the factorization of `f`: the constant and the powers of the factors multiply to `f`, every
factor is irreducible over the integers with positive leading coefficient, all powers are positive, and
no two factors have a
common divisor over the rational numbers. -/
structure FactorsOf (r : Poly.Factors) (f : ℤ[X]) : Prop where
  product : C r.constant * Poly.powerProduct r.factors = f
  irreducible : ∀ e ∈ r.factors, Irreducible e.1.toPoly
  positive : ∀ e ∈ r.factors, 0 < e.1.toPoly.leadingCoeff
  powers : ∀ e ∈ r.factors, 0 < e.2
  coprime : r.factors.Pairwise fun e e' =>
    IsCoprime (e.1.toPoly.map (Int.castRingHom ℚ)) (e'.1.toPoly.map (Int.castRingHom ℚ))

/-- the call of `factor` on `R` ends without panic and returns the factorization of `R`. -/
def RealAlg.FactorsRight (F : RealAlg.FactorCall) (R : Poly ℤ) : Prop :=
  ∃ r, F R = .ok r ∧ FactorsOf r R.toPoly

/-- `c` is one particular kind of wrong answer to `op x y`, where `a` and `b` stand for `x` and `y`: a
rational number other than `op x y` that lies in the interval `i`, and that comes out of the operation
when `x` and `y` are replaced by other roots of their polynomials. -/
def RealAlg.WrongConjugate (op : ℂ → ℂ → ℂ) (a b : RealAlg) (i : DFI) (v : ℝ) (c : RealAlg) : Prop :=
  ∃ q : ℚ, c = RealAlg.ofRat q ∧ (q : ℝ) ≠ v ∧ i.Contains q ∧
    ∃ x' y' : ℂ, aeval x' a.poly.toPoly = 0 ∧ aeval y' b.poly.toPoly = 0 ∧ (q : ℂ) = op x' y'

/-- the integer part of `x`, rounding towards zero. -/
noncomputable def truncate (x : ℝ) : ℤ := if 0 ≤ x then ⌊x⌋ else ⌈x⌉

/-- `x` to the power `e`: for an integer exponent the product of copies of `x`, or its reciprocal;
otherwise the power function of the positive reals. -/
noncomputable def powValue (x : ℝ) (e : ℚ) : ℝ := if e.den = 1 then x ^ e.num else x ^ (e : ℝ)

/-- the number whose polynomial and interval `checked_pow` works with: the base, or its reciprocal for a
negative exponent (`src/algebraic_numbers.rs:731-735`). -/
def RealAlg.powBase (fuel : ℕ) (a : RealAlg) (e : ℚ) : Except Stop RealAlg :=
  if e < 0 then a.recip fuel else .ok a

end Algebraics
