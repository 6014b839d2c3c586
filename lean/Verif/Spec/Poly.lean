import Verif.Model.Poly
import Mathlib.Algebra.Polynomial.Basic
import Mathlib.Algebra.Polynomial.Coeff

/-!
# Specification vocabulary for polynomials

The mathematical polynomial denoted by a coefficient vector, in Mathlib's `T[X]`.
-/

namespace Algebraics

open Polynomial

/-- `c₀ + c₁ X + c₂ X² + …` for the coefficient vector `[c₀, c₁, c₂, …]`. -/
noncomputable def listPoly {R : Type} [CommRing R] : List R → R[X]
  | [] => 0
  | c :: cs => C c + X * listPoly cs

/-- the polynomial denoted by a `Polynomial<T>`: its coefficients are those the code reports. -/
noncomputable def Poly.toPoly {T : Type} [CommRing T] [PolyCoeff T] (p : Poly T) : T[X] :=
  listPoly p.coeffs

end Algebraics
