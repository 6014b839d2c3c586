import Verif.Model.Poly

/-!
# Multiplying a polynomial in place by a machine integer, as a coefficient of another polynomial
-/

namespace Algebraics

open PolyCoeff

/-- `src/polynomial.rs:766-770` `mul_assign_element_by_usize` of a polynomial that is itself a
coefficient: every element is multiplied in place, with the multiplication `mulElem` of its own type, and
the result is *not* normalized; hence the result is only raw data. -/
def Poly.nestedMulByUsize {T : Type} [CommRing T] [PolyCoeff T] (mulElem : Elem T → ℕ → Elem T)
    (p : Poly T) (n : ℕ) : RawPoly T :=
  ⟨p.raw.elements.map (mulElem · n), p.raw.divisor⟩

end Algebraics
