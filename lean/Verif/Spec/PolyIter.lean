import Verif.Model.PolyIter
import Verif.Spec.Poly

/-!
# What an iterator over a polynomial has to do

The coefficients of a polynomial, constant term first, as a sequence from which values are taken
at either end.
-/

namespace Algebraics

/-- the coefficients of a mathematical polynomial up to its degree, constant term first; none for
the zero polynomial. -/
noncomputable def coefficientList {R : Type} [CommRing R] (f : Polynomial R) : List R :=
  open Classical in if f = 0 then [] else (List.range (f.natDegree + 1)).map f.coeff

/-- taking values from the two ends of a sequence: for each call the value (`none` when nothing is
left) and the number of values that are left, as exact lower and upper bound. -/
def takeEnds {α : Type} (l : List α) : List IterCall → List (Option α × ℕ × Option ℕ)
  | [] => []
  | .next :: cs => (l.head?, l.tail.length, some l.tail.length) :: takeEnds l.tail cs
  | .nextBack :: cs => (l.getLast?, l.dropLast.length, some l.dropLast.length) ::
      takeEnds l.dropLast cs

end Algebraics
