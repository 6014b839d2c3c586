import Verif.Model.MachinePoly
import Verif.Spec.Poly

/-!
# What polynomials over machine integers should be
-/

namespace Algebraics

open Polynomial

namespace MachinePoly

/-- the values of the signed integer type with `w` bits -/
def InRange (w : ℕ) (z : ℤ) : Prop := -2 ^ (w - 1) ≤ z ∧ z < 2 ^ (w - 1)

/-- a value of the type `Polynomial<iw>`: every coefficient is one of the `w`-bit integers, and the highest one is
not zero -/
def Valid (w : ℕ) (p : List ℤ) : Prop :=
  (∀ c ∈ p, InRange w c) ∧ p.getLast? ≠ some 0

/-- `c` is the polynomial `q` with every coefficient cut to `w` bits, two's complement -/
def CutFrom (w : ℕ) (c : List ℤ) (q : ℤ[X]) : Prop :=
  Valid w c ∧ ∀ n, (listPoly c).coeff n = (q.coeff n).bmod (2 ^ w)

end MachinePoly

end Algebraics
