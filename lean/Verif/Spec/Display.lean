import Verif.Model.Display
import Verif.Spec.Poly
import Mathlib.Algebra.Polynomial.Basic

/-!
# What a printed polynomial means

The text of a polynomial is read as a sum: a constant, then products of a coefficient, the variable
and possibly an exponent.
-/

namespace Algebraics

open Polynomial

/-- a product in a printed sum: the coefficient, and the exponent if one is written. -/
structure PrintedTerm (T : Type) where
  coefficient : T
  exponent : Option ℕ

namespace PrintedTerm

variable {T : Type} [CommRing T] [Printable T]

/-- how the product is written: ` + c*X`, ` + c*X^k`, the coefficient in parentheses when it is a
polynomial itself. -/
def written (t : PrintedTerm T) : Text :=
  " + ".toList ++
    (if Printable.nestingDepth T = 0 then Printable.text t.coefficient
      else "(".toList ++ Printable.text t.coefficient ++ ")".toList) ++
    "*".toList ++ variableName (Printable.nestingDepth T) ++
    (match t.exponent with
      | none => []
      | some k => "^".toList ++ decimal k)

/-- what the product stands for: a missing exponent is 1. -/
noncomputable def value (t : PrintedTerm T) : T[X] := C t.coefficient * X ^ t.exponent.getD 1

end PrintedTerm

/-- the text, read as a sum, stands for the polynomial `f`.  The constant zero may also be written as
a bare `0`. -/
def Denotes {T : Type} [CommRing T] [Printable T] (s : Text) (f : T[X]) : Prop :=
  ∃ (c : T) (ts : List (PrintedTerm T)) (first : Text),
    (first = Printable.text c ∨ c = 0 ∧ first = "0".toList) ∧
    s = first ++ (ts.map PrintedTerm.written).flatten ∧
    f = C c + (ts.map PrintedTerm.value).sum

/-- a coefficient type of the crate with everything the polynomial code uses. -/
structure CoeffType where
  carrier : Type
  ring : CommRing carrier
  dec : DecidableEq carrier
  coeff : PolyCoeff carrier
  printable : Printable carrier

attribute [instance] CoeffType.ring CoeffType.dec CoeffType.coeff
  CoeffType.printable

/-- `BigInt` -/
def CoeffType.int : CoeffType := ⟨ℤ, inferInstance, inferInstance, inferInstance, inferInstance⟩

/-- `Ratio<BigInt>` -/
def CoeffType.rat : CoeffType := ⟨ℚ, inferInstance, inferInstance, inferInstance, inferInstance⟩

/-- `ModularInteger` with modulus `m` -/
def CoeffType.modInt (m : ℕ) : CoeffType :=
  ⟨ZMod m, inferInstance, inferInstance, inferInstance, inferInstance⟩

/-- polynomials with coefficients in `A`, as a coefficient type -/
def CoeffType.poly (A : CoeffType) : CoeffType :=
  ⟨Poly A.carrier, inferInstance, inferInstance, inferInstance, inferInstance⟩

/-- `A`, or polynomials over `A`, or polynomials over these, and so on. -/
def CoeffType.nested (A : CoeffType) : ℕ → CoeffType
  | 0 => A
  | k + 1 => (A.nested k).poly

/-- the coefficient types of the crate whose texts are modelled: integers, fractions, and integers
modulo a positive number. -/
def BaseCoefficients (A : CoeffType) : Prop :=
  A = CoeffType.int ∨ A = CoeffType.rat ∨ ∃ m, m ≠ 0 ∧ A = CoeffType.modInt m

end Algebraics
