import Verif.Model.Python
import Verif.Spec.AlgNum

/-!
# What Python objects stand for
-/

namespace Algebraics

namespace Python

/-- the object is an instance of the class, or an integer, and stands for the real number `x`. -/
def PyVal.Is (v : PyVal) (x : ℝ) : Prop :=
  match v with
  | .number a => a.Represents x
  | .int n => x = n
  | .pyNone => False
  | .other => False

/-- the object is an instance of the class -/
def PyVal.IsNumber (v : PyVal) : Prop := ∃ a, v = .number a

/-- the minimal polynomial of the number that the object stands for -/
def PyVal.poly (v : PyVal) : Poly ℤ :=
  match v with
  | .number a => a.poly
  | .int n => Poly.ofCoeffs [-n, 1]
  | .pyNone => Poly.ofCoeffs []
  | .other => Poly.ofCoeffs []

/-- the relation that a comparison operator stands for -/
def CompareOp.Holds (op : CompareOp) (x y : ℝ) : Prop :=
  match op with
  | .lt => x < y
  | .le => x ≤ y
  | .eq => x = y
  | .ne => x ≠ y
  | .gt => x > y
  | .ge => x ≥ y

end Python

end Algebraics
