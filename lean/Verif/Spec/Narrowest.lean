import Verif.Spec.Interval

/-!
# The narrowest interval with a given precision

Specification side only.
-/

namespace Algebraics

/-- `r` holds all the numbers in `S`, and every other interval of the same precision that does so is at least
as wide, at both ends. For a set with members there is only one such interval of a given precision. -/
def DFI.Narrowest (r : DFI) (S : Set ℝ) : Prop :=
  (∀ z ∈ S, r.Contains z) ∧
    ∀ c : DFI, c.log2Denom = r.log2Denom → (∀ z ∈ S, c.Contains z) → c.lo ≤ r.lo ∧ r.hi ≤ c.hi

end Algebraics
