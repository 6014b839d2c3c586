import Verif.Model.OpForms

/-!
# Specification vocabulary for the forms of the operators (C68, C69, C70)
-/

namespace Algebraics

/-- the rational number a right operand of an interval operation stands for; a fraction with
denominator zero stands for none -/
inductive Scalar.Denotes : Scalar → ℚ → Prop
  | bigInt (k : ℤ) : Denotes (.bigInt k) k
  | prim (t : IntTy) (k : ℤ) : Denotes (.prim t k) k
  | ratioBig (q : ℚ) : Denotes (.ratioBig q) q
  | ratioPrim (t : IntTy) (n d : ℤ) (q : ℚ) (hd : d ≠ 0) (h : q * d = n) : Denotes (.ratioPrim t n d) q

/-- the rational number an exponent stands for -/
inductive Exponent.Denotes : Exponent → ℚ → Prop
  | int (k : ℤ) : Denotes (.int k) k
  | pair (n d : ℤ) (q : ℚ) (hd : d ≠ 0) (h : q * d = n) : Denotes (.pair n d) q
  | ratio (q : ℚ) : Denotes (.ratio q) q
  | ref (e : Exponent) (q : ℚ) (h : Denotes e q) : Denotes (.ref e) q

/-- what a checked assigning operation has to do, given the condition for success and the property of
the result: on success the left operand becomes a correct result, otherwise it stays as it is -/
def AssignsOrKeeps {α : Type} (before : α) (success : Prop) (correct : α → Prop) (after : α × Bool) : Prop :=
  (success → after.2 = true ∧ correct after.1) ∧ (¬ success → after = (before, false))

end Algebraics
