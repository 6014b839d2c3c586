import Mathlib.Algebra.Order.Field.Basic
import Mathlib.Algebra.Polynomial.Roots
import Mathlib.Data.Real.Basic

/-!
# Specification vocabulary for Sturm sequences
-/

namespace Algebraics

/-- number of neighbours of opposite sign -/
def adjacentSignChanges {α : Type} [Mul α] [Zero α] [LT α] [DecidableLT α] : List α → ℕ
  | a :: b :: l => (if a * b < 0 then 1 else 0) + adjacentSignChanges (b :: l)
  | _ => 0

/-- number of sign changes in a sequence, zeros ignored -/
def signChanges {α : Type} [Mul α] [Zero α] [LT α] [DecidableLT α] [DecidableEq α] (l : List α) : ℕ :=
  adjacentSignChanges (l.filter (fun a => a ≠ 0))

end Algebraics
