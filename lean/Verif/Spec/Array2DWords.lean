import Verif.Model.Array2DWords
import Verif.Spec.Array2DMut

/-!
Specification for C94: which numbers fit the words of a machine.
-/

namespace Algebraics

/-- no number of the range is the largest word of `w` bits where the code adds 1 to it: at an inclusive end or
an exclusive start -/
def SliceBound.BelowMax (w : ℕ) : SliceBound → Prop
  | index i => i + 1 < 2 ^ w
  | rangeInclusive _ l => l + 1 < 2 ^ w
  | rangeToInclusive l => l + 1 < 2 ^ w
  | bounds s e => (∀ v, s = .excluded v → v + 1 < 2 ^ w) ∧ ∀ v, e = .included v → v + 1 < 2 ^ w
  | _ => True

namespace Array2D

variable {α : Type}

/-- all elements, and the ends of the columns, have addresses that are words of `w` bits -/
def InMemory (w : ℕ) (a : Array2D α) : Prop :=
  a.xSize < 2 ^ w ∧ a.data.length < 2 ^ w ∧ a.xSize * a.stride + a.ySize < 2 ^ w

end Array2D

end Algebraics
