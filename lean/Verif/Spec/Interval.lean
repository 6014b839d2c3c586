import Verif.Model.Interval
import Mathlib.Analysis.SpecialFunctions.Log.Basic

/-!
# What an interval means

Specification side only: the set of reals a `DyadicFractionInterval` stands for.
-/

namespace Algebraics

/-- the real number `x` lies in the closed interval `[lo / 2^n, hi / 2^n]`. -/
def DFI.Contains (a : DFI) (x : ℝ) : Prop :=
  (a.lo : ℝ) / 2 ^ a.log2Denom ≤ x ∧ x ≤ (a.hi : ℝ) / 2 ^ a.log2Denom

/-- well-formed interval: the ends are in order (what `DyadicFractionInterval::new` asserts). -/
def DFI.Ordered (a : DFI) : Prop := a.lo ≤ a.hi

/-- width in units of `2^-n`. -/
def DFI.ulps (a : DFI) : Int := a.hi - a.lo

end Algebraics
