import Verif.Spec.Interval
import Mathlib.Analysis.SpecialFunctions.Exp

/-!
# Specification of the arithmetic-geometric mean and of `ln 2` providers
-/

namespace Algebraics

/-- the two sequences of the arithmetic-geometric mean iteration. -/
noncomputable def agmSeq (x y : ℝ) : ℕ → ℝ × ℝ
  | 0 => (x, y)
  | n + 1 => (((agmSeq x y n).1 + (agmSeq x y n).2) / 2, Real.sqrt ((agmSeq x y n).1 * (agmSeq x y n).2))

/-- `m` is the arithmetic-geometric mean of `x` and `y`: the common limit of the two sequences. -/
def IsAGM (x y m : ℝ) : Prop :=
  Filter.Tendsto (fun n => (agmSeq x y n).1) Filter.atTop (nhds m) ∧
  Filter.Tendsto (fun n => (agmSeq x y n).2) Filter.atTop (nhds m)

/-- what `log` and `exp` need of `natural_log_of_2`: at each precision an enclosure of `ln 2`, at that
precision, at most 8 units in the last place wide. `C06`/`C12` show that the code delivers this. -/
def IsLn2 (ln2 : ℕ → DFI) : Prop :=
  ∀ n, (ln2 n).log2Denom = n ∧ (ln2 n).Contains (Real.log 2) ∧ (ln2 n).ulps ≤ 8

/-- the number of binary digits after the point that `into_exp` works with
(`src/interval_arithmetic.rs:686-708`): 32 more than those of the argument, twice the logarithm of their
number, and one for each multiple of `ln 2` in the argument. -/
def expPrecision (ln2 : ℕ → DFI) (a : DFI) : ℕ :=
  a.log2Denom + 32 + 2 * Nat.log 2 (a.log2Denom + 1) +
    max (a.lo * 2 ^ 10 / (ln2 (a.log2Denom + 10)).lo).toNat
      (a.hi * 2 ^ 10 / (ln2 (a.log2Denom + 10)).lo).toNat

end Algebraics
