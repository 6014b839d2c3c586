import Mathlib.Data.Rat.Floor
import Mathlib.Data.Int.Log
import Verif.Model.ConstantCache

/-!
# Model of the `f64` arithmetic in `log2_denom_to_cache_index` (`src/interval_arithmetic.rs:52-56`)

A finite `f64` is the rational number it stands for. Conversion from `usize`, addition and multiplication round to 53
significant bits, to nearest, ties to even, as IEEE 754 demands; `floor` is exact; `as usize` saturates. The function
`f64::log2` comes from the platform and is a parameter.

Simplification: only numbers from 0 to about `2^64` occur here, so there is no case for negative numbers, for numbers
too large or too small for the exponent of an `f64`, infinities or NaN.
-/

namespace Algebraics
namespace Cache

/-- the integer nearest to `x`, the even one of two. -/
def roundHalfEven (x : ℚ) : ℤ :=
  if x - ⌊x⌋ < 1 / 2 then ⌊x⌋
  else if 1 / 2 < x - ⌊x⌋ then ⌊x⌋ + 1
  else if ⌊x⌋ % 2 = 0 then ⌊x⌋ else ⌊x⌋ + 1

/-- rounding to an `f64`, for numbers from 0 on: the unit is the 53rd binary digit of `q`. -/
def f64Round (q : ℚ) : ℚ :=
  if q ≤ 0 then 0 else roundHalfEven (q / 2 ^ (Int.log 2 q - 52)) * 2 ^ (Int.log 2 q - 52)

/-- the argument of `floor` in the closure `f` of `src/interval_arithmetic.rs:53`. -/
def f64Scaled (log2 : ℚ → ℚ) (n : ℕ) : ℚ := f64Round (log2 (f64Round (f64Round n + 1)) * 3)

/-- the closure `f` of `src/interval_arithmetic.rs:53`. -/
def f64Closure (log2 : ℚ → ℚ) (n : ℕ) : ℕ := min ⌊f64Scaled log2 n⌋.toNat (2 ^ 64 - 1)

end Cache
end Algebraics
