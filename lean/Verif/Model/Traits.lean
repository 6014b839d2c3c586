import Mathlib.Data.Rat.Floor
import Mathlib.Data.Nat.Log
import Mathlib.Data.Int.GCD

/-!
# Model of the integer helper traits of `src/traits.rs`

`BigInt` is `Int`, `BigUint` is `Nat`, `usize` is `Nat`.
-/

namespace Algebraics

/-- `BigInt << n` (num-bigint): multiplication by `2^n`. -/
def shl (a : Int) (n : Nat) : Int := a * 2 ^ n

/-- `BigInt >> n` (num-bigint 0.4: rounds towards negative infinity), i.e. floor division by `2^n`. -/
def shr (a : Int) (n : Nat) : Int := a / 2 ^ n

/-- `BigInt::bits` / `BigUint::bits` of num-bigint: number of bits of the magnitude, 0 for 0. -/
def bits (n : Nat) : Nat := if n = 0 then 0 else Nat.log 2 n + 1

/-- `src/traits.rs:456-464` `FloorLog2 for BigInt`. -/
def floorLog2 (n : Int) : Option Nat :=
  if 0 < n then some (bits n.natAbs - 1) else none

/-- `src/traits.rs:446-454` `CeilLog2 for BigInt`. -/
def ceilLog2 (n : Int) : Option Nat :=
  if 0 < n then some (bits (n - 1).natAbs) else none

/-- `src/traits.rs:410-418` `FloorLog2 for BigUint`. -/
def floorLog2U (n : Nat) : Option Nat :=
  if n = 0 then none else some (bits n - 1)

/-- `src/traits.rs:400-408` `CeilLog2 for BigUint`. -/
def ceilLog2U (n : Nat) : Option Nat :=
  if n = 0 then none else some (bits (n - 1))

/-- first `while` loop of `src/traits.rs:428-431`: double `bit` until it reaches `c`.
`fuel` bounds the number of doublings (`c` itself is always enough). -/
def trailingZerosBit (c : Nat) : Nat → Nat → Nat
  | 0, bit => bit
  | fuel + 1, bit => if bit < c then trailingZerosBit c fuel (bit * 2) else bit

/-- second `while` loop of `src/traits.rs:434-441`; `bit` is `2^k` with `k + 1 = fuel`,
so the recursion is on the exponent and `bit != 0` is `fuel != 0`. -/
def trailingZerosLoop : Nat → Nat → Nat → Nat
  | 0, _, retval => retval
  | fuel + 1, value, retval =>
    let bit := 2 ^ fuel
    let shiftedRight := value / 2 ^ bit
    if shiftedRight * 2 ^ bit = value then
      trailingZerosLoop fuel shiftedRight (retval ||| bit)
    else
      trailingZerosLoop fuel value retval

/-- number of trailing zero bits of a nonzero machine word (`u32::trailing_zeros`). -/
def machineTrailingZeros : Nat → Nat → Nat
  | 0, _ => 0
  | fuel + 1, v => if v % 2 = 0 then machineTrailingZeros fuel (v / 2) + 1 else 0

/-- `src/traits.rs:420-444` `TrailingZeros for BigUint`. The `to_u32` fast path uses the machine
instruction; `bit` in the slow path is always a power of two, whose exponent is `log 2 bit`. -/
def trailingZerosU (n : Nat) : Option Nat :=
  match ceilLog2U n with
  | none => none
  | some c =>
    if n < 2 ^ 32 then some (machineTrailingZeros 32 n)
    else
      let bit := trailingZerosBit c c 1
      some (trailingZerosLoop (Nat.log 2 bit + 1) n 0)

/-- `src/traits.rs:466-475` `TrailingZeros for BigInt`. -/
def trailingZeros (n : Int) : Option Nat := trailingZerosU n.natAbs

/-- `src/traits.rs:283-304` `DivRemNearest for BigInt`. `div_rem` truncates. -/
def divRemNearest (lhs rhs : Int) : Option (Int × Int) :=
  if rhs = 0 then none
  else
    let quotient := lhs.tdiv rhs
    let remainder := lhs.tmod rhs
    let rhsMagnitude := |rhs|
    let remainderMagnitude := |remainder|
    if rhsMagnitude - remainderMagnitude > remainderMagnitude then
      if rhs < 0 then some (quotient - 1, remainder - rhsMagnitude)
      else some (quotient + 1, remainder + rhsMagnitude)
    else some (quotient, remainder)

/-- `src/traits.rs:225-253` `DivRemNearest` for the signed machine integer type with minimum value
`-2^(w-1)` (`w` bits, `w ≥ 1`); `checked_add` gives `none` on overflow. -/
def divRemNearestSigned (w : Nat) (lhs rhs : Int) : Option (Int × Int) :=
  let minValue : Int := -2 ^ (w - 1)
  let inRange := fun v : Int => minValue ≤ v ∧ v < 2 ^ (w - 1)
  let checkedAdd := fun a b : Int => if inRange (a + b) then some (a + b) else none
  if rhs = 0 then none
  else if rhs = -1 ∧ lhs = minValue then none
  else
    let quotient := lhs.tdiv rhs
    let remainder := lhs.tmod rhs
    let rhsMagnitude := rhs.natAbs
    let remainderMagnitude := remainder.natAbs
    if rhs ≠ minValue ∧ remainderMagnitude > rhsMagnitude / 2 then
      let quotientOffset : Int := if rhs < 0 then -1 else 1
      let remainderOffset : Int := if rhs < 0 then rhs else -rhs
      match checkedAdd quotient quotientOffset, checkedAdd remainder remainderOffset with
      | some q, some r => some (q, r)
      | _, _ => none
    else some (quotient, remainder)

/-- `src/traits.rs:255-268, 306-315` `DivRemNearest` for unsigned integers. -/
def divRemNearestUnsigned (lhs rhs : Nat) : Option (Nat × Nat) :=
  if rhs = 0 then none else some (lhs / rhs, lhs % rhs)

/-- `src/traits.rs:645-651, 662-669` `checked_exact_div` for `BigInt`. -/
def checkedExactDivInt (lhs rhs : Int) : Option Int :=
  if rhs = 0 then none
  else if lhs.tmod rhs = 0 then some (lhs.tdiv rhs) else none

/-- `src/traits.rs:129-152` `GCD for Ratio<T>`: returns `(gcd, lcm)`. -/
def ratGcdLcm (a b : Rat) : Rat × Rat :=
  if a = 0 then (b, 0)
  else if b = 0 then (a, 0)
  else
    let l := a.num * b.den
    let r := b.num * a.den
    let denom : Rat := (a.den : Rat) * b.den
    (((Int.gcd l r : Int) : Rat) / denom, ((Int.lcm l r : Int) : Rat) / denom)

/-- `src/traits.rs:154-166` `ExtendedGCD for Ratio<T>`: returns `(gcd, x, y, lcm)`.
num-integer's integer extended gcd is modelled by Mathlib's `Int.gcdA/gcdB`. -/
def ratExtendedGcdLcm (a b : Rat) : Rat × Rat × Rat × Rat :=
  let l := a.num * b.den
  let r := b.num * a.den
  let denom : Rat := (a.den : Rat) * b.den
  (((Int.gcd l r : Int) : Rat) / denom, (Int.gcdA l r : Rat), (Int.gcdB l r : Rat),
    ((Int.lcm l r : Int) : Rat) / denom)

end Algebraics
