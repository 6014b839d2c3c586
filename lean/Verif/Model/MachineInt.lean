import Verif.Model.Traits

/-!
# Model of the parts of `src/traits.rs` for machine integers and rational numbers

A machine integer type of `w` bits is given by the values it holds: `0 ≤ v < 2^w` for an unsigned
type, `-2^(w-1) ≤ v < 2^(w-1)` for a signed one. The functions below are generated by macros for
every such type, so they take the width as an argument.
-/

namespace Algebraics

/-- the bit pattern of a machine integer of `w` bits (two's complement). -/
def twosComplement (w : Nat) (v : Int) : Nat := (v % 2 ^ w).toNat

/-- the machine instruction behind `leading_zeros` of a type of `w` bits, on the bit pattern. -/
def machineLeadingZeros : Nat → Nat → Nat
  | 0, _ => 0
  | w + 1, pattern => if pattern.testBit w then 0 else machineLeadingZeros w pattern + 1

/-- `src/traits.rs:317-335` `IntegerBits::BITS` for a machine integer type of `w` bits. -/
def integerBits (w : Nat) : Nat := machineTrailingZeros w (twosComplement w 0)

/-- `src/traits.rs:357-365` `FloorLog2` for machine integers. The outer `none` is the panic of a debug
build when a subtraction of `usize` goes below zero, the inner one the result `None`. -/
def floorLog2Machine (w : Nat) (v : Int) : Option (Option Nat) :=
  if v ≤ 0 then some none
  else if integerBits w < machineLeadingZeros w (twosComplement w v) + 1 then none
  else some (some (integerBits w - machineLeadingZeros w (twosComplement w v) - 1))

/-- `src/traits.rs:366-374` `CeilLog2` for machine integers. The outer `none` is the panic of a debug
build when a subtraction of `usize` goes below zero, the inner one the result `None`. -/
def ceilLog2Machine (w : Nat) (v : Int) : Option (Option Nat) :=
  if v ≤ 0 then some none
  else if integerBits w < machineLeadingZeros w (twosComplement w (v - 1)) then none
  else some (some (integerBits w - machineLeadingZeros w (twosComplement w (v - 1))))

/-- `src/traits.rs:375-383` `TrailingZeros` for machine integers. -/
def trailingZerosMachine (w : Nat) (v : Int) : Option Nat :=
  if v = 0 then none else some (machineTrailingZeros w (twosComplement w v))

/-- `src/traits.rs:217-223` `DivRemNearest` for `Ratio<BigInt>`; `checked_div` (num-rational) is `None`
when the divisor is zero. -/
def divRemNearestRat (lhs rhs : Rat) : Option (Rat × Rat) :=
  match (if rhs = 0 then none else some (lhs / rhs) : Option Rat) with
  | none => none
  | some q => some (q, 0)

end Algebraics
