import Verif.Model.AlgNum
import Verif.Model.IntervalFn
import Verif.Model.ModInt

/-!
# The limits of machine words

The functions that turn big integers into machine words, or compute with exponents of a machine type, with these
limits (64 bit platform).  The other modules leave them out.
-/

namespace Algebraics

/-- `to_usize`, and the overflow checks of `usize` arithmetic: `none` from `2^64` on -/
def usize (x : ℕ) : Option ℕ := if x < 2 ^ 64 then some x else none

namespace DFI

/-- `src/interval_arithmetic.rs:1214-1302` `Pow` with an exponent of the type `E`: like `pow`, but
`zero_exponent - exponent` (line 1225) overflows, before the reciprocal is taken, when the type has no such
number. -/
def powTyped (E : IntTy) (a : DFI) (exponent : ℤ) : Option DFI :=
  if exponent = 0 then some a.setOne
  else if exponent = 1 then some a
  else if exponent < 0 then do
    let positive ← E.check (0 - exponent)
    let r ← a.checkedRecip
    if positive = 1 then return r
    return r.powPos positive.natAbs
  else some (a.powPos exponent.natAbs)

/-- the lower end of `src/interval_arithmetic.rs:730-742` -/
def expShiftLower (q lo : ℤ) : Option ℤ :=
  match usize q.natAbs with
  | some s => some (if q < 0 then shr lo s else shl lo s)
  | none => if q < 0 then some 0 else none

/-- the upper end of `src/interval_arithmetic.rs:743-757` -/
def expShiftUpper (q hi : ℤ) : Option ℤ :=
  match usize q.natAbs with
  | some s => some (if q < 0 then -shr (-hi) s else shl hi s)
  | none => if q < 0 then some 1 else none

/-- `src/interval_arithmetic.rs:685-759` `into_exp` with `usize` numbers: `none` stands also for "input too big in
exp()" and "overflow: input too big for exp()". -/
def expWords (ln2 : ℕ → DFI) (a : DFI) : Option DFI := do
  let n := a.log2Denom
  let n10 ← usize (n + 10)
  let a := a.convertLog2Denom n10
  let short := ln2 n10
  if short.lo = 0 then none
  else
    let e1 ← usize (expExtraBits short.lo a.lo)
    let e2 ← usize (expExtraBits short.lo a.hi)
    let n1 ← usize (n + 1)
    let k ← floorLog2U n1
    let base ← usize (n + 32 + k * 2)
    let w ← usize (base + max (max 0 e1) e2)
    let a := a.convertLog2Denom w
    let l2 := ln2 w
    if l2.hi = 0 ∨ l2.lo = 0 then none
    else
      let ql := a.lo.fdiv l2.hi
      let qu := a.hi.fdiv l2.lo
      let x : DFI := ⟨a.lo.fmod l2.hi, a.hi.fmod l2.lo, w⟩
      let r ← expLoop x (w - 1) 1 (one w) (one w)
      let lo ← expShiftLower ql r.lo
      let hi ← expShiftUpper qu r.hi
      return (⟨lo, hi, r.log2Denom⟩ : DFI).convertLog2Denom n

/-- the cast `as i64` of a `usize` -/
def asI64 (x : ℕ) : ℤ := Int.bmod x (2 ^ 64)

/-- the difference of two such casts -/
def subI64 (x y : ℕ) : Option ℤ := (IntTy.signed 64).check (asI64 x - asI64 y)

/-- `src/interval_arithmetic.rs:826-830` `floor_log2`, in `i64`: the casts wrap, the subtraction overflows. -/
def floorLog2Words (a : DFI) : Option (ℤ × ℤ) := do
  let l ← Algebraics.floorLog2 a.lo
  let lower ← subI64 l a.log2Denom
  let h ← Algebraics.floorLog2 a.hi
  let upper ← subI64 h a.log2Denom
  return (lower, upper)

/-- `src/interval_arithmetic.rs:831-835` `ceil_log2`, in `i64`. -/
def ceilLog2Words (a : DFI) : Option (ℤ × ℤ) := do
  let l ← Algebraics.ceilLog2 a.lo
  let lower ← subI64 l a.log2Denom
  let h ← Algebraics.ceilLog2 a.hi
  let upper ← subI64 h a.log2Denom
  return (lower, upper)

end DFI

namespace RealAlg

/-- `to_i64` of a `usize` -/
def toI64 (x : ℕ) : Option ℤ := (IntTy.signed 64).check x

/-- `src/algebraic_numbers.rs:797-812` `to_integer_log2`, with the conversion of lines 803 and 808 as a parameter. -/
def toIntegerLog2With (convert : ℕ → Option ℤ) (a : RealAlg) : Except Stop (Option ℤ) := do
  match ← a.toRationalRaw with
  | none => return none
  | some (numer, denom) =>
    if denom = 1 then
      match Algebraics.floorLog2 numer with
      | none => return none
      | some r =>
        let c ← orPanic (Algebraics.ceilLog2 numer)
        if r = c then
          let i ← orPanic (convert r)
          return some i
        else return none
    else if numer = 1 then
      let r ← orPanic (Algebraics.floorLog2 denom)
      let c ← orPanic (Algebraics.ceilLog2 denom)
      if r = c then
        let i ← orPanic (convert r)
        return some (-i)
      else return none
    else return none

/-- `src/algebraic_numbers.rs:797-812` `to_integer_log2` with the panic of `to_i64().expect("overflow")`. -/
def toIntegerLog2Words (a : RealAlg) : Except Stop (Option ℤ) := a.toIntegerLog2With toI64

/-- `src/algebraic_numbers.rs:703-788`: `powTail` with the panics of `to_usize().expect(..)` of lines 718-724.
Simplification: the logarithms and exponentials of the search for the root are those without limits. -/
def powTailWords (ln2 : ℕ → ℕ → DFI) (F : FactorCall) (fuel : ℕ) (base : RealAlg) (exponent : ℚ) :
    Except Stop (Option RealAlg) := do
  let baseIsNegative ← base.isNegative
  if baseIsNegative && decide (exponent.den ≠ 1) then return none
  else
    let resultNegative := baseIsNegative && decide (exponent.num % 2 ≠ 0)
    let exponentNegative := decide (exponent < 0)
    let numer ← orPanic (usize exponent.num.natAbs)
    let denom ← orPanic (usize exponent.den)
    let general := do
      let r ← powGeneral ln2 F fuel base exponentNegative numer denom resultNegative
      return some r
    if denom = 1 then
      match ← base.toRational with
      | some q => return some (ofRat (ratPow q exponentNegative numer))
      | none => general
    else general

/-- `src/algebraic_numbers.rs:670-796` `checked_pow_impl`, `checked_pow`, `checked_into_pow`, with the limits of the
exponent. -/
def checkedPowWords (ln2 : ℕ → ℕ → DFI) (F : FactorCall) (fuel : ℕ) (base : RealAlg) (exponent : ℚ) :
    Except Stop (Option RealAlg) :=
  if exponent = 0 then return (if base.isZero then none else some one)
  else if exponent = 1 then return some base
  else if exponent = -1 then base.checkedRecip fuel
  else if base.isZero then return (if exponent < 0 then none else some zero)
  else if base.isOne then return some one
  else if base.isNegativeOne then
    return (if exponent.den = 1 then
      (if exponent.num % 2 ≠ 0 then some negativeOne else some one) else none)
  else powTailWords ln2 F fuel base exponent

end RealAlg

end Algebraics
