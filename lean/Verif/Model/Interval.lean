import Verif.Model.Traits
import Mathlib.Data.Nat.Sqrt

/-!
# Model of `src/interval_arithmetic.rs`

A `DyadicFractionInterval` is `[lower / 2^log2Denom, upper / 2^log2Denom]`.
-/

namespace Algebraics

/-- `src/interval_arithmetic.rs:125-129`. -/
structure DFI where
  lo : Int
  hi : Int
  log2Denom : Nat
  deriving DecidableEq, Repr

/-- `src/interval_arithmetic.rs:22-28`. -/
def convertLog2DenomFloor (numer : Int) (old new : Nat) : Int :=
  if new ≥ old then shl numer (new - old) else shr numer (old - new)

/-- `src/interval_arithmetic.rs:30-40`. -/
def convertLog2DenomCeil (numer : Int) (old new : Nat) : Int :=
  if new ≥ old then shl numer (new - old) else -shr (-numer) (old - new)

namespace DFI

/-- `src/interval_arithmetic.rs:132-139` (`none` = the assertion panics). -/
def new (lo hi : Int) (n : Nat) : Option DFI :=
  if lo ≤ hi then some ⟨lo, hi, n⟩ else none

/-- `src/interval_arithmetic.rs:140-154` (`none` = the assertion panics). -/
def fromRatioRange (lb ub : Rat) (n : Nat) : Option DFI :=
  if lb ≤ ub then some ⟨⌊lb * 2 ^ n⌋, ⌈ub * 2 ^ n⌉, n⟩ else none

/-- `src/interval_arithmetic.rs:155-166`. -/
def fromRatio (q : Rat) (n : Nat) : DFI :=
  let r : Rat := (shl q.num n : Rat) / q.den
  ⟨⌊r⌋, ⌈r⌉, n⟩

/-- `src/interval_arithmetic.rs:173-179`. -/
def fromDyadicFraction (numer : Int) (n : Nat) : DFI := ⟨numer, numer, n⟩

/-- `src/interval_arithmetic.rs:167-169`. -/
def fromInt (v : Int) (n : Nat) : DFI := fromDyadicFraction (shl v n) n

/-- `src/interval_arithmetic.rs:275-286`. -/
def convertLog2Denom (a : DFI) (n : Nat) : DFI :=
  ⟨convertLog2DenomFloor a.lo a.log2Denom n, convertLog2DenomCeil a.hi a.log2Denom n, n⟩

/-- `src/interval_arithmetic.rs:170-172`. -/
def fromIntRange (lb ub : Int) (n : Nat) : Option DFI :=
  (new lb ub 0).map (·.convertLog2Denom n)

/-- `src/interval_arithmetic.rs:180-186`. -/
def zero (n : Nat) : DFI := ⟨0, 0, n⟩

/-- `src/interval_arithmetic.rs:187-189`. -/
def one (n : Nat) : DFI := fromInt 1 n

/-- `src/interval_arithmetic.rs:190-192`. -/
def negativeOne (n : Nat) : DFI := fromInt (-1) n

/-- `src/interval_arithmetic.rs:193-196`. -/
def setZero (a : DFI) : DFI := ⟨0, 0, a.log2Denom⟩

/-- `src/interval_arithmetic.rs:197-201`. -/
def setOne (a : DFI) : DFI := ⟨shl 1 a.log2Denom, shl 1 a.log2Denom, a.log2Denom⟩

/-- `src/interval_arithmetic.rs:202-207`. -/
def setNegativeOne (a : DFI) : DFI := ⟨-shl 1 a.log2Denom, -shl 1 a.log2Denom, a.log2Denom⟩

/-- `src/interval_arithmetic.rs:218-229` `lower_bound`. -/
def lowerBound (a : DFI) : Rat := (a.lo : Rat) / (shl 1 a.log2Denom : Int)

/-- `src/interval_arithmetic.rs:221-235` `upper_bound`. -/
def upperBound (a : DFI) : Rat := (a.hi : Rat) / (shl 1 a.log2Denom : Int)

/-- `src/interval_arithmetic.rs:253-255`. -/
def setToLowerBound (a : DFI) : DFI := { a with hi := a.lo }

/-- `src/interval_arithmetic.rs:256-258`. -/
def setToUpperBound (a : DFI) : DFI := { a with lo := a.hi }

/-- `src/interval_arithmetic.rs:267-270` (`none` = panic). -/
def setLowerBoundToZero (a : DFI) : Option DFI :=
  if 0 ≤ a.hi then some { a with lo := 0 } else none

/-- `src/interval_arithmetic.rs:271-274` (`none` = panic). -/
def setUpperBoundToZero (a : DFI) : Option DFI :=
  if a.lo ≤ 0 then some { a with hi := 0 } else none

/-- `src/interval_arithmetic.rs:287-326` `do_op_assign`: bring both operands to the larger
precision, then apply the operation on the four numerators. -/
def doOp (a b : DFI) (op : Int → Int → Int → Int → Nat → Int × Int) : DFI :=
  if b.log2Denom ≥ a.log2Denom then
    let s := b.log2Denom - a.log2Denom
    let r := op (shl a.lo s) (shl a.hi s) b.lo b.hi b.log2Denom
    ⟨r.1, r.2, b.log2Denom⟩
  else
    let s := a.log2Denom - b.log2Denom
    let r := op a.lo a.hi (shl b.lo s) (shl b.hi s) a.log2Denom
    ⟨r.1, r.2, a.log2Denom⟩

/-- `src/interval_arithmetic.rs:327-339`. -/
def add (a b : DFI) : DFI := doOp a b fun ll lh rl rh _ => (ll + rl, lh + rh)

/-- `src/interval_arithmetic.rs:340-353`. -/
def sub (a b : DFI) : DFI := doOp a b fun ll lh rl rh _ => (ll - rh, lh - rl)

/-- `src/interval_arithmetic.rs:354-360`. -/
def mulInt (a : DFI) (k : Int) : DFI :=
  let (l, h) := if k < 0 then (a.hi, a.lo) else (a.lo, a.hi)
  ⟨l * k, h * k, a.log2Denom⟩

/-- `src/interval_arithmetic.rs:361-367`. -/
def mulRatio (a : DFI) (q : Rat) : DFI :=
  let (l, h) := if q < 0 then (a.hi, a.lo) else (a.lo, a.hi)
  ⟨⌊q * l⌋, ⌈q * h⌉, a.log2Denom⟩

/-- the loops of `src/interval_arithmetic.rs:382-405`: walk over the candidates, swapping the
current best with a better one; returns the best and what is left in the array. -/
def pickBest (better : Int → Int → Bool) (best : Int) : List Int → Int × List Int
  | [] => (best, [])
  | b :: bs =>
    if better b best then
      let r := pickBest better b bs
      (r.1, best :: r.2)
    else
      let r := pickBest better best bs
      (r.1, b :: r.2)

/-- the closure of `src/interval_arithmetic.rs:368-410` `do_mul_assign`. -/
def mulOp (ll lh rl rh : Int) (n : Nat) : Int × Int :=
  let r := pickBest (fun b best => b < best) (ll * rl) [ll * rh, lh * rl, lh * rh]
  let lower := r.1
  let upper := match r.2 with
    | [] => 0 -- unreachable: three candidates are left
    | b :: bs => (pickBest (fun b best => b > best) b bs).1
  (shr lower n, -shr (-upper) n)

/-- `src/interval_arithmetic.rs:368-410`. -/
def mul (a b : DFI) : DFI := doOp a b mulOp

/-- `src/interval_arithmetic.rs:504-506`. -/
def containsZero (a : DFI) : Bool := !(decide (0 < a.lo)) && !(decide (a.hi < 0))

/-- num-integer `div_ceil` on `BigInt`. -/
def divCeil (a b : Int) : Int := -((-a).fdiv b)

/-- `src/interval_arithmetic.rs:422-435`; `div_floor` is `Int.fdiv`. -/
def checkedRecip (a : DFI) : Option DFI :=
  if a.containsZero then none
  else
    let dividend := shl 1 (2 * a.log2Denom)
    some ⟨dividend.fdiv a.hi, divCeil dividend a.lo, a.log2Denom⟩

/-- `src/interval_arithmetic.rs:411-421` interval division (`none` = `Err(())` of the checked
version and the panic of the unchecked one). -/
def checkedDiv (a b : DFI) : Option DFI := (b.checkedRecip).map fun r => a.mul r

/-- `src/interval_arithmetic.rs:439-463`. -/
def square (a : DFI) : DFI :=
  let min0 := if a.lo < 0 then -a.lo else a.lo
  let max0 := if a.hi < 0 then -a.hi else a.hi
  let (mn, mx) := if min0 > max0 then (max0, min0) else (min0, max0)
  ⟨if a.containsZero then 0 else shr (mn * mn) a.log2Denom, -shr (-(mx * mx)) a.log2Denom,
    a.log2Denom⟩

/-- `BigInt::sqrt` of num-bigint: truncated square root, panics (`none`) on negatives. -/
def bigIntSqrt (a : Int) : Option Int := if a < 0 then none else some (Nat.sqrt a.toNat : Int)

/-- `src/interval_arithmetic.rs:470-494` (`none` = panic in `BigInt::sqrt`). -/
def sqrt (a : DFI) : Option DFI := do
  let scaledLo := shl a.lo a.log2Denom
  let scaledHi := shl a.hi a.log2Denom
  let lo ← bigIntSqrt scaledLo
  let s ← bigIntSqrt scaledHi
  return ⟨lo, if s * s = scaledHi then s else s + 1, a.log2Denom⟩

/-- `src/interval_arithmetic.rs:507-523`. -/
def union (a b : DFI) : DFI :=
  doOp a b fun ll lh rl rh _ => (if ll > rl then rl else ll, if lh < rh then rh else lh)

/-- `src/interval_arithmetic.rs:864-878`. -/
def neg (a : DFI) : DFI := ⟨-a.hi, -a.lo, a.log2Denom⟩

/-- `src/interval_arithmetic.rs:774-788`. -/
def abs (a : DFI) : DFI :=
  let l := if a.lo < 0 then -a.lo else a.lo
  let h := if a.hi < 0 then -a.hi else a.hi
  let (l, h) := if l > h then (h, l) else (l, h)
  ⟨if a.containsZero then 0 else l, h, a.log2Denom⟩

/-- `src/interval_arithmetic.rs:796-801`. -/
def floor (a : DFI) (n : Nat) : DFI :=
  (⟨shr a.lo a.log2Denom, shr a.hi a.log2Denom, 0⟩ : DFI).convertLog2Denom n

/-- `src/interval_arithmetic.rs:809-818`. -/
def ceil (a : DFI) (n : Nat) : DFI :=
  (⟨-shr (-a.lo) a.log2Denom, -shr (-a.hi) a.log2Denom, 0⟩ : DFI).convertLog2Denom n

/-- `src/interval_arithmetic.rs:826-830`. -/
def floorLog2 (a : DFI) : Option (Int × Int) := do
  let l ← Algebraics.floorLog2 a.lo
  let h ← Algebraics.floorLog2 a.hi
  return ((l : Int) - a.log2Denom, (h : Int) - a.log2Denom)

/-- `src/interval_arithmetic.rs:831-835`. -/
def ceilLog2 (a : DFI) : Option (Int × Int) := do
  let l ← Algebraics.ceilLog2 a.lo
  let h ← Algebraics.ceilLog2 a.hi
  return ((l : Int) - a.log2Denom, (h : Int) - a.log2Denom)

/-- `src/interval_arithmetic.rs:764-773`. -/
def isSame (a b : DFI) : Bool := a.lo == b.lo && a.hi == b.hi && a.log2Denom == b.log2Denom

/-- `src/interval_arithmetic.rs:1004-1019`. -/
def addInt (a : DFI) (k : Int) : DFI :=
  ⟨a.lo + shl k a.log2Denom, a.hi + shl k a.log2Denom, a.log2Denom⟩

/-- `src/interval_arithmetic.rs:1050-1065`. -/
def subInt (a : DFI) (k : Int) : DFI :=
  ⟨a.lo - shl k a.log2Denom, a.hi - shl k a.log2Denom, a.log2Denom⟩

/-- `src/interval_arithmetic.rs:1021-1031`. -/
def addRatio (a : DFI) (q : Rat) : DFI := a.add (fromRatio q a.log2Denom)

/-- `src/interval_arithmetic.rs:1067-1077`. -/
def subRatio (a : DFI) (q : Rat) : DFI := a.sub (fromRatio q a.log2Denom)

/-- `src/interval_arithmetic.rs:1185-1195` (`none` = the panic of `Ratio::new(1, 0)`). -/
def divInt (a : DFI) (k : Int) : Option DFI :=
  if k = 0 then none else some (a.mulRatio (1 / k))

/-- `src/interval_arithmetic.rs:1197-1207` (`none` = the panic of `Ratio::recip` on zero). -/
def divRatio (a : DFI) (q : Rat) : Option DFI :=
  if q = 0 then none else some (a.mulRatio q⁻¹)

/-- state of the loop of `src/interval_arithmetic.rs:1260-1277`. -/
structure PowState where
  baseLo : Int
  baseHi : Int
  retLo : Int
  negRetHi : Int

/-- `src/interval_arithmetic.rs:1260-1277`: the square-and-multiply loop on magnitudes.
`exponent` halves at each turn, so recursion is on fuel (`exponent` itself is enough). -/
def powLoop (n : Nat) : Nat → Nat → PowState → PowState
  | 0, _, s => s
  | fuel + 1, exponent, s =>
    let s := if exponent % 2 = 1 then
        { s with retLo := shr (s.retLo * s.baseLo) n, negRetHi := shr (s.negRetHi * s.baseHi) n }
      else s
    let exponent := exponent / 2
    if exponent = 0 then s
    else
      powLoop n fuel exponent
        { s with baseLo := shr (s.baseLo * s.baseLo) n
                 baseHi := -shr (-s.baseHi * s.baseHi) n }

/-- `src/interval_arithmetic.rs:1231-1292`: the part of `pow` for exponents at least 2. -/
def powPos (a : DFI) (exponent : Nat) : DFI :=
  let containsZero := a.containsZero
  let n := a.log2Denom
  let loNeg := decide (a.lo < 0)
  let hiNeg := decide (a.hi < 0)
  let baseLo := if loNeg then -a.lo else a.lo
  let baseHi := if hiNeg then -a.hi else a.hi
  let swapped := decide (baseLo > baseHi)
  let (baseLo, baseHi) := if swapped then (baseHi, baseLo) else (baseLo, baseHi)
  let even := exponent % 2 == 0
  let loNeg := loNeg && !even
  let hiNeg := hiNeg && !even
  let swapped := swapped && !even
  let baseLo := if even && containsZero then 0 else baseLo
  let s := powLoop n exponent exponent ⟨baseLo, baseHi, shl 1 n, -shl 1 n⟩
  let retLo := s.retLo
  let retHi := -s.negRetHi
  let (retLo, retHi) := if swapped then (retHi, retLo) else (retLo, retHi)
  ⟨if loNeg then -retLo else retLo, if hiNeg then -retHi else retHi, n⟩

/-- `src/interval_arithmetic.rs:1214-1295` `Pow` with an integer exponent of either sign
(`none` = the panic of `recip`). -/
def pow (a : DFI) (exponent : Int) : Option DFI :=
  if exponent = 0 then some a.setOne
  else if exponent = 1 then some a
  else if exponent < 0 then do
    let r ← a.checkedRecip
    if exponent = -1 then return r
    return r.powPos exponent.natAbs
  else some (a.powPos exponent.natAbs)

end DFI

end Algebraics
