import Verif.Model.Interval

/-!
# Model of the transcendental functions of `src/interval_arithmetic.rs`

Simplification: `usize`/`i64` are unbounded (so the "input too big" panics of `exp`/`log`, which need
more than `2^63` bits of precision, are not modelled).
-/

namespace Algebraics
namespace DFI

/-- the `while` loop of `src/interval_arithmetic.rs:533-541`; `fuel` bounds the turns
(`none` = fuel exhausted or panic of `into_sqrt`). -/
def agmLoop : Nat → (result am gm next : DFI) → Option DFI
  | 0, _, _, _, _ => none
  | fuel + 1, result, am, gm, next =>
    if next.hi - next.lo < result.hi - result.lo then do
      let nextAm ← (am.add gm).divInt 2
      let nextGm ← (am.mul gm).sqrt
      agmLoop fuel next nextAm nextGm (nextAm.union nextGm)
    else some result

/-- `src/interval_arithmetic.rs:524-543` `into_arithmetic_geometric_mean`. The fuel is the width of
the first union plus two: the width of `result` strictly decreases at every turn. -/
def agm (a b : DFI) : Option DFI :=
  if a.lo < 0 ∨ b.lo < 0 then none
  else do
    let result := a.union b
    let am ← (a.add b).divInt 2
    let gm ← (a.mul b).sqrt
    agmLoop ((result.hi - result.lo).toNat + 2) result am gm (am.union gm)

/-- the closure of `src/interval_arithmetic.rs:551-553` `sqrt_2`. -/
def sqrt2Compute (n : Nat) : Option DFI := (fromInt 2 n).sqrt

/-- the loop of `src/interval_arithmetic.rs:582-585`: `count` terms starting at index `i`. -/
def ln2Loop (w : Nat) : (count i : Nat) → DFI → DFI
  | 0, _, ret => ret
  | count + 1, i, ret =>
    ln2Loop w count (i + 1) (ret.add (fromRatio (1 / ((shl (i : Int) i : Int) : Rat)) w))

/-- `log2_denom + 10 + floor_log2(log2_denom + 1)`, `src/interval_arithmetic.rs:576-580, 595-599`. -/
def guardBits (n : Nat) : Option Nat := do
  let k ← floorLog2U (n + 1)
  return n + 10 + k

/-- the closure of `src/interval_arithmetic.rs:573-588` `natural_log_of_2`. -/
def ln2Compute (n : Nat) : Option DFI := do
  let w ← guardBits n
  let r := ln2Loop w (w - 1) 1 (zero w)
  return { r with hi := r.hi + 1 }

/-- `Ratio::new` (`none` = panic on a zero denominator). -/
def ratioNew (n d : Int) : Option Rat := if d = 0 then none else some ((n : Rat) / d)

/-- the loop of `src/interval_arithmetic.rs:608-621`. -/
def logCoreLoop (w : Nat) (stn : Int) (sq : DFI) : (count i : Nat) → (ret power : DFI) → Option DFI
  | 0, _, ret, _ => some ret
  | count + 1, i, ret, power => do
    let td := power.mulInt ((i * 2 + 1 : Nat) : Int)
    let tl ← ratioNew stn td.hi
    let th ← ratioNew stn td.lo
    let term ← fromRatioRange tl th w
    logCoreLoop w stn sq count (i + 1) (ret.add term) (power.mul sq)

/-- `src/interval_arithmetic.rs:593-624` `log_core`. -/
def logCore (a : DFI) : Option DFI :=
  if a.hi < a.lo then none
  else do
    let w ← guardBits a.log2Denom
    let stn := shl 2 w
    let power := a.convertLog2Denom w
    if power.lo < stn then none
    else
      let r ← logCoreLoop w stn power.square w 0 (zero w) power
      return ({ r with hi := r.hi + 1 } : DFI).convertLog2Denom a.log2Denom

/-- `src/interval_arithmetic.rs:642-664`: scale a bound by a power of two into `[3/2, 3)`; returns
the scaled bound and the shift. -/
def logShift (bound : Rat) (shift : Int) : Rat × Int :=
  let s := if shift < 0 then bound * ((shl 1 (-shift).toNat : Int) : Rat)
    else bound / ((shl 1 shift.toNat : Int) : Rat)
  if s < 3 / 2 then (s * 2, shift - 1) else (s, shift)

/-- `src/interval_arithmetic.rs:625-684` `log`. `ln2` stands for `natural_log_of_2`, whose value
depends on the state of the constant cache. -/
def log (ln2 : Nat → DFI) (a : DFI) : Option DFI :=
  if ¬ 0 < a.lo then none
  else if a.hi < a.lo then none
  else do
    let w := a.log2Denom + 16
    let l ← Algebraics.floorLog2 a.lo
    let h ← Algebraics.floorLog2 a.hi
    let (sl, shl) := logShift a.lowerBound ((l : Int) - a.log2Denom)
    let (sh, shh) := logShift a.upperBound ((h : Int) - a.log2Denom)
    let r ← fromIntRange shl shh w
    let r := r.mul (ln2 w)
    let cl ← (fromRatio ((sl + 1) / (sl - 1)) w).logCore
    let ch ← (fromRatio ((sh + 1) / (sh - 1)) w).logCore
    return (r.add (cl.union ch)).convertLog2Denom a.log2Denom

/-- the closure of `src/interval_arithmetic.rs:690-700`, for one end. -/
def expExtraBits (shortLn2Lo v : Int) : Nat := if 0 < v then (v.fdiv shortLn2Lo).toNat else 0

/-- the loop of `src/interval_arithmetic.rs:721-729` (`none` = the assertion fails). -/
def expLoop (x : DFI) : (count i : Nat) → (term ret : DFI) → Option DFI
  | 0, _, _, ret => some ret
  | count + 1, i, term, ret => do
    let term ← (term.mul x).divInt i
    let ret := ret.add term
    if term.hi = 1 ∨ term.hi = 0 then
      if term.lo = 0 then some ret else none
    else expLoop x count (i + 1) term ret

/-- `src/interval_arithmetic.rs:685-759` `into_exp`; `ln2` stands for `natural_log_of_2`.
`div_mod_floor` is `Int.fdiv`/`Int.fmod`, `none` = panic (assertion or division by zero). -/
def exp (ln2 : Nat → DFI) (a : DFI) : Option DFI := do
  let n := a.log2Denom
  let a := a.convertLog2Denom (n + 10)
  let short := ln2 (n + 10)
  if short.lo = 0 then none
  else
    let extra := max (max 0 (expExtraBits short.lo a.lo)) (expExtraBits short.lo a.hi)
    let k ← floorLog2U (n + 1)
    let w := n + 32 + k * 2 + extra
    let a := a.convertLog2Denom w
    let l2 := ln2 w
    if l2.hi = 0 ∨ l2.lo = 0 then none
    else
      let ql := a.lo.fdiv l2.hi
      let qu := a.hi.fdiv l2.lo
      let x : DFI := ⟨a.lo.fmod l2.hi, a.hi.fmod l2.lo, w⟩
      let r ← expLoop x (w - 1) 1 (one w) (one w)
      let lo := if ql < 0 then shr r.lo ql.natAbs else shl r.lo ql.natAbs
      let hi := if qu < 0 then -shr (-r.hi) qu.natAbs else shl r.hi qu.natAbs
      return (⟨lo, hi, r.log2Denom⟩ : DFI).convertLog2Denom n

end DFI
end Algebraics
