import Verif.Model.Interval
import Verif.Model.IntervalFn
import Verif.Model.PolySturm
import Verif.Model.Factor
import Verif.Model.Util
import Verif.Lemmas.PolyDiv

/-!
# Model of `src/algebraic_numbers.rs`

A `RealAlgebraicNumber` is a polynomial with integer coefficients and an interval with dyadic end
points. Panics are `Stop.panic`. The unbounded loops (`loop`, `while`) take a bound `fuel` on the
number of turns; reaching the bound is `Stop.fuel`, so that `.ok` is only ever returned by a run that
ended by itself.

`polynomial.factor()` is called with a generator of fixed seed, so it is a function; it is the
argument `F` of the operations that need it (`factorCall` is the model of the code).

Not modelled here: `Debug`, the parser (`unimplemented!` in the code), the two infinities of
`ValueOrInfinity` (dead code), the conversions of sizes to `usize` and `i64`
(`to_usize`, `to_i64`; they are in `Model/MachineLimits.lean`).
-/

namespace Algebraics

/-- `src/interval_arithmetic.rs:259-262` (`none` = panic). -/
def DFI.setLowerBoundNumer (a : DFI) (numer : ℤ) : Option DFI :=
  if numer ≤ a.hi then some { a with lo := numer } else none

/-- `src/interval_arithmetic.rs:263-266` (`none` = panic). -/
def DFI.setUpperBoundNumer (a : DFI) (numer : ℤ) : Option DFI :=
  if a.lo ≤ numer then some { a with hi := numer } else none

/-! ## Counting sign changes -/

/-- `src/algebraic_numbers.rs:161-169` without the two infinities, which are never used. -/
inductive ValueOrZero where
  | value (q : ℚ)
  | zero

/-- `src/algebraic_numbers.rs:183-187`. -/
structure SignChanges where
  count : ℕ
  isRoot : Bool
  deriving DecidableEq, Repr

/-- the sign of one polynomial: `src/algebraic_numbers.rs:197-210`. -/
def signAt (at_ : ValueOrZero) (p : Poly ℤ) : Option Sign :=
  match at_ with
  | .value q => Sign.new (p.evalGeneric (· * ·) (fun (v : ℚ) (c : ℤ) => v + c) q 0)
  | .zero => Sign.new (p.coefficient 0)

/-- the loop of `src/algebraic_numbers.rs:196-219`; `lastSign` and the record are its state. -/
def signChangesLoop (sign : Poly ℤ → Option Sign) :
    List (Poly ℤ) → Option Sign → SignChanges → SignChanges
  | [], _, r => r
  | p :: ps, lastSign, r =>
    match sign p with
    | some s =>
      signChangesLoop sign ps (some s)
        (if lastSign ≠ some s then { r with count := r.count + 1 } else r)
    | none =>
      signChangesLoop sign ps lastSign
        (if lastSign = none then { r with isRoot := true } else r)

/-- `src/algebraic_numbers.rs:189-224` `sign_changes_at`. -/
def signChangesAt (sturmSequence : List (Poly ℤ)) (at_ : ValueOrZero) : SignChanges :=
  signChangesLoop (signAt at_) sturmSequence none ⟨0, false⟩

/-- `src/algebraic_numbers.rs:310-316`. -/
def distance (a b : ℕ) : ℕ := if a < b then b - a else a - b

/-! ## Shrinking the isolating interval -/

/-- `src/algebraic_numbers.rs:226-231` and `318-323`: the interval, the cached sign changes at its two
ends, and the sequence. The borrowed minimal polynomial is never read by the shrinker. -/
structure Shrinker where
  seq : List (Poly ℤ)
  interval : DFI
  lower : Option SignChanges
  upper : Option SignChanges
  deriving DecidableEq

/-- `src/algebraic_numbers.rs:325-329`. -/
inductive ShrinkResult where
  | exact
  | range
  deriving DecidableEq, Repr

namespace Shrinker

/-- `src/algebraic_numbers.rs:331-353` `new` (`none` = panic in the Sturm sequence). -/
def new (p : Poly ℤ) (interval : DFI) : Option Shrinker :=
  (p.primitiveSturmSequence Poly.intGcd).map fun seq => ⟨seq, interval, none, none⟩

/-- `src/algebraic_numbers.rs:261-270` with `get_sign_changes_helper` (`242-260`): the value; the
updated cache is written by `shrink`. -/
def lowerSignChanges (s : Shrinker) : SignChanges :=
  s.lower.getD (signChangesAt s.seq (.value s.interval.lowerBound))

/-- `src/algebraic_numbers.rs:271-280` with `get_sign_changes_helper` (`242-260`). -/
def upperSignChanges (s : Shrinker) : SignChanges :=
  s.upper.getD (signChangesAt s.seq (.value s.interval.upperBound))

/-- `src/algebraic_numbers.rs:281-286` `set_to_dyadic_fraction`. -/
def setToDyadicFraction (s : Shrinker) (numer : ℤ) (sc : SignChanges) : Shrinker :=
  { s with interval := DFI.fromDyadicFraction numer s.interval.log2Denom
           lower := some sc
           upper := some sc }

/-- `src/algebraic_numbers.rs:287-290` `set_lower_bound` (`none` = panic). -/
def setLowerBound (s : Shrinker) (numer : ℤ) (sc : SignChanges) : Option Shrinker :=
  (s.interval.setLowerBoundNumer numer).map fun i => { s with interval := i, lower := some sc }

/-- `src/algebraic_numbers.rs:291-294` `set_upper_bound` (`none` = panic). -/
def setUpperBound (s : Shrinker) (numer : ℤ) (sc : SignChanges) : Option Shrinker :=
  (s.interval.setUpperBoundNumer numer).map fun i => { s with interval := i, upper := some sc }

/-- the halving of `src/algebraic_numbers.rs:396-422`, after the two ends have been looked at; `/` of
`BigInt` truncates towards zero. -/
def halve (s : Shrinker) (lowerChanges upperChanges : SignChanges) :
    Option (Shrinker × ShrinkResult) :=
  let middleNumer := (s.interval.lo + s.interval.hi).tdiv 2
  let middle : ℚ := (middleNumer : ℚ) / (shl 1 s.interval.log2Denom : ℤ)
  let middleChanges := signChangesAt s.seq (.value middle)
  if middleChanges.isRoot then some (s.setToDyadicFraction middleNumer middleChanges, .exact)
  else if middleChanges.count = lowerChanges.count then
    (s.setLowerBound middleNumer middleChanges).map (·, .range)
  else if middleChanges.count = upperChanges.count then
    (s.setUpperBound middleNumer middleChanges).map (·, .range)
  else none

/-- `src/algebraic_numbers.rs:368-422`: the interval is not a point and has been refined. -/
def shrinkRefined (s : Shrinker) : Option (Shrinker × ShrinkResult) :=
  let lowerChanges := s.lowerSignChanges
  let s := { s with lower := some lowerChanges }
  if lowerChanges.isRoot then (s.setUpperBound s.interval.lo lowerChanges).map (·, .exact)
  else
    let upperChanges := s.upperSignChanges
    let s := { s with upper := some upperChanges }
    if upperChanges.isRoot then (s.setLowerBound s.interval.hi upperChanges).map (·, .exact)
    else if distance lowerChanges.count upperChanges.count = 1 then s.halve lowerChanges upperChanges
    else none

/-- `src/algebraic_numbers.rs:354-424` `shrink` (`none` = one of the assertions fails). -/
def shrink (s : Shrinker) : Option (Shrinker × ShrinkResult) :=
  let rangeSize := s.interval.hi - s.interval.lo
  if rangeSize < 0 then none
  else if rangeSize = 0 then some (s, .exact)
  else if rangeSize < 16 then
    shrinkRefined { s with interval := s.interval.convertLog2Denom (s.interval.log2Denom + 1) }
  else shrinkRefined s

end Shrinker

/-- `src/algebraic_numbers.rs:42-46` and `91-94`. -/
structure RealAlg where
  poly : Poly ℤ
  interval : DFI
  deriving DecidableEq

namespace RealAlg

/-! ## Conversions and accessors -/

/-- `src/algebraic_numbers.rs:104-112` `From` an integer type. -/
def ofInt (value : ℤ) : RealAlg := ⟨Poly.ofCoeffs [-value, 1], DFI.fromInt value 0⟩

/-- `src/algebraic_numbers.rs:120-135` `From` a ratio. -/
def ofRat (value : ℚ) : RealAlg :=
  if value.den = 1 then ofInt value.num
  else ⟨Poly.ofCoeffs [-value.num, (value.den : ℤ)], DFI.fromRatio value 0⟩

/-- `src/algebraic_numbers.rs:1121-1130` `zero`. -/
def zero : RealAlg := ofInt 0

/-- `src/algebraic_numbers.rs:1121-1125, 1137-1140` `one`. -/
def one : RealAlg := ofInt 1

/-- `src/algebraic_numbers.rs:1121-1125`, `661-663` `negative_one`. -/
def negativeOne : RealAlg := ofInt (-1)

/-- `src/algebraic_numbers.rs:1131-1134` `is_zero`. -/
def isZero (a : RealAlg) : Bool := decide (a.poly = zero.poly)

/-- `src/algebraic_numbers.rs:1141-1144` `is_one`. -/
def isOne (a : RealAlg) : Bool := decide (a.poly = one.poly)

/-- `src/algebraic_numbers.rs:667-669` `is_negative_one`. -/
def isNegativeOne (a : RealAlg) : Bool := decide (a.poly = negativeOne.poly)

/-- `src/algebraic_numbers.rs:451-455` `degree`: panics for the zero polynomial. -/
def degree (a : RealAlg) : Except Stop ℕ := orPanic a.poly.degree

/-- `src/algebraic_numbers.rs:457-459` `is_rational`. -/
def isRational (a : RealAlg) : Except Stop Bool := do
  let d ← a.degree
  return decide (d ≤ 1)

/-- `src/algebraic_numbers.rs:460-462` `is_integer`. -/
def isInteger (a : RealAlg) : Except Stop Bool := do
  let r ← a.isRational
  return r && decide (a.poly.coefficient 1 = 1)

/-- `src/algebraic_numbers.rs:463-472` `to_rational`: `Ratio::new_raw` keeps numerator and denominator
as they are. -/
def toRationalRaw (a : RealAlg) : Except Stop (Option (ℤ × ℤ)) := do
  let r ← a.isRational
  return if r then some (-a.poly.coefficient 0, a.poly.coefficient 1) else none

/-- the value of the ratio returned by `to_rational`, for polynomials of degree one (a constant polynomial is
not a number; the code would return a ratio with denominator zero). That the raw parts are the reduced numerator and
denominator is theorem `C39_to_rational_reduced`. -/
def toRational (a : RealAlg) : Except Stop (Option ℚ) := do
  let r ← a.toRationalRaw
  return r.map fun p => (p.1 : ℚ) / (p.2 : ℚ)

/-- `src/algebraic_numbers.rs:473-479` `to_integer`. -/
def toInteger (a : RealAlg) : Except Stop (Option ℤ) := do
  let r ← a.isInteger
  return if r then some (-a.poly.coefficient 0) else none

/-- `src/algebraic_numbers.rs:484-490` `interval_shrinker`. The shrinker mutates the interval of the
number: callers that go on using the number read the interval back from the shrinker. -/
def intervalShrinker (a : RealAlg) : Except Stop Shrinker :=
  orPanic (Shrinker.new a.poly a.interval)

/-! ## Negation -/

/-- `src/algebraic_numbers.rs:858-891` `neg`. -/
def neg (a : RealAlg) : Except Stop RealAlg := do
  let d ← a.degree
  let cs := a.poly.coeffs.mapIdx fun index c => if index % 2 = d % 2 then c else -c
  return ⟨Poly.ofCoeffs cs, a.interval.neg⟩

/-! ## Sign -/

/-- the last branch of `cmp_with_zero`: `src/algebraic_numbers.rs:564-587`. -/
def cmpWithZeroSturm (a : RealAlg) : Except Stop Ordering := do
  let seq ← orPanic (a.poly.primitiveSturmSequence Poly.intGcd)
  let lower := signChangesAt seq (.value a.interval.lowerBound)
  let upper := signChangesAt seq (.value a.interval.upperBound)
  let zero := signChangesAt seq .zero
  if lower.isRoot || upper.isRoot || zero.isRoot then .error .panic
  else if lower.count = zero.count then return .gt
  else if upper.count = zero.count then return .lt
  else .error .panic

/-- `src/algebraic_numbers.rs:555-589` `cmp_with_zero`. -/
def cmpWithZero (a : RealAlg) : Except Stop Ordering :=
  if a.isZero then return .eq
  else if 0 < a.interval.lo then return .gt
  else if a.interval.hi < 0 then return .lt
  else do
    match ← a.toRational with
    | some v => return compare v 0
    | none => a.cmpWithZeroSturm

/-- `src/algebraic_numbers.rs:1240-1242` `is_positive`. -/
def isPositive (a : RealAlg) : Except Stop Bool := do
  let o ← a.cmpWithZero
  return decide (o = .gt)

/-- `src/algebraic_numbers.rs:1244-1246` `is_negative`. -/
def isNegative (a : RealAlg) : Except Stop Bool := do
  let o ← a.cmpWithZero
  return decide (o = .lt)

/-- `src/algebraic_numbers.rs:1210-1216` `abs`. -/
def abs (a : RealAlg) : Except Stop RealAlg := do
  if ← a.isNegative then a.neg else return a

/-- `src/algebraic_numbers.rs:1232-1238` `signum`. -/
def signum (a : RealAlg) : Except Stop RealAlg := do
  match ← a.cmpWithZero with
  | .eq => return zero
  | .gt => return one
  | .lt => one.neg

/-! ## Floor, ceiling, truncation -/

/-- the loop of `src/algebraic_numbers.rs:496-503` (and `526-533`): shrink until both ends have the
same floor. -/
def floorLoop : ℕ → Shrinker → Except Stop (ℤ × Shrinker)
  | 0, _ => .error .fuel
  | fuel + 1, s =>
    let f := s.interval.floor 0
    if f.lo = f.hi then .ok (f.lo, s)
    else
      match s.shrink with
      | none => .error .panic
      | some (s, _) => floorLoop fuel s

/-- `src/algebraic_numbers.rs:491-512` `into_integer_floor`, `to_integer_floor`. -/
def integerFloor (fuel : ℕ) (a : RealAlg) : Except Stop ℤ := do
  match ← a.toRational with
  | some q => return ⌊q⌋
  | none =>
    let s ← a.intervalShrinker
    let r ← floorLoop fuel s
    return r.1

/-- `src/algebraic_numbers.rs:513-518` `into_floor`, `floor`. -/
def floor (fuel : ℕ) (a : RealAlg) : Except Stop RealAlg := do
  let f ← a.integerFloor fuel
  return ofInt f

/-- `src/algebraic_numbers.rs:543-548` `into_integer_ceil`, `to_integer_ceil`. -/
def integerCeil (fuel : ℕ) (a : RealAlg) : Except Stop ℤ := do
  let n ← a.neg
  let f ← n.integerFloor fuel
  return -f

/-- `src/algebraic_numbers.rs:549-554` `into_ceil`, `ceil`. -/
def ceil (fuel : ℕ) (a : RealAlg) : Except Stop RealAlg := do
  let n ← a.neg
  let f ← n.floor fuel
  f.neg

/-- `src/algebraic_numbers.rs:590-603` `into_integer_trunc`, `to_integer_trunc`. -/
def integerTrunc (fuel : ℕ) (a : RealAlg) : Except Stop ℤ := do
  match ← a.cmpWithZero with
  | .eq => return 0
  | .gt => a.integerFloor fuel
  | .lt => a.integerCeil fuel

/-- `src/algebraic_numbers.rs:604-609` `into_trunc`, `trunc`. -/
def trunc (fuel : ℕ) (a : RealAlg) : Except Stop RealAlg := do
  let t ← a.integerTrunc fuel
  return ofInt t

/-! ## Reciprocal -/

/-- the loop of `src/algebraic_numbers.rs:631-633`. -/
def removeZeroLoop : ℕ → Shrinker → Except Stop Shrinker
  | 0, _ => .error .fuel
  | fuel + 1, s =>
    if s.interval.containsZero then
      match s.shrink with
      | none => .error .panic
      | some (s, _) => removeZeroLoop fuel s
    else .ok s

/-- `src/algebraic_numbers.rs:618-629`: the bound on the far side of zero is set to zero. -/
def clipToSign (negative : Bool) (i : DFI) : Option DFI :=
  if negative then (if 0 < i.hi then i.setUpperBoundToZero else some i)
  else (if i.lo < 0 then i.setLowerBoundToZero else some i)

/-- `src/algebraic_numbers.rs:610-635` `remove_zero_from_interval`; the sign it also returns is never
used. -/
def removeZeroFromInterval (fuel : ℕ) (a : RealAlg) : Except Stop (Option Shrinker) := do
  match ← a.cmpWithZero with
  | .eq => return none
  | o =>
    let i ← orPanic (clipToSign (decide (o = .lt)) a.interval)
    let s ← intervalShrinker ⟨a.poly, i⟩
    let s ← removeZeroLoop fuel s
    return some s

/-- `src/algebraic_numbers.rs:636-656` `checked_recip`; `Ratio::recip` is the inverse. -/
def checkedRecip (fuel : ℕ) (a : RealAlg) : Except Stop (Option RealAlg) := do
  match ← a.toRational with
  | some v => return if v = 0 then none else some (ofRat v⁻¹)
  | none =>
    let r ← a.removeZeroFromInterval fuel
    let s ← orPanic r
    let i ← orPanic s.interval.checkedRecip
    return some ⟨Poly.ofCoeffs a.poly.coeffs.reverse, i⟩

/-- `src/algebraic_numbers.rs:657-660` `recip`. -/
def recip (fuel : ℕ) (a : RealAlg) : Except Stop RealAlg := do
  let r ← a.checkedRecip fuel
  orPanic r

/-! ## Binary logarithm -/

/-- `src/algebraic_numbers.rs:798-812` `to_integer_log2`. -/
def toIntegerLog2 (a : RealAlg) : Except Stop (Option ℤ) := do
  match ← a.toRationalRaw with
  | none => return none
  | some (numer, denom) =>
    if denom = 1 then
      match Algebraics.floorLog2 numer with
      | none => return none
      | some r =>
        let c ← orPanic (Algebraics.ceilLog2 numer)
        return if r = c then some (r : ℤ) else none
    else if numer = 1 then
      let r ← orPanic (Algebraics.floorLog2 denom)
      let c ← orPanic (Algebraics.ceilLog2 denom)
      return if r = c then some (-(r : ℤ)) else none
    else return none

/-- the loop of `src/algebraic_numbers.rs:830-837`. -/
def log2Loop (bounds : DFI → Option (ℤ × ℤ)) : ℕ → Shrinker → Except Stop ℤ
  | 0, _ => .error .fuel
  | fuel + 1, s =>
    match bounds s.interval with
    | none => .error .panic
    | some (l, h) =>
      if l = h then .ok l
      else
        match s.shrink with
        | none => .error .panic
        | some (s, _) => log2Loop bounds fuel s

/-- `src/algebraic_numbers.rs:813-839` `do_checked_floor_ceil_log2`. -/
def checkedFloorCeilLog2 (bounds : DFI → Option (ℤ × ℤ)) (fuel : ℕ) (a : RealAlg) :
    Except Stop (Option ℤ) := do
  if ← a.isPositive then
    match ← a.toIntegerLog2 with
    | some r => return some r
    | none =>
      let r ← a.removeZeroFromInterval fuel
      let s ← orPanic r
      let v ← log2Loop bounds fuel s
      return some v
  else return none

/-- `src/algebraic_numbers.rs:840-847` `checked_floor_log2`. -/
def checkedFloorLog2 (fuel : ℕ) (a : RealAlg) : Except Stop (Option ℤ) :=
  checkedFloorCeilLog2 DFI.floorLog2 fuel a

/-- `src/algebraic_numbers.rs:848-855` `checked_ceil_log2`. -/
def checkedCeilLog2 (fuel : ℕ) (a : RealAlg) : Except Stop (Option ℤ) :=
  checkedFloorCeilLog2 DFI.ceilLog2 fuel a

/-! ## Selecting a root of a resultant -/

/-- a call of `Polynomial::factor`. -/
abbrev FactorCall := Poly ℤ → Except Stop Poly.Factors

/-- `factor` (/repo/src/polynomial/factorization_over_integers.rs lines 658-661), with the generator of
fixed seed as the stream `rng`. -/
def factorCall (choose : ℕ → List ℕ → ℕ) (rng : ℕ → ℕ) (fuel : ℕ) : FactorCall := fun p =>
  (Poly.factor choose rng fuel 0 p).map (·.1)

/-- what one pass over the factors finds: an end point that is a root, or the number of roots left and
the factors that have them. -/
inductive Scan where
  | root (q : ℚ)
  | left (roots : ℕ) (factors : List (List (Poly ℤ)))

/-- the `for` loop of `src/algebraic_numbers.rs:998-1023`; a factor is its Sturm sequence. -/
def scan (lower upper : ℚ) : List (List (Poly ℤ)) → ℕ → List (List (Poly ℤ)) → Scan
  | [], roots, kept => .left roots kept
  | f :: fs, roots, kept =>
    let lowerChanges := signChangesAt f (.value lower)
    if lowerChanges.isRoot then .root lower
    else
      let upperChanges := signChangesAt f (.value upper)
      if upperChanges.isRoot then .root upper
      else if lowerChanges.count ≠ upperChanges.count then
        scan lower upper fs (roots + distance lowerChanges.count upperChanges.count) (kept ++ [f])
      else scan lower upper fs roots kept

/-- the `loop` of `src/algebraic_numbers.rs:991-1031`; `σ` is the state of the selector, `getInterval`
and `shrinkInterval` its two methods (`none` = panic). `factors.remove(0)` panics on the empty vector;
`into_factor` is the first element of the sequence. -/
def selectLoop {σ : Type} (getInterval : σ → Option DFI) (shrinkInterval : σ → Option σ) :
    ℕ → σ → List (List (Poly ℤ)) → Except Stop RealAlg
  | 0, _, _ => .error .fuel
  | fuel + 1, st, factors =>
    match getInterval st with
    | none => .error .panic
    | some interval =>
      match scan interval.lowerBound interval.upperBound factors 0 [] with
      | .root q => .ok (ofRat q)
      | .left roots kept =>
        if roots ≤ 1 then
          match kept with
          | [] => .error .panic
          | f :: _ => .ok ⟨f.head?.getD 0, interval⟩
        else
          match shrinkInterval st with
          | none => .error .panic
          | some st => selectLoop getInterval shrinkInterval fuel st kept

/-- `src/algebraic_numbers.rs:979-1033` `select_root`. -/
def selectRoot {σ : Type} (getInterval : σ → Option DFI) (shrinkInterval : σ → Option σ)
    (F : FactorCall) (fuel : ℕ) (st : σ) (polynomial : Poly ℤ) : Except Stop RealAlg := do
  let factors ← F polynomial
  let seqs ← orPanic
    (factors.factors.mapM fun f => f.1.primitiveSturmSequence Poly.intGcd)
  selectLoop getInterval shrinkInterval fuel st seqs

/-- `shrink_interval` of the two selectors with two operands: `src/algebraic_numbers.rs:1070-1073`,
`1310-1313`. -/
def shrinkBoth (s : Shrinker × Shrinker) : Option (Shrinker × Shrinker) :=
  match s.1.shrink with
  | none => none
  | some (l, _) =>
    match s.2.shrink with
    | none => none
    | some (r, _) => some (l, r)

/-! ## Addition and subtraction -/

/-- the polynomial with coefficients read as constant polynomials, e.g.
`src/algebraic_numbers.rs:1051-1055`. -/
def liftPoly (p : Poly ℤ) : Poly (Poly ℤ) := Poly.ofCoeffs (p.coeffs.map fun c => Poly.ofCoeffs [c])

/-- `src/algebraic_numbers.rs:922-936` `add_eval_point`: `z - X`, where `z` is the inner variable. -/
def addEvalPoint : Poly (Poly ℤ) := Poly.ofCoeffs [Poly.ofCoeffs [0, 1], Poly.ofCoeffs [-1]]

/-- `src/algebraic_numbers.rs:1056-1060` with `EvalPoint`'s operators (`939-951`). -/
def evalAtAddPoint (p : Poly ℤ) : Poly (Poly ℤ) :=
  p.evalGeneric (· * ·) (fun v c => v.addCoeff (Poly.ofCoeffs [c])) addEvalPoint 0

/-- the resultant of `src/algebraic_numbers.rs:1051-1061` (`none` = panic). -/
def addResultant (p q : Poly ℤ) : Option (Poly ℤ) :=
  Poly.resultant (liftPoly p) (evalAtAddPoint q)

/-- `src/algebraic_numbers.rs:1067-1069` `get_interval` of `AddRootSelector`. -/
def addInterval (s : Shrinker × Shrinker) : Option DFI := some (s.1.interval.add s.2.interval)

/-- `src/algebraic_numbers.rs:1035-1083` `add_assign`. -/
def add (F : FactorCall) (fuel : ℕ) (a b : RealAlg) : Except Stop RealAlg := do
  let ar ← a.toRational
  let br ← b.toRational
  match ar, br with
  | some x, some y => return ofRat (x + y)
  | _, _ =>
    if b.isZero then return a
    else if a.isZero then return b
    else
      let r ← orPanic (addResultant a.poly b.poly)
      let l ← a.intervalShrinker
      let s ← b.intervalShrinker
      selectRoot addInterval shrinkBoth F fuel (l, s) r

/-- `src/algebraic_numbers.rs:1147-1187` `sub_assign`, `sub`. -/
def sub (F : FactorCall) (fuel : ℕ) (a b : RealAlg) : Except Stop RealAlg := do
  let n ← b.neg
  a.add F fuel n

/-! ## Multiplication and division -/

/-- `src/algebraic_numbers.rs:1289-1295`: the coefficients `c_k z^k`, highest power first. -/
def mulPoly (p : Poly ℤ) : Poly (Poly ℤ) :=
  Poly.ofCoeffs (p.coeffs.mapIdx fun power c => Poly.makeMonomial c power).reverse

/-- the resultant of `src/algebraic_numbers.rs:1289-1301` (`none` = panic). -/
def mulResultant (p q : Poly ℤ) : Option (Poly ℤ) :=
  Poly.resultant (mulPoly p) (liftPoly q)

/-- `src/algebraic_numbers.rs:1307-1309` `get_interval` of `MulRootSelector`. -/
def mulInterval (s : Shrinker × Shrinker) : Option DFI := some (s.1.interval.mul s.2.interval)

/-- `src/algebraic_numbers.rs:1269-1323` `mul_assign`. -/
def mul (F : FactorCall) (fuel : ℕ) (a b : RealAlg) : Except Stop RealAlg := do
  let ar ← a.toRational
  let br ← b.toRational
  match ar, br with
  | some x, some y => return ofRat (x * y)
  | _, _ =>
    if a.isZero || b.isZero then return zero
    else if b.isOne then return a
    else if a.isOne then return b
    else
      let r ← orPanic (mulResultant a.poly b.poly)
      let l ← a.intervalShrinker
      let s ← b.intervalShrinker
      selectRoot mulInterval shrinkBoth F fuel (l, s) r

/-- `src/algebraic_numbers.rs:1361-1409` `checked_exact_div`; the inner `none` is the `None` of the
code. -/
def checkedExactDiv (F : FactorCall) (fuel : ℕ) (a b : RealAlg) : Except Stop (Option RealAlg) := do
  match ← b.checkedRecip fuel with
  | none => return none
  | some r =>
    let m ← a.mul F fuel r
    return some m

/-- `src/algebraic_numbers.rs:1411-1449` `/`: panics where the checked version gives `None`. -/
def div (F : FactorCall) (fuel : ℕ) (a b : RealAlg) : Except Stop RealAlg := do
  let r ← a.checkedExactDiv F fuel b
  orPanic r

/-- `src/algebraic_numbers.rs:1451-1491` `%`. -/
def rem (F : FactorCall) (fuel : ℕ) (a b : RealAlg) : Except Stop RealAlg := do
  let q ← a.div F fuel b
  let t ← q.trunc fuel
  let m ← t.mul F fuel b
  a.sub F fuel m

/-! ## Comparison, fractional part -/

/-- `src/algebraic_numbers.rs:1249-1253` `==`. -/
def eq (F : FactorCall) (fuel : ℕ) (a b : RealAlg) : Except Stop Bool := do
  let d ← a.sub F fuel b
  return d.isZero

/-- `src/algebraic_numbers.rs:1257-1267` `cmp`, `partial_cmp`. -/
def cmp (F : FactorCall) (fuel : ℕ) (a b : RealAlg) : Except Stop Ordering := do
  let d ← a.sub F fuel b
  d.cmpWithZero

/-- `src/algebraic_numbers.rs:1218-1225` `abs_sub`. -/
def absSub (F : FactorCall) (fuel : ℕ) (a b : RealAlg) : Except Stop RealAlg := do
  let d ← a.sub F fuel b
  if ← d.isNegative then return zero else return d

/-- `Ratio::fract` of num-rational: the remainder of the truncating division. -/
def ratFract (q : ℚ) : ℚ := (q.num.tmod q.den : ℤ) / (q.den : ℚ)

/-- `src/algebraic_numbers.rs:519-542` `into_fract`, `fract`. The number that is subtracted from has
the shrunk interval. -/
def fract (F : FactorCall) (fuel : ℕ) (a : RealAlg) : Except Stop RealAlg := do
  match ← a.toRational with
  | some q => return ofRat (ratFract q)
  | none =>
    let s ← a.intervalShrinker
    let r ← floorLoop fuel s
    sub F fuel ⟨a.poly, r.2.interval⟩ (ofInt r.1)

/-! ## Powers -/

/-- the resultant of `src/algebraic_numbers.rs:741-749` (`none` = panic). -/
def powResultant (p : Poly ℤ) (numer denom : ℕ) : Option (Poly ℤ) :=
  Poly.resultant (liftPoly p)
    ((Poly.makeMonomial (-1 : Poly ℤ) numer).addCoeff (Poly.makeMonomial (1 : ℤ) denom))

/-- `src/algebraic_numbers.rs:756-776` `get_interval` of `PowRootSelector` (`none` = panic);
`ln2` are the cached values of `log 2` that `log` and `exp` use. They ask for three different
precisions (`log` for 16 bits more than the interval has, `exp` for 10 and for at least 32 bits more), so one
function holds whatever the cache answers. -/
def powInterval (ln2 : ℕ → DFI) (exponent : ℚ) (negative : Bool) (base : Shrinker) : Option DFI := do
  let interval := base.interval.abs
  let lowerIsZero := decide (interval.lo = 0)
  if interval.hi = 0 then (if lowerIsZero then some interval else none)
  else
    let interval := if lowerIsZero then interval.setToUpperBound else interval
    let interval ← interval.log ln2
    let interval ← (interval.mulRatio exponent).exp ln2
    let interval ← if lowerIsZero then interval.setLowerBoundToZero else some interval
    return if negative then interval.neg else interval

/-- `get_interval` of `PowRootSelector`, with the number of turns so far: another thread can change the cache
of `log 2` between two turns, so every turn `t` has its own cached values `ln2 t`. -/
def powGetInterval (ln2 : ℕ → ℕ → DFI) (exponent : ℚ) (negative : Bool) (s : Shrinker × ℕ) : Option DFI :=
  powInterval (ln2 s.2) exponent negative s.1

/-- `src/algebraic_numbers.rs:777-779` `shrink_interval` of `PowRootSelector`; the turn is counted. -/
def powShrink (s : Shrinker × ℕ) : Option (Shrinker × ℕ) := (s.1.shrink).map fun r => (r.1, s.2 + 1)

/-- the general case of `checked_pow_impl`: `src/algebraic_numbers.rs:736-788`; the exponent is
`± numer / denom`. -/
def powGeneral (ln2 : ℕ → ℕ → DFI) (F : FactorCall) (fuel : ℕ) (base : RealAlg) (exponentNegative : Bool)
    (numer denom : ℕ) (resultNegative : Bool) : Except Stop RealAlg := do
  let base ← if exponentNegative then base.recip fuel else .ok base
  let r ← orPanic (powResultant base.poly numer denom)
  let s ← base.intervalShrinker
  selectRoot (powGetInterval ln2 ((numer : ℚ) / denom) resultNegative) powShrink F fuel (s, 0) r

/-- `Ratio::new(numer.pow(n), denom.pow(n))`, swapped for a negative exponent:
`src/algebraic_numbers.rs:726-734`. -/
def ratPow (q : ℚ) (exponentNegative : Bool) (n : ℕ) : ℚ :=
  if exponentNegative then ((q.den : ℚ) ^ n) / ((q.num : ℚ) ^ n)
  else ((q.num : ℚ) ^ n) / ((q.den : ℚ) ^ n)

/-- `src/algebraic_numbers.rs:703-788`: the part of `checked_pow_impl` after the special bases.
Simplification: the panics of `to_usize().expect(..)` for a numerator or denominator of the exponent
that does not fit into a `usize` are left out. -/
def powTail (ln2 : ℕ → ℕ → DFI) (F : FactorCall) (fuel : ℕ) (base : RealAlg) (exponent : ℚ) :
    Except Stop (Option RealAlg) := do
  let baseIsNegative ← base.isNegative
  if baseIsNegative && decide (exponent.den ≠ 1) then return none
  else
    let resultNegative := baseIsNegative && decide (exponent.num % 2 ≠ 0)
    let exponentNegative := decide (exponent < 0)
    let numer := exponent.num.natAbs
    let denom := exponent.den
    let general := do
      let r ← powGeneral ln2 F fuel base exponentNegative numer denom resultNegative
      return some r
    if denom = 1 then
      match ← base.toRational with
      | some q => return some (ofRat (ratPow q exponentNegative numer))
      | none => general
    else general

/-- `src/algebraic_numbers.rs:670-796` `checked_pow_impl`, `checked_pow`, `checked_into_pow`. -/
def checkedPow (ln2 : ℕ → ℕ → DFI) (F : FactorCall) (fuel : ℕ) (base : RealAlg) (exponent : ℚ) :
    Except Stop (Option RealAlg) :=
  if exponent = 0 then return (if base.isZero then none else some one)
  else if exponent = 1 then return some base
  else if exponent = -1 then base.checkedRecip fuel
  else if base.isZero then return (if exponent < 0 then none else some zero)
  else if base.isOne then return some one
  else if base.isNegativeOne then
    return (if exponent.den = 1 then
      (if exponent.num % 2 ≠ 0 then some negativeOne else some one) else none)
  else powTail ln2 F fuel base exponent

end RealAlg

end Algebraics
