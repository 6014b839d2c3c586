import Mathlib.Data.Rat.Defs
import Mathlib.Algebra.Order.Ring.Rat
import Verif.Model.Interval
import Verif.Model.Poly

/-!
# Quadratic numbers (`/repo/src/quadratic_numbers.rs`)

`BigInt` is `ℤ`, `BigRational` is `ℚ`. `Option`'s `none` is a panic unless the comment says otherwise.
Assertions that only run in debug builds are left out, except where the comment says otherwise. Not
modelled: `to_f64`, and the functions whose body is `unimplemented!()` (`checked_rem`, `checked_mul`,
`checked_div`, `abs_sub`, `from_str_radix`).
-/

namespace Algebraics

/-- `src/quadratic_numbers.rs:24-29` `QuadraticPolynomial<BigInt>`. Also
`src/quadratic_numbers.rs:98-101` `RealQuadraticNumber`, a wrapper around it. -/
structure Quad where
  constantTerm : ℤ
  linearTerm : ℤ
  quadraticTerm : ℤ
  deriving DecidableEq, Repr

namespace Quad

/-- `src/quadratic_numbers.rs:63-71` `discriminant`. -/
def discriminant (p : Quad) : ℤ :=
  p.linearTerm * p.linearTerm - p.quadraticTerm * p.constantTerm * 4

/-- `src/quadratic_numbers.rs:37-46` `Neg for QuadraticPolynomial`, `src/quadratic_numbers.rs:72-83`
`swapped_roots`. -/
def swappedRoots (p : Quad) : Quad := ⟨-p.constantTerm, -p.linearTerm, -p.quadraticTerm⟩

/-- `src/quadratic_numbers.rs:31-35` the conversion to `Polynomial`. -/
def toPoly (p : Quad) : Poly ℤ := Poly.ofCoeffs [p.constantTerm, p.linearTerm, p.quadraticTerm]

/-- `src/quadratic_numbers.rs:306-314` `from_negated_integer`. -/
def fromNegatedInteger (v : ℤ) : Quad := ⟨v, 1, 0⟩

/-- `src/quadratic_numbers.rs:315-317` `from_integer`, and the conversions of
`src/quadratic_numbers.rs:143-166`. -/
def fromInteger (v : ℤ) : Quad := fromNegatedInteger (-v)

/-- `src/quadratic_numbers.rs:103-113` `default`. -/
def default : Quad := ⟨0, 1, 0⟩

/-- `src/quadratic_numbers.rs:121-130` `is_zero`. -/
def isZero (x : Quad) : Bool := x.constantTerm = 0 ∧ x.linearTerm = 1 ∧ x.quadraticTerm = 0

/-- `src/quadratic_numbers.rs:132-141` `is_one`. -/
def isOne (x : Quad) : Bool := x.constantTerm = -1 ∧ x.linearTerm = 1 ∧ x.quadraticTerm = 0

/-- `src/quadratic_numbers.rs:318-326` `from_negated_reduced_ratio`. -/
def fromNegatedReducedRatio (n d : ℤ) : Quad := ⟨n, d, 0⟩

/-- `src/quadratic_numbers.rs:327-338` `from_negated_reduced_ratio_checked` (`none` is the error). -/
def fromNegatedReducedRatioChecked (n d : ℤ) : Option Quad :=
  if d = 0 then none else some (fromNegatedReducedRatio n d)

/-- `src/quadratic_numbers.rs:342-349` `from_ratio_non_inf`; the callers have made sure that `d` is not
zero, so the divisions do not panic. -/
def fromRatioNonInf (n d : ℤ) : Quad :=
  let gcd := Poly.intGcd n d
  let neg_gcd := -gcd
  if d < 0 then fromNegatedReducedRatio (n.tdiv gcd) (d.tdiv neg_gcd)
  else fromNegatedReducedRatio (n.tdiv neg_gcd) (d.tdiv gcd)

/-- `src/quadratic_numbers.rs:350-358` `from_ratio_checked` (`none` is the error). -/
def fromRatioChecked (n d : ℤ) : Option Quad := if d = 0 then none else some (fromRatioNonInf n d)

/-- `src/quadratic_numbers.rs:359-362` `from_ratio`, and `From<Ratio<..>>`
(`src/quadratic_numbers.rs:168-193`). -/
def fromRatio (n d : ℤ) : Option Quad := if d = 0 then none else some (fromRatioNonInf n d)

/-- `src/quadratic_numbers.rs:363-365` `is_ratio`. -/
def isRatio (x : Quad) : Bool := x.quadraticTerm = 0

/-- `src/quadratic_numbers.rs:366-368` `is_integer`. -/
def isInteger (x : Quad) : Bool := x.isRatio ∧ x.linearTerm = 1

/-- `src/quadratic_numbers.rs:369-375` `to_integer` (`none` is the result `None`). -/
def toInteger (x : Quad) : Option ℤ := if x.isInteger then some (-x.constantTerm) else none

/-- `src/quadratic_numbers.rs:376-382` `to_tuple_ratio` (`none` is the result `None`). -/
def toTupleRatio (x : Quad) : Option (ℤ × ℤ) :=
  if x.isRatio then some (-x.constantTerm, x.linearTerm) else none

/-- `src/quadratic_numbers.rs:383-386` `to_ratio` (`none` is the result `None`). Simplification: the code
uses `new_raw`, which does not bring the fraction to lowest terms; here the result is the value. -/
def toRatio (x : Quad) : Option ℚ := x.toTupleRatio.map fun p => (p.1 : ℚ) / (p.2 : ℚ)

/-- `src/quadratic_numbers.rs:387-412` `into_reduced`. -/
def intoReduced (x : Quad) : Option Quad :=
  if x.quadraticTerm = 0 then fromRatio (-x.constantTerm) x.linearTerm
  else
    let gcd := Poly.intGcd (Poly.intGcd x.constantTerm x.linearTerm) x.quadraticTerm
    let x : Quad := ⟨x.constantTerm.tdiv gcd, x.linearTerm.tdiv gcd, x.quadraticTerm.tdiv gcd⟩
    let discriminant := x.discriminant
    if discriminant < 0 then none
    else do
      let isqrt_discriminant ← DFI.bigIntSqrt discriminant
      if isqrt_discriminant * isqrt_discriminant = discriminant then
        fromRatio (-x.linearTerm + isqrt_discriminant) (2 * x.quadraticTerm)
      else some x

/-- `src/quadratic_numbers.rs:282-290` `new`: the outer `none` is a panic, the inner one the result
`None`. -/
def new (p : Quad) : Option (Option Quad) :=
  if (p.quadraticTerm = 0 ∧ p.linearTerm = 0) ∨ p.discriminant < 0 then some none
  else p.intoReduced.map some

/-- `src/quadratic_numbers.rs:211-227` `add_sub_sqrts_a_is_perfect_square`. -/
def addSubSqrtsPerfect (a b isqrt_a : ℤ) : Quad × Quad :=
  (⟨a - b, 2 * isqrt_a, 1⟩, ⟨a - b, -(2 * isqrt_a), 1⟩)

/-- `src/quadratic_numbers.rs:229-261` `add_sub_sqrts`: the outer `none` is a panic, the inner one the
error. -/
def addSubSqrts (a b : ℤ) : Option (Option (Quad × Quad)) :=
  if a < 0 then none
  else if b < 0 then none
  else do
    let isqrt_a ← DFI.bigIntSqrt a
    if isqrt_a * isqrt_a = a then return some (addSubSqrtsPerfect a b isqrt_a)
    else
      let isqrt_b ← DFI.bigIntSqrt b
      if isqrt_b * isqrt_b = a then return some (addSubSqrtsPerfect b a isqrt_b)
      else
        let isqrt_a_b ← DFI.bigIntSqrt (a * b)
        if isqrt_a_b * isqrt_a_b = a * b then
          return some (⟨2 * isqrt_a_b - (a + b), 0, 1⟩, ⟨-(2 * isqrt_a_b) - (a + b), 0, 1⟩)
        else return none

/-- `src/quadratic_numbers.rs:263-279` `add_rational_with_real_quadratic_number`. -/
def addRational (n d : ℤ) (rhs : Quad) : Option Quad :=
  intoReduced ⟨rhs.constantTerm * (d * d) - rhs.linearTerm * (d * n) + rhs.quadraticTerm * (n * n),
    rhs.linearTerm * (d * d) - 2 * rhs.quadraticTerm * (d * n),
    rhs.quadraticTerm * (d * d)⟩

/-- `src/quadratic_numbers.rs:413-432` `checked_add`: the outer `none` is a panic (also
`unimplemented!()`), the inner one the error. -/
def checkedAdd (x y : Quad) : Option (Option Quad) :=
  match x.toTupleRatio with
  | some (n, d) => (addRational n d y).map some
  | none =>
    match y.toTupleRatio with
    | some (n, d) => (addRational n d x).map some
    | none =>
      match addSubSqrts (x.discriminant * |y.quadraticTerm| * 2) (y.discriminant * |x.quadraticTerm| * 2) with
      | none => none
      | some none => some none
      | some (some _) => none

/-- `src/quadratic_numbers.rs:465-472` `neg`. -/
def neg (x : Quad) : Quad := ⟨-x.constantTerm, x.linearTerm, -x.quadraticTerm⟩

/-- `src/quadratic_numbers.rs:433-435` `checked_sub`. -/
def checkedSub (x y : Quad) : Option (Option Quad) := x.checkedAdd y.neg

/-- `src/quadratic_numbers.rs:436-444` `checked_recip`: the outer `none` is the panic of
`unimplemented!()`, the inner one the error. -/
def checkedRecip (x : Quad) : Option (Option Quad) :=
  if x.isRatio then some (fromNegatedReducedRatioChecked x.linearTerm x.constantTerm) else none

/-- `src/quadratic_numbers.rs:511-525` `is_positive`. -/
def isPositive (x : Quad) : Bool :=
  if x.quadraticTerm = 0 then x.constantTerm < 0
  else if x.linearTerm < 0 then !(decide (x.quadraticTerm < 0))
  else x.constantTerm < 0

/-- `src/quadratic_numbers.rs:526-532` `is_negative`. -/
def isNegative (x : Quad) : Bool := if x.isZero then false else !x.isPositive

/-- `src/quadratic_numbers.rs:491-497` `abs`. -/
def abs (x : Quad) : Quad := if x.isNegative then x.neg else x

/-- `src/quadratic_numbers.rs:501-510` `signum`. -/
def signum (x : Quad) : Quad :=
  if x.isZero then fromInteger 0 else if x.isPositive then fromInteger 1 else fromInteger (-1)

/-- `src/quadratic_numbers.rs:541-547` `PartialEq<BigRational>`. -/
def eqRat (x : Quad) (q : ℚ) : Bool := x.isRatio ∧ x.linearTerm = q.den ∧ -x.constantTerm = q.num

/-- `src/quadratic_numbers.rs:571-592` `lt` with a `BigRational`. -/
def ltRat (x : Quad) (q : ℚ) : Bool :=
  match x.toRatio with
  | some l => l < q
  | none =>
    if x.quadraticTerm < 0 then
      if x.linearTerm * q.den < 2 * |x.quadraticTerm| * q.num then true
      else x.constantTerm * q.den * q.den >
        -q.num * (x.quadraticTerm * q.num + x.linearTerm * q.den)
    else if x.linearTerm * q.den > -2 * |x.quadraticTerm| * q.num then
      x.constantTerm * q.den * q.den > -q.num * (x.quadraticTerm * q.num + x.linearTerm * q.den)
    else false

/-- `src/quadratic_numbers.rs:562-570` `partial_cmp` with a `BigRational` (always `Some`). -/
def cmpRat (x : Quad) (q : ℚ) : Ordering :=
  match x.toRatio with
  | some l => compare l q
  | none => if x.ltRat q then .lt else .gt

/-- `src/quadratic_numbers.rs:596-607` `p_plus_sqrt_r_all_over_q_less_than_zero`. -/
def sqrtTest (p r q : ℤ) : Bool :=
  if 0 < q then r < p * p ∧ ¬ r < 0 ∧ ¬ 0 < p
  else if 0 < p then ¬ r < 0
  else r > p * p

/-- the first three arms of the `match` of `src/quadratic_numbers.rs:619-693` `quadratic_less_than`
(the arm for two negative leading coefficients is never taken after the recursion). -/
def lessArms (x y : Quad) : Bool :=
  let a1 := x.quadraticTerm
  let b1 := x.linearTerm
  let c1 := x.constantTerm
  let a2 := y.quadraticTerm
  let b2 := y.linearTerm
  let c2 := y.constantTerm
  if ¬ a1 < 0 then
    if ¬ a2 < 0 then
      let p := b2 * a1 - b1 * a2
      let r := (b1 * b1 - 4 * a1 * c1) * (a2 * a2)
      if sqrtTest p r a1 then true
      else
        let r2n := (b2 * b2 - 4 * a2 * c2) * (a1 * a1) - r - p * p
        let r2d := 2 * p
        if p < 0 then (if 0 < r2n then true else r * (r2d * r2d) > r2n * r2n)
        else (if r2n < 0 then false else r * (r2d * r2d) < r2n * r2n)
    else
      let d1 := b1 * b1 - 4 * a1 * c1
      let p := b1 * a2 - b2 * a1
      let r := (b2 * b2 - 4 * a2 * c2) * (a1 * a1)
      if sqrtTest p r a2 then false
      else
        let r2n := d1 * (a2 * a2) - p * p - r
        let r2d := 2 * p
        if 0 < p then (if r2n < 0 then true else r * r2d * r2d > r2n * r2n)
        else (if 0 < r2n then false else r * r2d * r2d < r2n * r2n)
  else
    let d1 := b1 * b1 - 4 * a1 * c1
    let d2 := b2 * b2 - 4 * a2 * c2
    let p := b2 * a1 - b1 * a2
    let r := d2 * (a1 * a1)
    if sqrtTest p r (-a2) then true
    else
      let r2n := d1 * (a2 * a2) - p * p - r
      let r2d := 2 * p
      if 0 < p then (if r2n < 0 then false else r * r2d * r2d < r2n * r2n)
      else (if 0 < r2n then true else r * r2d * r2d > r2n * r2n)

/-- `src/quadratic_numbers.rs:595-694` `quadratic_less_than`. -/
def less (x y : Quad) : Bool :=
  if x.quadraticTerm < 0 ∧ y.quadraticTerm < 0 then lessArms y.neg x.neg else lessArms x y

/-- `src/quadratic_numbers.rs:696-710` `cmp`. -/
def cmp (x y : Quad) : Ordering :=
  match y.toRatio with
  | some q => x.cmpRat q
  | none =>
    match x.toRatio with
    | some q => (y.cmpRat q).swap
    | none => if x = y then .eq else if x.less y then .lt else .gt

end Quad

end Algebraics
