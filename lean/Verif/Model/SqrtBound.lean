import Verif.Model.Factor

/-!
# Integers known exactly or between two neighbours

The type of the bound that ends the lifting loop.
/repo/src/polynomial/factorization_over_integers.rs lines 299-402.
-/

namespace Algebraics

/-- /repo/src/polynomial/factorization_over_integers.rs lines 299-309: either an integer, or some
number strictly between `lower_bound` and `lower_bound + 1`. -/
inductive ExactInexactInt where
  | exact (value : ℤ)
  | inexact (lowerBound : ℤ)
deriving DecidableEq

namespace ExactInexactInt

/-- `num_bigint`'s `BigInt::sqrt` (external crate): the truncated square root; it panics (`none`)
on negative numbers. -/
def bigIntSqrt (v : ℤ) : Option ℤ := if v < 0 then none else some (Nat.sqrt v.toNat)

/-- /repo/src/polynomial/factorization_over_integers.rs lines 312-314. -/
def new (value : ℤ) : ExactInexactInt := exact value

/-- /repo/src/polynomial/factorization_over_integers.rs lines 315-329; a panic of `sqrt` is
`none`. -/
def sqrt : ExactInexactInt → Option ExactInexactInt
  | exact value =>
    match bigIntSqrt value with
    | none => none
    | some s => if s * s = value then some (exact s) else some (inexact s)
  | inexact lowerBound =>
    match bigIntSqrt lowerBound with
    | none => none
    | some s => some (inexact s)

/-- /repo/src/polynomial/factorization_over_integers.rs lines 332-339 (and the owned and borrowed
forms 341-356, which call it). -/
def add : ExactInexactInt → ℤ → ExactInexactInt
  | exact value, k => exact (value + k)
  | inexact lowerBound, k => inexact (lowerBound + k)

/-- `PartialOrd<BigInt> for ExactInexactInt`:
/repo/src/polynomial/factorization_over_integers.rs lines 370-383. -/
def partialCmp : ExactInexactInt → ℤ → Option Ordering
  | exact value, rhs => some (compare value rhs)
  | inexact lowerBound, rhs => if lowerBound ≥ rhs then some .gt else some .lt

/-- `PartialOrd<ExactInexactInt> for BigInt`:
/repo/src/polynomial/factorization_over_integers.rs lines 385-389. -/
def partialCmpInt (lhs : ℤ) (rhs : ExactInexactInt) : Option Ordering :=
  (rhs.partialCmp lhs).map Ordering.swap

/-- `PartialEq<BigInt> for ExactInexactInt`:
/repo/src/polynomial/factorization_over_integers.rs lines 358-362. -/
def eqInt (lhs : ExactInexactInt) (rhs : ℤ) : Bool := lhs.partialCmp rhs == some .eq

/-- the operator `<` of Rust on `BigInt` and `ExactInexactInt`: `partial_cmp` gives `Less`. -/
def ltInt (lhs : ℤ) (rhs : ExactInexactInt) : Bool := partialCmpInt lhs rhs == some .lt

/-- `needed_modulus`: /repo/src/polynomial/factorization_over_integers.rs line 519. -/
def neededModulus (limit : ℤ) : Option ExactInexactInt :=
  match (new limit).sqrt with
  | none => none
  | some s => some (s.add 1)

end ExactInexactInt

end Algebraics
