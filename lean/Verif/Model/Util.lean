import Verif.Model.PrimeTable
import Verif.Model.Traits
import Mathlib.Data.Nat.Sqrt
import Mathlib.Data.Nat.Log
import Mathlib.Algebra.Order.Ring.Defs

/-!
Model of `/repo/src/util.rs`: the prime table and the functions built on it, the subset
enumeration used by factoring, and `Sign`.

Machine integers are natural numbers here; every arithmetic step that could leave `u32` (or `i32`)
is checked and yields `none` (the panic of a debug build), so that the theorems also say that no
step overflows.  A loop without a syntactic bound takes fuel; running out of fuel also gives `none`.
-/

namespace Algebraics

/-! ## Primes -/

/-- The loop of `is_prime_u32` (/repo/src/util.rs lines 510-521) over the entries of the table. -/
def isPrimeU32Loop (v : ℕ) : List ℕ → Option Bool
  | [] => some true
  | prime :: rest =>
    if v = prime then some true
    else if v % prime = 0 then some false
    else if 2 ^ 32 ≤ prime * prime then none
    else if v < prime * prime then some true
    else isPrimeU32Loop v rest

/-- `is_prime_u32` (/repo/src/util.rs lines 506-523). -/
def isPrimeU32 (v : ℕ) : Option Bool :=
  if v ≤ 1 then some false else isPrimeU32Loop v primesThatFitInU16

/-- The loop of `prev_prime_u32` (/repo/src/util.rs lines 534-536); `fuel` bounds the iterations. -/
def prevPrimeLoop : ℕ → ℕ → Option ℕ
  | 0, _ => none
  | fuel + 1, v =>
    match isPrimeU32 v with
    | none => none
    | some true => some v
    | some false => if v < 2 then none else prevPrimeLoop fuel (v - 2)

/-- `prev_prime_u32` (/repo/src/util.rs lines 525-538).  The outer option is the panic. -/
def prevPrimeU32 (v : ℕ) : Option (Option ℕ) :=
  if v ≤ 2 then some none
  else if v = 3 then some (some 2)
  else (prevPrimeLoop v ((v ||| 1) - 2)).map some

/-- `prev_prime_i32` (/repo/src/util.rs lines 540-546).  The `as` casts are exact because the
result is below the argument. -/
def prevPrimeI32 (v : ℤ) : Option (Option ℤ) :=
  if v < 0 then some none
  else (prevPrimeU32 v.toNat).map (Option.map Int.ofNat)

/-- The loop of `next_prime_u32` (/repo/src/util.rs lines 560-562); `fuel` bounds the iterations. -/
def nextPrimeLoop : ℕ → ℕ → Option ℕ
  | 0, _ => none
  | fuel + 1, v =>
    match isPrimeU32 v with
    | none => none
    | some true => some v
    | some false => if 2 ^ 32 ≤ v + 2 then none else nextPrimeLoop fuel (v + 2)

/-- `next_prime_u32` (/repo/src/util.rs lines 548-564). -/
def nextPrimeU32 (v : ℕ) : Option (Option ℕ) :=
  if v < 3 then some (some 3)
  else if 4294967291 ≤ v then some none
  else (nextPrimeLoop (2 ^ 32 - v) (if v % 2 = 0 then v + 1 else v + 2)).map some

/-- The cast `v as i32` of a `u32` (two's complement). -/
def castI32 (v : ℕ) : ℤ := if v < 2 ^ 31 then v else (v : ℤ) - 2 ^ 32

/-- `next_prime_i32` (/repo/src/util.rs lines 566-574). -/
def nextPrimeI32 (v : ℤ) : Option (Option ℤ) :=
  if 2147483647 ≤ v then some none
  else (nextPrimeU32 (max v 0).toNat).map (Option.map castI32)

/-! ## Pseudo-primes -/

/-- The loop of `is_prime_check_small_divisors` (/repo/src/util.rs lines 581-592).  The outer
option of the result is the `None` of the code: undecided. -/
def smallDivisorsLoop (v : ℕ) : List ℕ → Option Bool
  | [] => none
  | prime :: rest =>
    if v = prime then some true
    else if v % prime = 0 then some false
    else if v < prime * prime then some true
    else smallDivisorsLoop v rest

/-- `is_prime_check_small_divisors` (/repo/src/util.rs lines 576-594). -/
def isPrimeCheckSmallDivisors (v : ℕ) : Option Bool :=
  if v ≤ 1 then some false else smallDivisorsLoop v (primesThatFitInU16.take 100)

/-- `is_pseudo_prime_miller_rabin_test_for_base` (/repo/src/util.rs lines 596-611).  The final
`unimplemented!()` is the panic `none`; the squarings before it have no effect. -/
def millerRabinTestForBase (n d base : ℕ) : Option Bool :=
  let x := base ^ d % n
  if x = 1 ∨ n - x = 1 then some false else none

/-- The loop over the bases (/repo/src/util.rs lines 654-663): `some (some b)` is `return b`. -/
def millerRabinLoop (n d : ℕ) : List ℕ → Option (Option Bool)
  | [] => some none
  | base :: rest =>
    match millerRabinTestForBase n d base with
    | none => none
    | some false => some (some false)
    | some true => millerRabinLoop n d rest

/-- The part of `is_pseudo_prime` after the small divisors (/repo/src/util.rs lines 643-674). -/
def isPseudoPrimeTail (n : ℕ) : Option Bool :=
  match trailingZerosU (n - 1) with
  | none => none
  | some r =>
    let d := (n - 1) / 2 ^ r
    match millerRabinLoop n d (primesThatFitInU16.take 13) with
    | none => none
    | some (some b) => some b
    | some none =>
      if n < 2 ^ 64 then some true
      else if n < 3317044064679887385961981 then some true
      else none

/-- `IsPseudoPrime::is_pseudo_prime` (/repo/src/util.rs lines 626-675) for a type that can hold
every natural number (`BigInt`, `BigUint`; for a machine type the values in range). -/
def isPseudoPrime (n : ℕ) : Option Bool :=
  if n ≤ 1 then some false
  else if Nat.sqrt n * Nat.sqrt n = n then some false
  else if n < 2 ^ 128 then
    match isPrimeCheckSmallDivisors n with
    | some b => some b
    | none => isPseudoPrimeTail n
  else if primesThatFitInU16.any (fun prime => n % prime == 0) then some false
  else isPseudoPrimeTail n

/-- What a run of the first loop over `powers` ends with. -/
inductive PowersResult where
  /-- `return Ok(..)` with this exponent -/
  | found (exponent : ℕ)
  /-- the loop ended; `powers` (last first) and `exponent` -/
  | done (powers : List ℕ) (exponent : ℕ)
  /-- the assertion "underestimated powers_len" failed -/
  | panic

/-- The first loop (/repo/src/util.rs lines 723-741), `i` counting up to `len`; `powers` is kept
with its last entry first. -/
def powersLoop (n len : ℕ) : ℕ → ℕ → List ℕ → ℕ → PowersResult
  | 0, _, powers, exponent => .done powers exponent
  | _ + 1, _, [], _ => .panic
  | k + 1, i, p :: powers, exponent =>
    let power := p * p
    let exponent := exponent * 2
    if n < power then .done (p :: powers) exponent
    else if n = power then .found exponent
    else if i < len - 1 then powersLoop n len k (i + 1) (power :: p :: powers) exponent
    else .panic

/-- The second loop (/repo/src/util.rs lines 742-758); `powers` has its last entry first, so the
head has index `powers.length - 1`.  `none` is the final `unreachable!`. -/
def exponentLoop (n : ℕ) : List ℕ → ℕ → ℕ → Option ℕ
  | [], _, _ => none
  | p :: powers, power, exponent =>
    let currentPower := p * power
    let currentExponent := exponent ||| 2 ^ powers.length
    if n < currentPower then exponentLoop n powers currentPower currentExponent
    else if n = currentPower then some currentExponent
    else exponentLoop n powers power exponent

/-- The body of the loop over the small primes once one divides (/repo/src/util.rs lines
704-759). -/
def primePowerFound (n maxPower prime : ℕ) : Option (Option (ℕ × ℕ)) :=
  let powersLen := Nat.log 2 maxPower + 1
  if n = prime then some (some (prime, 1))
  else
    match powersLoop n powersLen (powersLen - 1) 1 [prime] 1 with
    | .panic => none
    | .found e => some (some (prime, e))
    | .done [] _ => none
    | .done (power :: powers) e => (exponentLoop n powers power e).map fun e => some (prime, e)

/-- The loop over the small primes (/repo/src/util.rs lines 701-761); at its end the code is
`unimplemented!`. -/
def primePowerLoop (n maxPower : ℕ) : List ℕ → Option (Option (ℕ × ℕ))
  | [] => none
  | prime :: rest =>
    if n % prime = 0 then primePowerFound n maxPower prime else primePowerLoop n maxPower rest

/-- `IsPseudoPrimePower::is_pseudo_prime_power` (/repo/src/util.rs lines 695-769).  Outer `none` is
a panic, inner `none` is `Err(NotAPseudoPrimePower)`, the pair is base and exponent. -/
def isPseudoPrimePower (n : ℕ) : Option (Option (ℕ × ℕ)) :=
  if n = 0 then some none
  else if Nat.log 2 n = 0 then some none
  else primePowerLoop n (Nat.log 2 n) (primesThatFitInU16.take 100)

/-! ## Subsets -/

/-- A `for` loop whose body may break with a value (state passing for the `FnMut` callback). -/
def forUntilBreak {σ τ ι : Type*} (body : ι → σ → σ × Option τ) : List ι → σ → σ × Option τ
  | [], s => (s, none)
  | i :: rest, s =>
    match body i s with
    | (s', some t) => (s', some t)
    | (s', none) => forUntilBreak body rest s'

/-- The inner `helper` of `for_subsets_of_size` (/repo/src/util.rs lines 1044-1072).  `prefix` is
the part of `subset_indexes` that is already filled in and the number is how many entries are left
(the code keeps both in one mutable slice and an index). -/
def subsetsHelper {σ τ : Type*} (callback : List ℕ → σ → σ × Option τ) :
    ℕ → List ℕ → ℕ → ℕ → σ → σ × Option τ
  | 0, pre, _, _, s => callback pre s
  | left + 1, pre, start, stop, s =>
    if left + 1 ≤ stop then
      forUntilBreak
        (fun index s => subsetsHelper callback left (pre ++ [index]) (index + 1) stop s)
        (List.range' start (stop - (left + 1) + 1 - start)) s
    else (s, none)

/-- `for_subsets_of_size` (/repo/src/util.rs lines 1036-1074).  The callback is a function on a
state `σ`, the state being what the Rust closure captures; `none` is `Continue`. -/
def forSubsetsOfSize {σ τ : Type*} (callback : List ℕ → σ → σ × Option τ) (size start stop : ℕ)
    (s : σ) : σ × Option τ :=
  if stop ≤ start ∨ stop - start < size then (s, none)
  else subsetsHelper callback size [] start stop s

/-! ## Sign -/

/-- `Sign` (/repo/src/util.rs lines 772-776). -/
inductive Sign where
  | negative
  | positive
  deriving DecidableEq, Repr

namespace Sign

/-- `Sign::new` (/repo/src/util.rs lines 778-786), for a totally ordered type. -/
def new {α : Type*} [LinearOrder α] [Zero α] (v : α) : Option Sign :=
  if v < 0 then some negative else if 0 < v then some positive else none

/-- `Neg` and `Not` (/repo/src/util.rs lines 794-823). -/
def neg : Sign → Sign
  | negative => positive
  | positive => negative

/-- `From<bool>` (/repo/src/util.rs lines 825-833). -/
def ofBool (isNegative : Bool) : Sign := if isNegative then negative else positive

/-- `From<Sign> for bool` (/repo/src/util.rs lines 835-842). -/
def toBool : Sign → Bool
  | negative => true
  | positive => false

/-- `BitXor` (/repo/src/util.rs lines 844-876). -/
def xor (a b : Sign) : Sign := ofBool (a.toBool ^^ b.toBool)

/-- `BitAnd` (/repo/src/util.rs lines 844-875). -/
def and (a b : Sign) : Sign := ofBool (a.toBool && b.toBool)

/-- `BitOr` (/repo/src/util.rs lines 844-874). -/
def or (a b : Sign) : Sign := ofBool (a.toBool || b.toBool)

/-- `Ord::cmp` (/repo/src/util.rs lines 909-917). -/
def cmp : Sign → Sign → Ordering
  | positive, negative => .gt
  | negative, positive => .lt
  | _, _ => .eq

end Sign

end Algebraics
