import Verif.Model.AlgNum

/-!
# Programs that use algebraic numbers

A program of a user of the library: numbered variables and a sequence of instructions, each of which calls one
operation of `RealAlgebraicNumber` on variables and stores the result, possibly in place of an operand
(`a += b`). Every call may meet other random numbers, another order of its heap and another state of the
cache of `log 2`, so a run is a relation and not a function.
-/

namespace Algebraics

/-- One call of the API; the first number is the variable that receives the result. -/
inductive Instr where
  /-- `From` an integer or a ratio: `src/algebraic_numbers.rs:102-159` -/
  | const (d : ℕ) (q : ℚ)
  /-- `clone`: `src/algebraic_numbers.rs:91` -/
  | copy (d s : ℕ)
  /-- `src/algebraic_numbers.rs:858-891` -/
  | neg (d s : ℕ)
  /-- `src/algebraic_numbers.rs:1210-1216` -/
  | abs (d s : ℕ)
  /-- `src/algebraic_numbers.rs:513-518` -/
  | floor (d s : ℕ)
  /-- `src/algebraic_numbers.rs:549-554` -/
  | ceil (d s : ℕ)
  /-- `src/algebraic_numbers.rs:604-609` -/
  | trunc (d s : ℕ)
  /-- `src/algebraic_numbers.rs:519-542` -/
  | fract (d s : ℕ)
  /-- `src/algebraic_numbers.rs:657-660` -/
  | recip (d s : ℕ)
  /-- `src/algebraic_numbers.rs:670-796`, `1493-1507` -/
  | pow (d s : ℕ) (e : ℚ)
  /-- `src/algebraic_numbers.rs:1035-1119` -/
  | add (d s t : ℕ)
  /-- `src/algebraic_numbers.rs:1147-1187` -/
  | sub (d s t : ℕ)
  /-- `src/algebraic_numbers.rs:1269-1359` -/
  | mul (d s t : ℕ)
  /-- `src/algebraic_numbers.rs:1361-1449` -/
  | div (d s t : ℕ)
  /-- `src/algebraic_numbers.rs:1451-1491` -/
  | rem (d s t : ℕ)
  /-- `src/algebraic_numbers.rs:1218-1225` -/
  | absSub (d s t : ℕ)

namespace RealAlg

/-- The call that an instruction makes, as a function of what the surroundings supply: the calls of `factor`
(`F`), the cached values of `log 2` and the fuel. The variables are `st`. A `pow` without result panics. -/
def call (ln2 : ℕ → ℕ → DFI) (F : FactorCall) (fuel : ℕ) (st : ℕ → RealAlg) : Instr → Except Stop RealAlg
  | .const _ q => .ok (ofRat q)
  | .copy _ s => .ok (st s)
  | .neg _ s => (st s).neg
  | .abs _ s => (st s).abs
  | .floor _ s => (st s).floor fuel
  | .ceil _ s => (st s).ceil fuel
  | .trunc _ s => (st s).trunc fuel
  | .fract _ s => (st s).fract F fuel
  | .recip _ s => (st s).recip fuel
  | .pow _ s e => do
    let r ← (st s).checkedPow ln2 F fuel e
    orPanic r
  | .add _ s t => (st s).add F fuel (st t)
  | .sub _ s t => (st s).sub F fuel (st t)
  | .mul _ s t => (st s).mul F fuel (st t)
  | .div _ s t => (st s).div F fuel (st t)
  | .rem _ s t => (st s).rem F fuel (st t)
  | .absSub _ s t => (st s).absSub F fuel (st t)

end RealAlg

/-- the variable that an instruction writes -/
def Instr.target : Instr → ℕ
  | .const d _ | .copy d _ | .neg d _ | .abs d _ | .floor d _ | .ceil d _ | .trunc d _ | .fract d _
  | .recip d _ | .pow d _ _ | .add d _ _ | .sub d _ _ | .mul d _ _ | .div d _ _ | .rem d _ _
  | .absSub d _ _ => d

namespace RealAlg

/-- All instructions of a program carried out one after the other, with the same surroundings in all calls;
stops at the first call that does not return. -/
def exec (ln2 : ℕ → ℕ → DFI) (F : FactorCall) (fuel : ℕ) : List Instr → (ℕ → RealAlg) → Except Stop (ℕ → RealAlg)
  | [], st => .ok st
  | i :: p, st => do
    let c ← call ln2 F fuel st i
    exec ln2 F fuel p (Function.update st i.target c)

end RealAlg

end Algebraics
