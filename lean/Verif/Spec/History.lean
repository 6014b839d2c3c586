import Verif.Model.History
import Verif.Spec.AlgNum
import Verif.Spec.IntervalFn
import Mathlib.FieldTheory.Minpoly.Basic
import Mathlib.NumberTheory.Real.Irrational

/-!
# Programs that use algebraic numbers: what their results should be

Specification side only. The variables hold real numbers, every instruction does what it does in mathematics.
`Instr.Clean` says, in terms of these real numbers and their conjugates alone, which calls are outside of the
cases in which single operations are known to go wrong (`C40_recip_false`, `C43_fract_false`, `C44_add_false`,
`C45_mul_false`, `C47_…_false`, `C58_rem_false`), or not known to be right.
-/

namespace Algebraics

open Polynomial

/-! ## Runs -/

/-- One instruction carried out: the call returned, whatever random numbers, order of the heap, state of the
cache of `log 2` and fuel it met, and its result was stored. -/
def Instr.Step (i : Instr) (st st' : ℕ → RealAlg) : Prop :=
  ∃ (ln2 : ℕ → ℕ → DFI) (choose : ℕ → List ℕ → ℕ) (rng : ℕ → ℕ) (ffuel fuel : ℕ) (c : RealAlg),
    (∀ t, IsLn2 (ln2 t)) ∧ Poly.HeapOrder choose ∧
    RealAlg.call ln2 (RealAlg.factorCall choose rng ffuel) fuel st i = .ok c ∧
    st' = Function.update st i.target c

/-- All instructions carried out one after the other. -/
def Run : List Instr → (ℕ → RealAlg) → (ℕ → RealAlg) → Prop
  | [], st, st' => st' = st
  | i :: p, st, st' => ∃ m, i.Step st m ∧ Run p m st'

/-! ## What the instructions mean -/

/-- what an instruction computes, in mathematics -/
noncomputable def Instr.value (v : ℕ → ℝ) : Instr → ℝ
  | .const _ q => q
  | .copy _ s => v s
  | .neg _ s => -v s
  | .abs _ s => |v s|
  | .floor _ s => ⌊v s⌋
  | .ceil _ s => ⌈v s⌉
  | .trunc _ s => truncate (v s)
  | .fract _ s => v s - ⌊v s⌋
  | .recip _ s => (v s)⁻¹
  | .pow _ s e => powValue (v s) e
  | .add _ s t => v s + v t
  | .sub _ s t => v s - v t
  | .mul _ s t => v s * v t
  | .div _ s t => v s / v t
  | .rem _ s t => v s - truncate (v s / v t) * v t
  | .absSub _ s t => max (v s - v t) 0

/-- the variables after a program, in mathematics -/
noncomputable def values : List Instr → (ℕ → ℝ) → ℕ → ℝ
  | [], v => v
  | i :: p, v => values p (Function.update v i.target (i.value v))

/-! ## Clean instructions -/

/-- the degrees of two numbers over the rational numbers have no common factor; for example, one of them is
rational -/
def CoprimeDegrees (x y : ℝ) : Prop := (minpoly ℚ x).natDegree.Coprime (minpoly ℚ y).natDegree

/-- the sum of `x` and `y` is safe: the degrees have no common factor, or both are algebraic integers and the
sum of `x` and no other conjugate of `y` is rational -/
def CleanSum (x y : ℝ) : Prop :=
  CoprimeDegrees x y ∨ IsIntegral ℤ x ∧ IsIntegral ℤ y ∧
    ∀ q : ℚ, aeval ((q : ℝ) - x) (minpoly ℚ y) = 0 → (q : ℝ) = x + y

/-- the product of `x` and `y` is safe: the degrees have no common factor, or both are algebraic integers and
the product of `x` and no other conjugate of `y` is rational -/
def CleanProduct (x y : ℝ) : Prop :=
  CoprimeDegrees x y ∨ IsIntegral ℤ x ∧ IsIntegral ℤ y ∧
    ∀ q : ℚ, aeval ((q : ℝ) / x) (minpoly ℚ y) = 0 → (q : ℝ) = x * y

/-- the reciprocal of `x` is safe: `x` is rational, or its only real conjugate of its sign -/
def CleanRecip (x : ℝ) : Prop :=
  Irrational x → ∀ z : ℝ, aeval z (minpoly ℚ x) = 0 → 0 < x * z → z = x

/-- the power is safe: a positive power of zero, an integer power of another rational number, or a positive
power of a positive algebraic integer such that no conjugate has another real power with the numerator that is not negative, for
example a positive integer or a root of one, or a positive integer power of a negative algebraic integer such that no
conjugate has another real power of the same sign -/
def CleanPower (x : ℝ) (e : ℚ) : Prop :=
  (x = 0 ∧ 0 < e) ∨
  (¬ Irrational x ∧ x ≠ 0 ∧ e.den = 1) ∨
  (0 < x ∧ 0 < e ∧ IsIntegral ℤ x ∧
    ∀ w : ℂ, aeval w (minpoly ℚ x) = 0 → ∀ t : ℝ, 0 ≤ t → w ^ e.num.natAbs = t → t = x ^ e.num.natAbs) ∨
  (x < 0 ∧ 0 < e ∧ e.den = 1 ∧ IsIntegral ℤ x ∧ ∀ w : ℂ, aeval w (minpoly ℚ x) = 0 →
    ∀ t : ℝ, 0 ≤ t * x ^ e.num.natAbs → w ^ e.num.natAbs = t → t = x ^ e.num.natAbs)

/-- the instruction is safe for these values of the variables -/
def Instr.Clean (v : ℕ → ℝ) : Instr → Prop
  | .const _ _ | .copy _ _ | .neg _ _ | .abs _ _ | .floor _ _ | .ceil _ _ | .trunc _ _ => True
  | .fract _ s => Irrational (v s) ∨ 0 ≤ v s
  | .recip _ s => CleanRecip (v s)
  | .pow _ s e => CleanPower (v s) e
  | .add _ s t => CleanSum (v s) (v t)
  | .sub _ s t | .absSub _ s t => CleanSum (v s) (-v t)
  | .mul _ s t => CleanProduct (v s) (v t)
  | .div _ s t => CleanRecip (v t) ∧ CleanProduct (v s) (v t)⁻¹
  | .rem _ s t => CleanRecip (v t) ∧ CleanProduct (v s) (v t)⁻¹ ∧
      CleanSum (v s) (-(truncate (v s / v t) * v t))

/-- every instruction of the program is safe for the values that its variables have by then -/
def CleanProgram : List Instr → (ℕ → ℝ) → Prop
  | [], _ => True
  | i :: p, v => i.Clean v ∧ CleanProgram p (Function.update v i.target (i.value v))

/-! ## Defined instructions -/

/-- the instruction has a result in mathematics and in the rational numbers: nothing is divided by zero, and
exponents are integers; `fract` is asked for numbers that are not negative -/
def Instr.Defined (v : ℕ → ℝ) : Instr → Prop
  | .fract _ s => 0 ≤ v s
  | .recip _ s => v s ≠ 0
  | .pow _ s e => e.den = 1 ∧ (v s ≠ 0 ∨ 0 < e)
  | .div _ _ t | .rem _ _ t => v t ≠ 0
  | _ => True

/-- every instruction of the program is defined for the values that its variables have by then -/
def DefinedProgram : List Instr → (ℕ → ℝ) → Prop
  | [], _ => True
  | i :: p, v => i.Defined v ∧ DefinedProgram p (Function.update v i.target (i.value v))

end Algebraics
