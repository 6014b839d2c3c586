import Verif.Spec.History

/-!
# Roots of rational numbers

Specification side only: the real numbers some power of which is rational, such as `√2`, `-∛(5/7)`, `2^(3/4)` and
every rational number.
-/

namespace Algebraics

/-- some power of `x` with a positive exponent is a rational number -/
def RootOfRational (x : ℝ) : Prop := ∃ k > 0, ∃ q : ℚ, x ^ k = q

/-- some power of `x` with a positive exponent is an integer -/
def RootOfInteger (x : ℝ) : Prop := ∃ k > 0, ∃ m : ℤ, x ^ k = m

/-- The instruction stays among the roots of integers: integer constants, copies, signs, integer parts, powers with
positive exponents that are integers if the number is negative, and products, unless they are rational products of two
irrational numbers. -/
def Instr.OnRoots (v : ℕ → ℝ) : Instr → Prop
  | .const _ q => q.den = 1
  | .copy _ _ | .neg _ _ | .abs _ _ | .floor _ _ | .ceil _ _ | .trunc _ _ => True
  | .pow _ s e => (0 ≤ v s ∨ e.den = 1) ∧ 0 < e
  | .mul _ s t => Irrational (v s * v t) ∨ ¬ Irrational (v s) ∨ ¬ Irrational (v t)
  | _ => False

/-- every instruction of the program stays among the roots, for the values that its variables have by then -/
def ProgramOnRoots : List Instr → (ℕ → ℝ) → Prop
  | [], _ => True
  | i :: p, v => i.OnRoots v ∧ ProgramOnRoots p (Function.update v i.target (i.value v))

end Algebraics
