import Verif.Model.Modulus
import Mathlib.Data.Nat.Prime.Basic
import Mathlib.Algebra.Group.Even

/-!
# Specification vocabulary for moduli
-/

namespace Algebraics.Modulus

/-- the integer a modulus stands for -/
def value : Modulus → ℤ
  | int v => v
  | ref m => m.value
  | knownPrime m => m.value
  | knownOdd m => m.value
  | unit s => s.value

/-- Whoever called the `_unsafe` constructors kept the promise: what is wrapped in `KnownPrime` is a prime,
what is wrapped in `KnownOdd` is odd. -/
def Promised : Modulus → Prop
  | int _ => True
  | ref m => m.Promised
  | knownPrime m => m.Promised ∧ ∃ p : ℕ, p.Prime ∧ m.value = p
  | knownOdd m => m.Promised ∧ Odd m.value
  | unit _ => True

/-- the modulus has the integer type `t` -/
def HasType (t : IntTy) : Modulus → Prop
  | int v => t.fits v
  | ref m => m.HasType t
  | knownPrime m => m.HasType t
  | knownOdd m => m.HasType t
  | unit _ => t.Instantiated

end Algebraics.Modulus
