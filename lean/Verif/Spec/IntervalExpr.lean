import Verif.Model.IntervalFn
import Verif.Spec.Interval
import Verif.Spec.IntervalFn

/-!
# Expressions built from interval operations

Specification side: expressions with any number of operations, their value for real numbers, and what the interval
operations of the library make of them, one call per operation.
-/

namespace Algebraics

/-- `a` says at least as much as `b`: all its members are members of `b`, and it is not less precise. -/
def DFI.Refines (a b : DFI) : Prop := (∀ x : ℝ, a.Contains x → b.Contains x) ∧ b.log2Denom ≤ a.log2Denom

/-- an expression over numbered variables. The logarithms are numbered too, because the cache of `ln 2` can give each
call another enclosure. -/
inductive IExpr where
  | var (i : ℕ)
  | neg (e : IExpr)
  | abs (e : IExpr)
  | square (e : IExpr)
  | recip (e : IExpr)
  | sqrt (e : IExpr)
  | log (t : ℕ) (e : IExpr)
  | addInt (e : IExpr) (k : ℤ)
  | subInt (e : IExpr) (k : ℤ)
  | mulInt (e : IExpr) (k : ℤ)
  | divInt (e : IExpr) (k : ℤ)
  | addRatio (e : IExpr) (q : ℚ)
  | subRatio (e : IExpr) (q : ℚ)
  | mulRatio (e : IExpr) (q : ℚ)
  | divRatio (e : IExpr) (q : ℚ)
  | add (e f : IExpr)
  | sub (e f : IExpr)
  | mul (e f : IExpr)
  | div (e f : IExpr)
  | agm (e f : IExpr)

namespace IExpr

/-- the expression has no logarithm and no arithmetic-geometric mean. -/
def Algebraic : IExpr → Prop
  | var _ => True
  | neg e | abs e | square e | recip e | sqrt e | addInt e _ | subInt e _ | mulInt e _ | divInt e _
  | addRatio e _ | subRatio e _ | mulRatio e _ | divRatio e _ => e.Algebraic
  | log _ _ => False
  | add e f | sub e f | mul e f | div e f => e.Algebraic ∧ f.Algebraic
  | agm _ _ => False

/-- the value of an expression for real numbers; an expression that divides by zero, or takes the root of a negative
number, the logarithm of a number that is not positive, or the mean of numbers that are not positive, has none. -/
inductive Value (ρ : ℕ → ℝ) : IExpr → ℝ → Prop
  | var (i : ℕ) : Value ρ (var i) (ρ i)
  | neg {e x} : Value ρ e x → Value ρ (neg e) (-x)
  | abs {e x} : Value ρ e x → Value ρ (abs e) |x|
  | square {e x} : Value ρ e x → Value ρ (square e) (x * x)
  | recip {e x} : Value ρ e x → x ≠ 0 → Value ρ (recip e) x⁻¹
  | sqrt {e x} : Value ρ e x → 0 ≤ x → Value ρ (sqrt e) √x
  | log {e x} (t : ℕ) : Value ρ e x → 0 < x → Value ρ (log t e) (Real.log x)
  | addInt {e x} (k : ℤ) : Value ρ e x → Value ρ (addInt e k) (x + k)
  | subInt {e x} (k : ℤ) : Value ρ e x → Value ρ (subInt e k) (x - k)
  | mulInt {e x} (k : ℤ) : Value ρ e x → Value ρ (mulInt e k) (x * k)
  | divInt {e x} (k : ℤ) : Value ρ e x → k ≠ 0 → Value ρ (divInt e k) (x / k)
  | addRatio {e x} (q : ℚ) : Value ρ e x → Value ρ (addRatio e q) (x + q)
  | subRatio {e x} (q : ℚ) : Value ρ e x → Value ρ (subRatio e q) (x - q)
  | mulRatio {e x} (q : ℚ) : Value ρ e x → Value ρ (mulRatio e q) (x * q)
  | divRatio {e x} (q : ℚ) : Value ρ e x → q ≠ 0 → Value ρ (divRatio e q) (x / q)
  | add {e f x y} : Value ρ e x → Value ρ f y → Value ρ (add e f) (x + y)
  | sub {e f x y} : Value ρ e x → Value ρ f y → Value ρ (sub e f) (x - y)
  | mul {e f x y} : Value ρ e x → Value ρ f y → Value ρ (mul e f) (x * y)
  | div {e f x y} : Value ρ e x → Value ρ f y → y ≠ 0 → Value ρ (div e f) (x / y)
  | agm {e f x y m} : Value ρ e x → Value ρ f y → 0 < x → 0 < y → IsAGM x y m → Value ρ (agm e f) m

/-- no root is taken of zero, around which every interval has negative members, and no logarithm of a number `3 * 2^j`,
around which the result of the library stays wide. -/
inductive Regular (ρ : ℕ → ℝ) : IExpr → Prop
  | var (i : ℕ) : Regular ρ (var i)
  | neg {e} : Regular ρ e → Regular ρ (neg e)
  | abs {e} : Regular ρ e → Regular ρ (abs e)
  | square {e} : Regular ρ e → Regular ρ (square e)
  | recip {e} : Regular ρ e → Regular ρ (recip e)
  | sqrt {e} : Regular ρ e → ¬ Value ρ e 0 → Regular ρ (sqrt e)
  | log {e} (t : ℕ) : Regular ρ e → (∀ j : ℤ, ¬ Value ρ e (3 * 2 ^ j)) → Regular ρ (log t e)
  | addInt {e} (k : ℤ) : Regular ρ e → Regular ρ (addInt e k)
  | subInt {e} (k : ℤ) : Regular ρ e → Regular ρ (subInt e k)
  | mulInt {e} (k : ℤ) : Regular ρ e → Regular ρ (mulInt e k)
  | divInt {e} (k : ℤ) : Regular ρ e → Regular ρ (divInt e k)
  | addRatio {e} (q : ℚ) : Regular ρ e → Regular ρ (addRatio e q)
  | subRatio {e} (q : ℚ) : Regular ρ e → Regular ρ (subRatio e q)
  | mulRatio {e} (q : ℚ) : Regular ρ e → Regular ρ (mulRatio e q)
  | divRatio {e} (q : ℚ) : Regular ρ e → Regular ρ (divRatio e q)
  | add {e f} : Regular ρ e → Regular ρ f → Regular ρ (add e f)
  | sub {e f} : Regular ρ e → Regular ρ f → Regular ρ (sub e f)
  | mul {e f} : Regular ρ e → Regular ρ f → Regular ρ (mul e f)
  | div {e f} : Regular ρ e → Regular ρ f → Regular ρ (div e f)
  | agm {e f} : Regular ρ e → Regular ρ f → Regular ρ (agm e f)

/-- the calls of the library, in the order of the expression; `none` when one of them fails. `ln2 t` is the enclosure
of `ln 2` that the logarithm with number `t` sees. -/
def eval (ln2 : ℕ → ℕ → DFI) (env : ℕ → DFI) : IExpr → Option DFI
  | var i => some (env i)
  | neg e => do return (← e.eval ln2 env).neg
  | abs e => do return (← e.eval ln2 env).abs
  | square e => do return (← e.eval ln2 env).square
  | recip e => do (← e.eval ln2 env).checkedRecip
  | sqrt e => do (← e.eval ln2 env).sqrt
  | log t e => do (← e.eval ln2 env).log (ln2 t)
  | addInt e k => do return (← e.eval ln2 env).addInt k
  | subInt e k => do return (← e.eval ln2 env).subInt k
  | mulInt e k => do return (← e.eval ln2 env).mulInt k
  | divInt e k => do (← e.eval ln2 env).divInt k
  | addRatio e q => do return (← e.eval ln2 env).addRatio q
  | subRatio e q => do return (← e.eval ln2 env).subRatio q
  | mulRatio e q => do return (← e.eval ln2 env).mulRatio q
  | divRatio e q => do (← e.eval ln2 env).divRatio q
  | add e f => do return (← e.eval ln2 env).add (← f.eval ln2 env)
  | sub e f => do return (← e.eval ln2 env).sub (← f.eval ln2 env)
  | mul e f => do return (← e.eval ln2 env).mul (← f.eval ln2 env)
  | div e f => do (← e.eval ln2 env).checkedDiv (← f.eval ln2 env)
  | agm e f => do (← e.eval ln2 env).agm (← f.eval ln2 env)

end IExpr
end Algebraics
