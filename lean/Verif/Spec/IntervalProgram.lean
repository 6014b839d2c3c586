import Verif.Model.IntervalProgram
import Verif.Spec.Interval
import Verif.Spec.IntervalFn

/-!
# Programs that use intervals: what their variables stand for

Specification side only. Beside the intervals, every variable has a real number that it stands for.
-/

namespace Algebraics

/-- what `sqrt_2` delivers: at each precision an enclosure of `√2` at that precision, at most 8 units wide (`C06`) -/
def IsSqrt2 (sqrt2 : ℕ → DFI) : Prop :=
  ∀ n, (sqrt2 n).log2Denom = n ∧ (sqrt2 n).Contains √2 ∧ (sqrt2 n).ulps ≤ 8

namespace IvInstr

/-- One instruction carried out: the call returned, whatever the caches of the two constants held, and its result
was stored. -/
def Step (i : IvInstr) (st st' : ℕ → DFI) : Prop :=
  ∃ (ln2 sqrt2 : ℕ → DFI) (c : DFI), IsLn2 ln2 ∧ IsSqrt2 sqrt2 ∧ i.call ln2 sqrt2 st = some c ∧
    st' = Function.update st i.target c

/-- `i` may give its result the value `y` when the variables have the values `v`. Constructors of ranges and setters
of single bounds may choose any member of the new range, the union either of its arguments; everything else has one
result. -/
def Value (st : ℕ → DFI) (v : ℕ → ℝ) (y : ℝ) : IvInstr → Prop
  | new _ lo hi n => (lo : ℝ) / 2 ^ n ≤ y ∧ y ≤ (hi : ℝ) / 2 ^ n
  | fromRatioRange _ lb ub _ => (lb : ℝ) ≤ y ∧ y ≤ ub
  | fromRatio _ q _ => y = q
  | fromInt _ k _ => y = k
  | fromIntRange _ lb ub _ => (lb : ℝ) ≤ y ∧ y ≤ ub
  | fromDyadic _ k n => y = (k : ℝ) / 2 ^ n
  | lnTwo _ _ => y = Real.log 2
  | sqrtTwo _ _ => y = √2
  | setZero _ => y = 0
  | setOne _ => y = 1
  | setNegativeOne _ => y = -1
  | setToLower t => y = ((st t).lo : ℝ) / 2 ^ (st t).log2Denom
  | setToUpper t => y = ((st t).hi : ℝ) / 2 ^ (st t).log2Denom
  | setLower t k => (k : ℝ) / 2 ^ (st t).log2Denom ≤ y ∧ y ≤ ((st t).hi : ℝ) / 2 ^ (st t).log2Denom
  | setUpper t k => ((st t).lo : ℝ) / 2 ^ (st t).log2Denom ≤ y ∧ y ≤ (k : ℝ) / 2 ^ (st t).log2Denom
  | setLowerZero t => 0 ≤ y ∧ y ≤ ((st t).hi : ℝ) / 2 ^ (st t).log2Denom
  | setUpperZero t => ((st t).lo : ℝ) / 2 ^ (st t).log2Denom ≤ y ∧ y ≤ 0
  | convert _ s _ | copy _ s => y = v s
  | neg _ s => y = -v s
  | abs _ s => y = |v s|
  | floor _ s _ => y = ⌊v s⌋
  | ceil _ s _ => y = ⌈v s⌉
  | square _ s => y = v s * v s
  | sqrt _ s => y = √(v s)
  | recip _ s => y = (v s)⁻¹
  | log _ s => y = Real.log (v s)
  | exp _ s => y = Real.exp (v s)
  | pow _ s e => y = v s ^ e
  | add _ s u => y = v s + v u
  | sub _ s u => y = v s - v u
  | mul _ s u => y = v s * v u
  | div _ s u => y = v s / v u
  | union _ s u => y = v s ∨ y = v u
  | agm _ s u => IsAGM (v s) (v u) y
  | addInt _ s k => y = v s + k
  | subInt _ s k => y = v s - k
  | mulInt _ s k => y = v s * k
  | divInt _ s k => y = v s / k
  | addRatio _ s q => y = v s + q
  | subRatio _ s q => y = v s - q
  | mulRatio _ s q => y = v s * q
  | divRatio _ s q => y = v s / q

/-- the precision (`log2_denom`) of the result, from the precisions `p` of the variables -/
def precision (p : ℕ → ℕ) : IvInstr → ℕ
  | new _ _ _ n | fromRatioRange _ _ _ n | fromRatio _ _ n | fromInt _ _ n | fromIntRange _ _ _ n | fromDyadic _ _ n
  | lnTwo _ n | sqrtTwo _ n | convert _ _ n | floor _ _ n | ceil _ _ n => n
  | setZero t | setOne t | setNegativeOne t | setToLower t | setToUpper t | setLower t _ | setUpper t _
  | setLowerZero t | setUpperZero t => p t
  | copy _ s | neg _ s | abs _ s | square _ s | sqrt _ s | recip _ s | log _ s | exp _ s | pow _ s _ | addInt _ s _
  | subInt _ s _ | mulInt _ s _ | divInt _ s _ | addRatio _ s _ | subRatio _ s _ | mulRatio _ s _ | divRatio _ s _ => p s
  | add _ s u | sub _ s u | mul _ s u | div _ s u | union _ s u | agm _ s u => max (p s) (p u)

/-- the instruction is not an odd power, of at least 3 without the sign, of an interval that is one negative number
(for negative exponents: whose reciprocal is) the power of which is not a multiple of the unit -/
def NoNegativePoint (st : ℕ → DFI) : IvInstr → Prop
  | pow _ s e => ¬ (Odd e ∧ 3 ≤ |e| ∧ ∃ b, (if e < 0 then (st s).checkedRecip else some (st s)) = some b ∧
      b.lo = b.hi ∧ b.hi < 0 ∧ ¬ ∃ k : ℤ, ((b.hi : ℝ) / 2 ^ b.log2Denom) ^ |e| = k / 2 ^ b.log2Denom)
  | _ => True

/-- the instruction is not an exponential, and not one of these powers. The exponent is odd and at least 3, the
interval has members of both signs or is one negative number, and the power of the end nearer to zero is not a multiple
of the unit `2^-n` of the interval. Or the exponent is odd and at most -3, and the interval is one number `-2^j` in units
of `2^-n`, whose reciprocal is a multiple of the unit but whose power is not. -/
def Encloses (st : ℕ → DFI) : IvInstr → Prop
  | exp _ _ => False
  | pow _ s e =>
      ¬ (Odd e ∧ 3 ≤ e ∧ ((st s).lo < 0 ∧ 0 < (st s).hi ∨ (st s).lo = (st s).hi ∧ (st s).hi < 0) ∧
        ¬ ∃ k : ℤ, (min |((st s).lo : ℝ) / 2 ^ (st s).log2Denom| |((st s).hi : ℝ) / 2 ^ (st s).log2Denom|) ^ e =
          k / 2 ^ (st s).log2Denom) ∧
      ¬ (Odd e ∧ e ≤ -3 ∧ ∃ j : ℕ, (st s).lo = -2 ^ j ∧ (st s).hi = -2 ^ j ∧ j ≤ 2 * (st s).log2Denom ∧
        (st s).log2Denom + (st s).log2Denom * |e| < j * |e|)
  | _ => True

end IvInstr

/-- All instructions carried out one after the other, where every instruction has the property `P` of its own
arguments. -/
def IvRun (P : (ℕ → DFI) → IvInstr → Prop) : List IvInstr → (ℕ → DFI) → (ℕ → DFI) → Prop
  | [], st, st' => st' = st
  | i :: p, st, st' => P st i ∧ ∃ m, i.Step st m ∧ IvRun P p m st'

/-- The same, beside real numbers that the variables stand for. -/
def IvRunValues (P : (ℕ → DFI) → IvInstr → Prop) :
    List IvInstr → (ℕ → DFI) → (ℕ → ℝ) → (ℕ → DFI) → (ℕ → ℝ) → Prop
  | [], st, v, st', v' => st' = st ∧ v' = v
  | i :: p, st, v, st', v' => P st i ∧ ∃ m y, i.Step st m ∧ i.Value st v y ∧
      IvRunValues P p m (Function.update v i.target y) st' v'

/-- the precisions of the variables after a program -/
def ivPrecisions : List IvInstr → (ℕ → ℕ) → ℕ → ℕ
  | [], p => p
  | i :: l, p => ivPrecisions l (Function.update p i.target (i.precision p))

end Algebraics
