import Verif.Model.IntervalFn
import Verif.Model.AlgNum

/-!
# Programs that use intervals

The public functions of `DyadicFractionInterval` (`src/interval_arithmetic.rs`) as the instructions of a program with
numbered variables. Every function is the one modelled in `Model/Interval.lean`, `Model/IntervalFn.lean` and
`Model/AlgNum.lean`, where the lines are cited; the forms that differ only in ownership or assign in place
(`into_…`, `…_assign`, the operators on references) are one instruction, see C68.
-/

namespace Algebraics

/-- one call: the variable that takes the result comes first -/
inductive IvInstr where
  /-- `new(lo, hi, n)`, lines 132-139 -/
  | new (t : ℕ) (lo hi : ℤ) (n : ℕ)
  /-- `from_ratio_range`, lines 140-154 -/
  | fromRatioRange (t : ℕ) (lb ub : ℚ) (n : ℕ)
  /-- `from_ratio`, lines 155-166 -/
  | fromRatio (t : ℕ) (q : ℚ) (n : ℕ)
  /-- `from_int`, lines 167-169; `zero`, `one`, `negative_one` are `from_int` of 0, 1, -1 -/
  | fromInt (t : ℕ) (k : ℤ) (n : ℕ)
  /-- `from_int_range`, lines 170-172 -/
  | fromIntRange (t : ℕ) (lb ub : ℤ) (n : ℕ)
  /-- `from_dyadic_fraction`, lines 173-179 -/
  | fromDyadic (t : ℕ) (k : ℤ) (n : ℕ)
  /-- `natural_log_of_2`, lines 569-592 -/
  | lnTwo (t n : ℕ)
  /-- `sqrt_2`, lines 547-554 -/
  | sqrtTwo (t n : ℕ)
  /-- `set_zero`, lines 193-196 -/
  | setZero (t : ℕ)
  /-- `set_one`, lines 197-201 -/
  | setOne (t : ℕ)
  /-- `set_negative_one`, lines 202-207 -/
  | setNegativeOne (t : ℕ)
  /-- `set_to_lower_bound`, lines 253-255 -/
  | setToLower (t : ℕ)
  /-- `set_to_upper_bound`, lines 256-258 -/
  | setToUpper (t : ℕ)
  /-- `set_lower_bound_numer`, lines 259-262 -/
  | setLower (t : ℕ) (k : ℤ)
  /-- `set_upper_bound_numer`, lines 263-266 -/
  | setUpper (t : ℕ) (k : ℤ)
  /-- `set_lower_bound_to_zero`, lines 267-270 -/
  | setLowerZero (t : ℕ)
  /-- `set_upper_bound_to_zero`, lines 271-274 -/
  | setUpperZero (t : ℕ)
  /-- `convert_log2_denom`, lines 275-286 -/
  | convert (t s n : ℕ)
  /-- `clone` -/
  | copy (t s : ℕ)
  /-- `-`, lines 863-885 -/
  | neg (t s : ℕ)
  /-- `abs`, lines 774-795 -/
  | abs (t s : ℕ)
  /-- `floor`, lines 796-808 -/
  | floor (t s n : ℕ)
  /-- `ceil`, lines 809-825 -/
  | ceil (t s n : ℕ)
  /-- `square`, lines 439-469 -/
  | square (t s : ℕ)
  /-- `sqrt`, lines 470-503 -/
  | sqrt (t s : ℕ)
  /-- `recip` and `checked_recip`, lines 422-438 -/
  | recip (t s : ℕ)
  /-- `log`, lines 625-684 -/
  | log (t s : ℕ)
  /-- `exp`, lines 685-763 -/
  | exp (t s : ℕ)
  /-- `pow`, lines 1214-1303 -/
  | pow (t s : ℕ) (e : ℤ)
  /-- `+`, lines 990-1035 -/
  | add (t s u : ℕ)
  /-- `-`, lines 1036-1081 -/
  | sub (t s u : ℕ)
  /-- `*`, lines 1082-1122 -/
  | mul (t s u : ℕ)
  /-- `/` and `checked_exact_div`, lines 1123-1211 -/
  | div (t s u : ℕ)
  /-- `interval_union`, lines 507-523 -/
  | union (t s u : ℕ)
  /-- `arithmetic_geometric_mean`, lines 524-546 -/
  | agm (t s u : ℕ)
  /-- `+` with a `BigInt` -/
  | addInt (t s : ℕ) (k : ℤ)
  /-- `-` with a `BigInt` -/
  | subInt (t s : ℕ) (k : ℤ)
  /-- `*` with a `BigInt` -/
  | mulInt (t s : ℕ) (k : ℤ)
  /-- `/` with a `BigInt` -/
  | divInt (t s : ℕ) (k : ℤ)
  /-- `+` with a `Ratio<BigInt>` -/
  | addRatio (t s : ℕ) (q : ℚ)
  /-- `-` with a `Ratio<BigInt>` -/
  | subRatio (t s : ℕ) (q : ℚ)
  /-- `*` with a `Ratio<BigInt>` -/
  | mulRatio (t s : ℕ) (q : ℚ)
  /-- `/` with a `Ratio<BigInt>` -/
  | divRatio (t s : ℕ) (q : ℚ)

namespace IvInstr

/-- the variable that takes the result -/
def target : IvInstr → ℕ
  | new t _ _ _ | fromRatioRange t _ _ _ | fromRatio t _ _ | fromInt t _ _ | fromIntRange t _ _ _ | fromDyadic t _ _
  | lnTwo t _ | sqrtTwo t _ | setZero t | setOne t | setNegativeOne t | setToLower t | setToUpper t | setLower t _
  | setUpper t _ | setLowerZero t | setUpperZero t | convert t _ _ | copy t _ | neg t _ | abs t _ | floor t _ _
  | ceil t _ _ | square t _ | sqrt t _ | recip t _ | log t _ | exp t _ | pow t _ _ | add t _ _ | sub t _ _ | mul t _ _
  | div t _ _ | union t _ _ | agm t _ _ | addInt t _ _ | subInt t _ _ | mulInt t _ _ | divInt t _ _ | addRatio t _ _
  | subRatio t _ _ | mulRatio t _ _ | divRatio t _ _ => t

/-- the call (`none` = panic); `ln2` and `sqrt2` are what the two cached constants return during this call -/
def call (ln2 sqrt2 : ℕ → DFI) (st : ℕ → DFI) : IvInstr → Option DFI
  | new _ lo hi n => DFI.new lo hi n
  | fromRatioRange _ lb ub n => DFI.fromRatioRange lb ub n
  | fromRatio _ q n => some (DFI.fromRatio q n)
  | fromInt _ k n => some (DFI.fromInt k n)
  | fromIntRange _ lb ub n => DFI.fromIntRange lb ub n
  | fromDyadic _ k n => some (DFI.fromDyadicFraction k n)
  | lnTwo _ n => some (ln2 n)
  | sqrtTwo _ n => some (sqrt2 n)
  | setZero t => some (st t).setZero
  | setOne t => some (st t).setOne
  | setNegativeOne t => some (st t).setNegativeOne
  | setToLower t => some (st t).setToLowerBound
  | setToUpper t => some (st t).setToUpperBound
  | setLower t k => (st t).setLowerBoundNumer k
  | setUpper t k => (st t).setUpperBoundNumer k
  | setLowerZero t => (st t).setLowerBoundToZero
  | setUpperZero t => (st t).setUpperBoundToZero
  | convert _ s n => some ((st s).convertLog2Denom n)
  | copy _ s => some (st s)
  | neg _ s => some (st s).neg
  | abs _ s => some (st s).abs
  | floor _ s n => some ((st s).floor n)
  | ceil _ s n => some ((st s).ceil n)
  | square _ s => some (st s).square
  | sqrt _ s => (st s).sqrt
  | recip _ s => (st s).checkedRecip
  | log _ s => (st s).log ln2
  | exp _ s => (st s).exp ln2
  | pow _ s e => (st s).pow e
  | add _ s u => some ((st s).add (st u))
  | sub _ s u => some ((st s).sub (st u))
  | mul _ s u => some ((st s).mul (st u))
  | div _ s u => (st s).checkedDiv (st u)
  | union _ s u => some ((st s).union (st u))
  | agm _ s u => (st s).agm (st u)
  | addInt _ s k => some ((st s).addInt k)
  | subInt _ s k => some ((st s).subInt k)
  | mulInt _ s k => some ((st s).mulInt k)
  | divInt _ s k => (st s).divInt k
  | addRatio _ s q => some ((st s).addRatio q)
  | subRatio _ s q => some ((st s).subRatio q)
  | mulRatio _ s q => some ((st s).mulRatio q)
  | divRatio _ s q => (st s).divRatio q

end IvInstr
end Algebraics
