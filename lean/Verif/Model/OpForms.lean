import Verif.Model.AlgNum
import Verif.Model.Interval
import Verif.Model.ModInt
import Verif.Model.PolyGcd

/-!
# Model of the forms of the operators

In Rust `a + b` is several functions: each operand may be given by value or by reference, there is the
assigning form `a += b`, for some types a checked form, and for intervals and exponents the right
operand may be of many types.  The bodies of all these functions are here, as they are in the source: an
assigning form is the function from the old to the new value of the left operand; taking a reference and
`clone` change nothing on the level of values.

The form that does the work is the one modelled elsewhere (`Poly.addSub`, `ModInt.modularAdd`, …).
-/

namespace Algebraics

/-! ## Polynomials -/

namespace Poly

section
variable {T : Type} [CommRing T] [PolyCoeff T]

open PolyCoeff

/-- `src/polynomial/add_sub.rs:76-80` `p += q` -/
def addAssignOwned (l r : Poly T) : Poly T := addSub (· + ·) l r

/-- `src/polynomial/add_sub.rs:82-86` `p += &q` -/
def addAssignRef (l r : Poly T) : Poly T := addSub (· + ·) l r

/-- `src/polynomial/add_sub.rs:104-110` `p + q` -/
def addOwnedOwned (l r : Poly T) : Poly T := addAssignOwned l r

/-- `src/polynomial/add_sub.rs:112-118` `p + &q` -/
def addOwnedRef (l r : Poly T) : Poly T := addAssignRef l r

/-- `src/polynomial/add_sub.rs:120-126` `&p + q`: the right operand is the one that is assigned to -/
def addRefOwned (l r : Poly T) : Poly T := addAssignRef r l

/-- `src/polynomial/add_sub.rs:128-135` `&p + &q` -/
def addRefRef (l r : Poly T) : Poly T := addAssignRef l r

/-- `src/polynomial/add_sub.rs:171-175` `checked_add` -/
def checkedAdd (l r : Poly T) : Option (Poly T) := some (addRefRef l r)

/-- `src/polynomial/add_sub.rs:190-194` `p -= q` -/
def subAssignOwned (l r : Poly T) : Poly T := addSub (· - ·) l r

/-- `src/polynomial/add_sub.rs:196-200` `p -= &q` -/
def subAssignRef (l r : Poly T) : Poly T := addSub (· - ·) l r

/-- `src/polynomial/add_sub.rs:218-224` `p - q` -/
def subOwnedOwned (l r : Poly T) : Poly T := subAssignOwned l r

/-- `src/polynomial/add_sub.rs:226-232` `p - &q` -/
def subOwnedRef (l r : Poly T) : Poly T := subAssignRef l r

/-- `src/polynomial/add_sub.rs:234-241` `&p - q`; here the left operand is copied -/
def subRefOwned (l r : Poly T) : Poly T := subAssignOwned l r

/-- `src/polynomial/add_sub.rs:243-250` `&p - &q` -/
def subRefRef (l r : Poly T) : Poly T := subAssignRef l r

/-- `src/polynomial/add_sub.rs:286-290` `checked_sub` -/
def checkedSub (l r : Poly T) : Option (Poly T) := some (subRefRef l r)

/-- `src/polynomial.rs:1221-1223` `negate`: the elements are negated in place, nothing is reduced -/
def negate (p : Poly T) : RawPoly T := ⟨p.raw.elements.map (- ·), p.raw.divisor⟩

/-- `src/polynomial/mul.rs:84-102` `mul_single` with a borrowed polynomial: the divisors are multiplied
in the other order -/
def mulSingleRef (l : Poly T) (r : T) : Poly T :=
  normalize (l.raw.elements.map (· * (toElem r).1)) ((toElem r).2 * l.raw.divisor)

/-- `src/polynomial/mul.rs:104-109` `mul_assign_single`, with `77-82` -/
def mulAssignSingle (l : Poly T) (r : T) : Poly T :=
  normalize (l.raw.elements.map (· * (toElem r).1)) (l.raw.divisor * (toElem r).2)

/-- `src/polynomial/mul.rs:84-102` `mul_single` with an owned polynomial -/
def mulSingleOwned (l : Poly T) (r : T) : Poly T := mulAssignSingle l r

/-- `src/polynomial/mul.rs:151-156` `is_one` -/
def isOneElem (p : Poly T) : Bool :=
  p.len == 1 && decide (p.raw.divisor = 1) && decide (p.raw.elements.head? = some 1)

/-- `src/polynomial/mul.rs:177-183` `One::is_one` -/
def isOneTrait (p : Poly T) : Bool :=
  match p.raw.elements with
  | [e] => decide (e = 1) && decide (p.raw.divisor = 1)
  | _ => false

/-- `src/polynomial.rs:1489-1498` `set_one_if_nonzero`: the fields afterwards, and whether it succeeded -/
def setOneIfNonzero (p : Poly T) : RawPoly T × Bool :=
  if p.raw.elements = [] then (p.raw, false) else (⟨[1], 1⟩, true)

/-- `src/polynomial.rs:1506-1512` `to_one_if_nonzero`, on the fields -/
def toOneIfNonzeroRaw (p : Poly T) : Option (RawPoly T) :=
  if p.raw.elements = [] then none else some ⟨[1], 1⟩

/-- `src/polynomial/mul.rs:168-176` `set_one` -/
def setOne (_ : Poly T) : RawPoly T := ⟨[1], 1⟩

/-- `src/polynomial/add_sub.rs:181-184` `set_zero` -/
def setZero (_ : Poly T) : RawPoly T := ⟨[], 1⟩

end

section
variable {T : Type} [CommRing T] [PolyCoeff T] [DecidableEq T]

/-- `src/polynomial/mul.rs:38-43` `&p * q` -/
def mulRefOwned (l r : Poly T) : Poly T := l.mul r

/-- `src/polynomial/mul.rs:45-50` `p * &q` -/
def mulOwnedRef (l r : Poly T) : Poly T := l.mul r

/-- `src/polynomial/mul.rs:52-57` `p * q` -/
def mulOwnedOwned (l r : Poly T) : Poly T := l.mul r

/-- `src/polynomial/mul.rs:59-63` `p *= q` -/
def mulAssignOwned (l r : Poly T) : Poly T := mulRefOwned l r

/-- `src/polynomial/mul.rs:65-69` `p *= &q` -/
def mulAssignRef (l r : Poly T) : Poly T := l.mul r

/-- `src/polynomial/mul.rs:71-75` `checked_mul` -/
def checkedMul (l r : Poly T) : Option (Poly T) := some (l.mul r)

variable [ExactDivCoeff T]

/-- `src/polynomial/div_rem.rs:279-286` `checked_exact_div_assign` by a polynomial: the left operand
afterwards and whether the result is `Ok` -/
def checkedExactDivAssign (p q : Poly T) : Poly T × Bool :=
  match p.exactDivPoly q with
  | some v => (v, true)
  | none => (p, false)

/-- `src/polynomial/div_rem.rs:345-351` `checked_div_assign_single`, `455-457, 466-468`
`checked_exact_div_assign` by a coefficient: `mem::replace` leaves zero behind, and `?` returns before
the assignment -/
def checkedExactDivAssignCoeff (p : Poly T) (c : T) : Poly T × Bool :=
  let taken := p
  let p := (0 : Poly T)
  match taken.divCoeff c with
  | some v => (v, true)
  | none => (p, false)

/-- `src/polynomial/div_rem.rs:258-263` `p /= q`: `none` is the panic -/
def divAssign (p q : Poly T) : Option (Poly T) := p.div q

/-- `src/polynomial/div_rem.rs:265-270` `p %= q` -/
def remAssign (p q : Poly T) : Option (Poly T) := p.rem q

end

/-! ### Reduction -/

/-- `src/polynomial.rs:660-678` `get_nonzero_reducing_factor` for the integer types -/
def nonzeroReducingFactorInt (p : Poly ℤ) : Option ℤ :=
  match p.raw.elements.foldl (fun (lhs : Option ℤ) rhs => match lhs with
      | none => some rhs
      | some lhs => some (intGcd lhs rhs)) none with
  | none => none
  | some retval =>
    let c : ℤ := p.raw.elements.getLastD 0
    if decide (c < 0) != decide (retval < 0) then some (0 - retval) else some retval

/-- `src/polynomial.rs:1303-1308` `reducing_factor` for the integer types -/
def reducingFactorInt (p : Poly ℤ) : ℤ := p.nonzeroReducingFactorInt.getD 0

/-- `src/polynomial.rs:1310-1332` `reduce_assign`, `into_reduced`, `to_reduced` for the integer types -/
def reducedInt (p : Poly ℤ) : Option (Poly ℤ) :=
  match p.nonzeroReducingFactorInt with
  | none => some p
  | some d => p.divCoeff d

/-- `src/polynomial.rs:268-273` `get_nonzero_reducing_factor` for `Ratio` -/
def nonzeroReducingFactorRat (p : Poly ℚ) : Option ℚ :=
  match p.raw.elements.getLast? with
  | none => none
  | some (e : ℤ) => some (e / ((p.raw.divisor : ℕ+) : ℕ))

/-- `src/mod_int.rs:1246-1251` `get_nonzero_reducing_factor` for `ModularInteger` -/
def nonzeroReducingFactorMod {n : ℕ} (p : Poly (ZMod n)) : Option (ZMod n) := p.raw.elements.getLast?

/-- `src/polynomial.rs:1303-1308` `reducing_factor` for `Ratio` -/
def reducingFactorRat (p : Poly ℚ) : ℚ := p.nonzeroReducingFactorRat.getD 0

/-- `src/polynomial.rs:1310-1332` `to_reduced` for `Ratio` -/
def reducedRat (p : Poly ℚ) : Option (Poly ℚ) :=
  match p.nonzeroReducingFactorRat with
  | none => some p
  | some d => p.divCoeff d

/-- `src/polynomial.rs:1310-1332` `to_reduced` for `ModularInteger` -/
def reducedMod {n : ℕ} (p : Poly (ZMod n)) : Option (Poly (ZMod n)) :=
  match p.nonzeroReducingFactorMod with
  | none => some p
  | some d => p.divCoeff d

end Poly

/-! ## Modular integers -/

namespace ModInt

/-- `src/mod_int.rs:32` `modular_add_ref_assign`, see `modularAdd` -/
def addRefAssign (t : IntTy) (a b m : ℤ) : Option ℤ := modularAdd t a b m

/-- `src/mod_int.rs:33-36` `modular_add_move_assign` -/
def addMoveAssign (t : IntTy) (a b m : ℤ) : Option ℤ := addRefAssign t a b m

/-- `src/mod_int.rs:41-45` `modular_add_move_ref` -/
def addMoveRef (t : IntTy) (a b m : ℤ) : Option ℤ := addRefAssign t a b m

/-- `src/mod_int.rs:37-40` `modular_add_ref_ref` -/
def addRefRef (t : IntTy) (a b m : ℤ) : Option ℤ := addMoveRef t a b m

/-- `src/mod_int.rs:50-54` `modular_add_move_move` -/
def addMoveMove (t : IntTy) (a b m : ℤ) : Option ℤ := addMoveAssign t a b m

/-- `src/mod_int.rs:46-49` `modular_add_ref_move` -/
def addRefMove (t : IntTy) (a b m : ℤ) : Option ℤ := addMoveMove t a b m

/-- `src/mod_int.rs:61-64` `modular_neg_move` -/
def negMove (t : IntTy) (a m : ℤ) : Option ℤ := modularNeg t a m

/-- `src/mod_int.rs:56-59` `modular_neg_ref` -/
def negRef (t : IntTy) (a m : ℤ) : Option ℤ := negMove t a m

/-- `src/mod_int.rs:65-68` `modular_sub_ref_assign` -/
def subRefAssign (t : IntTy) (a b m : ℤ) : Option ℤ :=
  match negRef t b m with
  | none => none
  | some nb => addMoveAssign t a nb m

/-- `src/mod_int.rs:69-72` `modular_sub_move_assign` -/
def subMoveAssign (t : IntTy) (a b m : ℤ) : Option ℤ := subRefAssign t a b m

/-- `src/mod_int.rs:77-81` `modular_sub_move_ref` -/
def subMoveRef (t : IntTy) (a b m : ℤ) : Option ℤ := subRefAssign t a b m

/-- `src/mod_int.rs:73-76` `modular_sub_ref_ref` -/
def subRefRef (t : IntTy) (a b m : ℤ) : Option ℤ := subMoveRef t a b m

/-- `src/mod_int.rs:86-90` `modular_sub_move_move` -/
def subMoveMove (t : IntTy) (a b m : ℤ) : Option ℤ := subMoveAssign t a b m

/-- `src/mod_int.rs:82-85` `modular_sub_ref_move` -/
def subRefMove (t : IntTy) (a b m : ℤ) : Option ℤ := subMoveMove t a b m

/-- `src/mod_int.rs:91` `modular_mul_ref_assign`, see `modularMul` -/
def mulRefAssign (t : IntTy) (a b m : ℤ) : Option ℤ := modularMul t a b m

/-- `src/mod_int.rs:92-95` `modular_mul_move_assign` -/
def mulMoveAssign (t : IntTy) (a b m : ℤ) : Option ℤ := mulRefAssign t a b m

/-- `src/mod_int.rs:100-104` `modular_mul_move_ref` -/
def mulMoveRef (t : IntTy) (a b m : ℤ) : Option ℤ := mulRefAssign t a b m

/-- `src/mod_int.rs:96-99` `modular_mul_ref_ref` -/
def mulRefRef (t : IntTy) (a b m : ℤ) : Option ℤ := mulMoveRef t a b m

/-- `src/mod_int.rs:109-113` `modular_mul_move_move` -/
def mulMoveMove (t : IntTy) (a b m : ℤ) : Option ℤ := mulMoveAssign t a b m

/-- `src/mod_int.rs:105-108` `modular_mul_ref_move` -/
def mulRefMove (t : IntTy) (a b m : ℤ) : Option ℤ := mulMoveMove t a b m

/-- `require_matching_moduli` (`src/mod_int.rs:662-664`), then an operation on the values; the modulus
of the result is the one of the left operand.  `none` is the panic. -/
def withModulus (f : ℤ → ℤ → ℤ → Option ℤ) (x y : ModInt) : Option ModInt :=
  if x.modulus = y.modulus then (f x.value y.value x.modulus).map fun v => ⟨v, x.modulus⟩ else none

/-- `src/mod_int.rs:746-810` `Add` and `AddAssign`: `x + y`, `x += y`, `x += &y`, `x + &y`, `&x + y`,
`&x + &y` -/
def addForms (t : IntTy) : List (ModInt → ModInt → Option ModInt) :=
  [withModulus (addMoveMove t), withModulus (addMoveAssign t), withModulus (addRefAssign t),
    withModulus (addMoveRef t), withModulus (addRefMove t), withModulus (addRefRef t)]

/-- `src/mod_int.rs:843-909` `Sub` and `SubAssign`: `x - y`, `x - &y`, `&x - y`, `&x - &y`, `x -= y`,
`x -= &y` -/
def subForms (t : IntTy) : List (ModInt → ModInt → Option ModInt) :=
  [withModulus (subMoveMove t), withModulus (subMoveRef t), withModulus (subRefMove t),
    withModulus (subRefRef t), withModulus (subMoveAssign t), withModulus (subRefAssign t)]

/-- `src/mod_int.rs:923-987` `Mul` and `MulAssign`: `x * y`, `x *= y`, `x *= &y`, `x * &y`, `&x * y`,
`&x * &y` -/
def mulForms (t : IntTy) : List (ModInt → ModInt → Option ModInt) :=
  [withModulus (mulMoveMove t), withModulus (mulMoveAssign t), withModulus (mulRefAssign t),
    withModulus (mulMoveRef t), withModulus (mulRefMove t), withModulus (mulRefRef t)]

/-- the checked forms: different moduli are `None` (the inner `none`), the outer `none` is a panic -/
def withModulusChecked (f : ℤ → ℤ → ℤ → Option ℤ) (x y : ModInt) : Option (Option ModInt) :=
  if x.modulus ≠ y.modulus then some none
  else (f x.value y.value x.modulus).map fun v => some ⟨v, x.modulus⟩

/-- `src/mod_int.rs:812-822` `checked_add` -/
def checkedAdd (t : IntTy) : ModInt → ModInt → Option (Option ModInt) := withModulusChecked (addRefRef t)

/-- `src/mod_int.rs:911-921` `checked_sub` -/
def checkedSub (t : IntTy) : ModInt → ModInt → Option (Option ModInt) := withModulusChecked (subRefRef t)

/-- `src/mod_int.rs:989-999` `checked_mul` -/
def checkedMul (t : IntTy) : ModInt → ModInt → Option (Option ModInt) := withModulusChecked (mulRefRef t)

/-- `src/mod_int.rs:824-830` `-x` -/
def negOwned (t : IntTy) (x : ModInt) : Option ModInt :=
  (negMove t x.value x.modulus).map fun v => { x with value := v }

/-- `src/mod_int.rs:832-841` `-&x` -/
def negOfRef (t : IntTy) (x : ModInt) : Option ModInt :=
  (negRef t x.value x.modulus).map fun v => ⟨v, x.modulus⟩

/-- `src/mod_int.rs:678-681` `neg_assign` -/
def negAssign (t : IntTy) (x : ModInt) : Option ModInt :=
  (modularNeg t x.value x.modulus).map fun v => { x with value := v }

/-- an operation with the inverse of the right operand (`inverse`, `src/mod_int.rs:1015-1018`, panics
where `checked_inverse` gives `None`) -/
def withInverse (f : ModInt → ModInt → Option ModInt) (t : IntTy) (ext : ℤ → ℤ → ExtGcd)
    (x y : ModInt) : Option ModInt :=
  match checkedInverse t ext y with
  | none => none
  | some i => f x i

/-- `src/mod_int.rs:1022-1071` `x /= y`, `x /= &y`, `x / y`, `&x / y`, `x / &y`, `&x / &y`;
`src/mod_int.rs:1088-1090, 1110-1112` `exact_div`, `exact_div_assign` are the same functions -/
def divForms (t : IntTy) (ext : ℤ → ℤ → ExtGcd) : List (ModInt → ModInt → Option ModInt) :=
  [withInverse (withModulus (mulMoveAssign t)) t ext, withInverse (withModulus (mulMoveAssign t)) t ext,
    withInverse (withModulus (mulMoveMove t)) t ext, withInverse (withModulus (mulRefRef t)) t ext,
    withInverse (withModulus (mulMoveMove t)) t ext, withInverse (withModulus (mulRefRef t)) t ext]

/-- `src/mod_int.rs:1073-1079` `checked_div`, `1091-1093` `checked_exact_div` -/
def checkedDiv (t : IntTy) (ext : ℤ → ℤ → ExtGcd) (x y : ModInt) : Option (Option ModInt) :=
  match checkedInverse t ext y with
  | none => some none
  | some i => checkedMul t x i

/-- `src/mod_int.rs:1113-1120` `checked_exact_div_assign`: the left operand afterwards and whether the
result is `Ok`; the outer `none` is a panic -/
def checkedExactDivAssign (t : IntTy) (ext : ℤ → ℤ → ExtGcd) (x y : ModInt) : Option (ModInt × Bool) :=
  match checkedDiv t ext x y with
  | none => none
  | some (some v) => some (v, true)
  | some none => some (x, false)

end ModInt

/-! ## Integers -/

/-- `src/traits.rs:641-643` `checked_div_rem` on a machine integer type: `checked_div` and `checked_rem`
give `None` for a zero divisor and for the minimum divided by `-1` -/
def checkedDivRem (t : IntTy) (a b : ℤ) : Option (ℤ × ℤ) :=
  if b = 0 then none
  else
    match t.check (a.tdiv b) with
    | none => none
    | some q => some (q, a.tmod b)

/-- `src/traits.rs:662-669` `checked_exact_div` for integers -/
def checkedExactDivPrim (t : IntTy) (a b : ℤ) : Option ℤ :=
  match checkedDivRem t a b with
  | none => none
  | some (q, r) => if r = 0 then some q else none

/-- `src/traits.rs:657-661` `exact_div` for integers: `div_rem` panics for a zero divisor and on overflow,
then the assertion -/
def exactDivPrim (t : IntTy) (a b : ℤ) : Option ℤ :=
  if b = 0 then none
  else
    match t.check (a.tdiv b) with
    | none => none
    | some q => if a.tmod b = 0 then some q else none

/-- `src/traits.rs:706-713, 720-727` `checked_exact_div_assign` for integers -/
def checkedExactDivAssignPrim (t : IntTy) (a b : ℤ) : ℤ × Bool :=
  match checkedExactDivPrim t a b with
  | some v => (v, true)
  | none => (a, false)

/-- `src/traits.rs:588-594` `checked_exact_div` for `Ratio` -/
def checkedExactDivRat (a b : ℚ) : Option ℚ := if b = 0 then none else some (a / b)

/-- `src/traits.rs:613-620` `checked_exact_div_assign` for `Ratio` -/
def checkedExactDivAssignRat (a b : ℚ) : ℚ × Bool := if b = 0 then (a, false) else (a / b, true)

/-! ## Intervals -/

/-- the types of the right operand of an operation on an interval other than an interval:
`src/interval_arithmetic.rs:921-970`.  A `Ratio` of a machine integer type is given by its two fields. -/
inductive Scalar where
  | bigInt (k : ℤ)
  | prim (t : IntTy) (k : ℤ)
  | ratioBig (q : ℚ)
  | ratioPrim (t : IntTy) (numer denom : ℤ)

namespace DFI

/-- `src/interval_arithmetic.rs:921-951` the forwarding of the assigning operations to the ones with
`BigInt` and `Ratio<BigInt>`; `Ratio::new` panics on a zero denominator -/
def forward (onInt : DFI → ℤ → Option DFI) (onRatio : DFI → ℚ → Option DFI) (a : DFI) :
    Scalar → Option DFI
  | .bigInt k => onInt a k
  | .prim _ k => onInt a k
  | .ratioBig q => onRatio a q
  | .ratioPrim _ n d => if d = 0 then none else onRatio a ((n : ℚ) / d)

/-- `+=` and `+` with a number, `src/interval_arithmetic.rs:1004-1036`; `+` is by `887-919` the assigning
operation on the left operand or a copy of it -/
def addScalar (a : DFI) (s : Scalar) : Option DFI :=
  forward (fun a k => some (a.addInt k)) (fun a q => some (a.addRatio q)) a s

/-- `-=` and `-` with a number, `src/interval_arithmetic.rs:1050-1082` -/
def subScalar (a : DFI) (s : Scalar) : Option DFI :=
  forward (fun a k => some (a.subInt k)) (fun a q => some (a.subRatio q)) a s

/-- `*=` and `*` with a number, `src/interval_arithmetic.rs:1096-1123` -/
def mulScalar (a : DFI) (s : Scalar) : Option DFI :=
  forward (fun a k => some (a.mulInt k)) (fun a q => some (a.mulRatio q)) a s

/-- `/=` and `/` with a number, `src/interval_arithmetic.rs:1185-1212` -/
def divScalar (a : DFI) (s : Scalar) : Option DFI := forward divInt divRatio a s

/-- `src/interval_arithmetic.rs:411-418, 1164-1180` `checked_exact_div_assign`: the left operand
afterwards and whether the result is `Ok` -/
def checkedExactDivAssign (a b : DFI) : DFI × Bool :=
  match b.checkedRecip with
  | some r => (a.mul r, true)
  | none => (a, false)

/-- `src/interval_arithmetic.rs:1137-1160` `checked_exact_div` -/
def checkedExactDiv (a b : DFI) : Option DFI :=
  let r := a.checkedExactDivAssign b
  if r.2 then some r.1 else none

end DFI

/-! ## Real algebraic numbers -/

/-- what an exponent may be: `src/algebraic_numbers.rs:25-40, 114-118, 137-142`; a pair is a numerator and a
denominator, a reference stands for what it points to.  The fields of a `Ratio` are in lowest terms. -/
inductive Exponent where
  | int (k : ℤ)
  | pair (numer denom : ℤ)
  | ratio (q : ℚ)
  | ref (e : Exponent)

/-- `into_rational_exponent`, `src/algebraic_numbers.rs:25-40, 114-118, 137-142`; `none` is the panic of
`Ratio::new` -/
def Exponent.intoRational : Exponent → Option ℚ
  | .int k => some k
  | .pair n d => if d = 0 then none else some ((n : ℚ) / d)
  | .ratio q => some q
  | .ref e => e.intoRational

namespace RealAlg

/-- `src/algebraic_numbers.rs:1085-1089` `x += &y` -/
def addAssignRef (F : FactorCall) (fuel : ℕ) (a b : RealAlg) : Except Stop RealAlg := a.add F fuel b

/-- `src/algebraic_numbers.rs:1091-1119` `x + y`, `x + &y`, `&x + y`, `&x + &y`, and `x += y`, `x += &y` -/
def addForms (F : FactorCall) (fuel : ℕ) : List (RealAlg → RealAlg → Except Stop RealAlg) :=
  [fun a b => a.add F fuel b, fun a b => addAssignRef F fuel a b, fun a b => a.add F fuel b,
    fun a b => addAssignRef F fuel a b, fun a b => a.add F fuel b, fun a b => addAssignRef F fuel a b]

/-- `src/algebraic_numbers.rs:1147-1157` `x -= y`, `x -= &y`: the sum with the negated operand -/
def subAssign (F : FactorCall) (fuel : ℕ) (a b : RealAlg) : Except Stop RealAlg := do
  let n ← b.neg
  a.add F fuel n

/-- `src/algebraic_numbers.rs:1147-1187`, the forms of `-` -/
def subForms (F : FactorCall) (fuel : ℕ) : List (RealAlg → RealAlg → Except Stop RealAlg) :=
  List.replicate 6 fun a b => subAssign F fuel a b

/-- `src/algebraic_numbers.rs:1325-1329` `x *= &y` -/
def mulAssignRef (F : FactorCall) (fuel : ℕ) (a b : RealAlg) : Except Stop RealAlg := a.mul F fuel b

/-- `src/algebraic_numbers.rs:1269-1359`, the forms of `*` -/
def mulForms (F : FactorCall) (fuel : ℕ) : List (RealAlg → RealAlg → Except Stop RealAlg) :=
  [fun a b => a.mul F fuel b, fun a b => mulAssignRef F fuel a b, fun a b => a.mul F fuel b,
    fun a b => mulAssignRef F fuel a b, fun a b => a.mul F fuel b, fun a b => mulAssignRef F fuel a b]

/-- `src/algebraic_numbers.rs:1361-1372` `checked_exact_div_assign`: the left operand afterwards and
whether the result is `Ok` -/
def checkedExactDivAssign (F : FactorCall) (fuel : ℕ) (a b : RealAlg) : Except Stop (RealAlg × Bool) := do
  match ← b.checkedRecip fuel with
  | none => return (a, false)
  | some r =>
    let m ← mulAssignRef F fuel a r
    return (m, true)

/-- `src/traits.rs:554-558` `exact_div_assign`, `src/algebraic_numbers.rs:1411-1421` `/=` -/
def exactDivAssign (F : FactorCall) (fuel : ℕ) (a b : RealAlg) : Except Stop RealAlg := do
  let r ← checkedExactDivAssign F fuel a b
  if r.2 then return r.1 else throw .panic

/-- `src/algebraic_numbers.rs:1381-1409` `checked_exact_div` -/
def checkedExactDivForm (F : FactorCall) (fuel : ℕ) (a b : RealAlg) : Except Stop (Option RealAlg) := do
  let r ← checkedExactDivAssign F fuel a b
  return if r.2 then some r.1 else none

/-- `src/algebraic_numbers.rs:1493-1507` `pow` with any kind of exponent -/
def powForm (ln2 : ℕ → ℕ → DFI) (F : FactorCall) (fuel : ℕ) (a : RealAlg) (e : Exponent) :
    Except Stop RealAlg := do
  let q ← orPanic e.intoRational
  let r ← a.checkedPow ln2 F fuel q
  orPanic r

/-- `src/algebraic_numbers.rs:791-796` `checked_pow`, `checked_into_pow` with any kind of exponent -/
def checkedPowForm (ln2 : ℕ → ℕ → DFI) (F : FactorCall) (fuel : ℕ) (a : RealAlg) (e : Exponent) :
    Except Stop (Option RealAlg) := do
  let q ← orPanic e.intoRational
  a.checkedPow ln2 F fuel q

end RealAlg

end Algebraics
