import Mathlib.Data.Int.GCD
import Mathlib.Tactic

/-!
# Model of `src/mod_int.rs`: modular integers over every integer type the code instantiates
-/

namespace Algebraics

/-- The integer types the macros are instantiated for, `src/mod_int.rs:490-503`. `isize`/`usize` are
the 64 bit types (assumption: 64 bit platform). -/
inductive IntTy
  | signed (bits : ℕ)
  | unsigned (bits : ℕ)
  | bigInt
  | bigUint
  deriving DecidableEq, Repr

namespace IntTy

/-- the value is representable -/
def fits : IntTy → ℤ → Prop
  | signed n, x => -(2 : ℤ) ^ (n - 1) ≤ x ∧ x < (2 : ℤ) ^ (n - 1)
  | unsigned n, x => 0 ≤ x ∧ x < (2 : ℤ) ^ n
  | bigInt, _ => True
  | bigUint, x => 0 ≤ x

instance (t : IntTy) (x : ℤ) : Decidable (t.fits x) := by
  cases t <;> unfold fits <;> infer_instance

/-- the wide type of each instantiation, `src/mod_int.rs:490-503` -/
def wide : IntTy → IntTy
  | signed n => if n = 128 then bigInt else signed (2 * n)
  | unsigned n => if n = 128 then bigUint else unsigned (2 * n)
  | bigInt => bigInt
  | bigUint => bigUint

/-- the types that occur in the source -/
def Instantiated : IntTy → Prop
  | signed n => n = 8 ∨ n = 16 ∨ n = 32 ∨ n = 64 ∨ n = 128
  | unsigned n => n = 8 ∨ n = 16 ∨ n = 32 ∨ n = 64 ∨ n = 128
  | bigInt => True
  | bigUint => True

/-- an arithmetic result in a type: overflow is a panic (Rust's checked arithmetic; `expect`/`unwrap`
for the conversions) -/
def check (t : IntTy) (x : ℤ) : Option ℤ := if t.fits x then some x else none

end IntTy

namespace ModInt

/-- `src/mod_int.rs:363-378` `modular_reduce`/`modular_reduce_assign`: `mod_floor` of num-integer takes the
machine remainder first, which panics when the quotient overflows, that is for the least value and `-1` -/
def modularReduce (t : IntTy) (v modulus : ℤ) : Option ℤ :=
  if modulus = 0 then some v
  else if modulus = -1 ∧ t.check (-v) = none then none
  else t.check (v.fmod modulus)

/-- `src/mod_int.rs:379-385` `modular_add_ref_assign` -/
def modularAdd (t : IntTy) (a b modulus : ℤ) : Option ℤ :=
  match t.wide.check (a + b) with
  | none => none
  | some w => if modulus = 0 then none else t.check (w.tmod modulus)

/-- `src/mod_int.rs:386-393` `modular_neg_assign` -/
def modularNeg (t : IntTy) (a modulus : ℤ) : Option ℤ :=
  match t.check (modulus - a) with
  | none => none
  | some r => if r = modulus then some 0 else some r

/-- `src/mod_int.rs:65-68` `modular_sub_ref_assign` -/
def modularSub (t : IntTy) (a b modulus : ℤ) : Option ℤ :=
  match modularNeg t b modulus with
  | none => none
  | some nb => modularAdd t a nb modulus

/-- `src/mod_int.rs:394-400` `modular_mul_ref_assign` -/
def modularMul (t : IntTy) (a b modulus : ℤ) : Option ℤ :=
  match t.wide.check (a * b) with
  | none => none
  | some w => if modulus = 0 then none else t.check (w.tmod modulus)

/-- `src/mod_int.rs:401-406` `modular_reduce_from_bigint`; all `modular_reduce_from_*` (lines 115-166)
end up here. `mod_floor` by zero panics. -/
def reduceFromBigint (t : IntTy) (v modulus : ℤ) : Option ℤ :=
  if modulus = 0 then none else t.check (v.fmod modulus)

/-- the accumulator update of `src/mod_int.rs:429-436` -/
def powAcc (t : IntTy) (modulus base : ℤ) (exponent : ℕ) (retval : Option ℤ) : Option (Option ℤ) :=
  if exponent % 2 = 1 then
    match retval with
    | none => some (some base)
    | some r => (modularMul t r base modulus).map some
  else some retval

/-- the loop of `src/mod_int.rs:428-442`; the fuel is the exponent, which at least halves. -/
def powLoop (t : IntTy) (modulus : ℤ) : ℕ → ℤ → ℕ → Option ℤ → Option ℤ
  | 0, _, _, retval => retval
  | fuel + 1, base, exponent, retval =>
    match powAcc t modulus base exponent retval with
    | none => none
    | some retval =>
      if exponent / 2 = 0 then retval
      else
        match modularMul t base base modulus with
        | none => none
        | some base => powLoop t modulus fuel base (exponent / 2) retval

/-- `src/mod_int.rs:415-445` `pow_modular_reduce` for the primitive integer types -/
def powModularReduce (t : IntTy) (v : ℤ) (exponent : ℕ) (modulus : ℤ) : Option ℤ :=
  if exponent = 0 then some 1
  else
    match modularReduce t v modulus with
    | none => none
    | some base =>
      if exponent = 1 then some base else powLoop t modulus exponent base exponent none

end ModInt

/-- `src/mod_int.rs:637-641` `ModularInteger`; the modulus types (`KnownPrime`, `Mod5`, ...) are only
carriers of a modulus value, so the modulus is modelled by its value. -/
structure ModInt where
  value : ℤ
  modulus : ℤ
  deriving DecidableEq, Repr

namespace ModInt

/-- `src/mod_int.rs:674-677` `new`, and `From<(V, M)>` (lines 740-744) -/
def new (t : IntTy) (value modulus : ℤ) : Option ModInt :=
  (modularReduce t value modulus).map fun v => ⟨v, modulus⟩

/-- `src/mod_int.rs:682-737` `from_u8` ... `from_biguint` -/
def ofBigint (t : IntTy) (value modulus : ℤ) : Option ModInt :=
  (reduceFromBigint t value modulus).map fun v => ⟨v, modulus⟩

/-- `src/mod_int.rs:746-822` `Add`, `AddAssign` (`none`: panic) and `CheckedAdd` (`none`: mismatch) -/
def add (t : IntTy) (x y : ModInt) : Option ModInt :=
  if x.modulus = y.modulus then (modularAdd t x.value y.value x.modulus).map fun v => ⟨v, x.modulus⟩
  else none

/-- `src/mod_int.rs:678-681, 824-841` `neg_assign`, `Neg` -/
def neg (t : IntTy) (x : ModInt) : Option ModInt :=
  (modularNeg t x.value x.modulus).map fun v => ⟨v, x.modulus⟩

/-- `src/mod_int.rs:843-921` `Sub`, `SubAssign`, `CheckedSub` -/
def sub (t : IntTy) (x y : ModInt) : Option ModInt :=
  if x.modulus = y.modulus then (modularSub t x.value y.value x.modulus).map fun v => ⟨v, x.modulus⟩
  else none

/-- `src/mod_int.rs:923-999` `Mul`, `MulAssign`, `CheckedMul` -/
def mul (t : IntTy) (x y : ModInt) : Option ModInt :=
  if x.modulus = y.modulus then (modularMul t x.value y.value x.modulus).map fun v => ⟨v, x.modulus⟩
  else none

/-- result of the external extended gcd (num-integer), `src/traits.rs:96-111` -/
structure ExtGcd where
  gcd : ℤ
  x : ℤ
  y : ℤ

/-- what num-integer documents about `extended_gcd` (trusted, external) -/
def IsExtGcd (ext : ℤ → ℤ → ExtGcd) : Prop :=
  ∀ a b, (ext a b).gcd = Int.gcd a b ∧ (ext a b).x * a + (ext a b).y * b = (ext a b).gcd

/-- `src/mod_int.rs:1004-1014` `checked_inverse`; `inverse` panics on `none`. -/
def checkedInverse (t : IntTy) (ext : ℤ → ℤ → ExtGcd) (a : ModInt) : Option ModInt :=
  if a.value = 0 then none
  else
    let r := ext a.value a.modulus
    if r.gcd = 1 then new t r.x a.modulus else none

/-- `src/mod_int.rs:1021-1130` `Div`, `DivAssign`, `CheckedDiv`, `ExactDiv` -/
def div (t : IntTy) (ext : ℤ → ℤ → ExtGcd) (a b : ModInt) : Option ModInt :=
  match checkedInverse t ext b with
  | none => none
  | some i => mul t a i

/-- `src/mod_int.rs:1234-1238` `element_pow_usize` for primitive types -/
def pow (t : IntTy) (a : ModInt) (exponent : ℕ) : Option ModInt :=
  (powModularReduce t a.value exponent a.modulus).map fun v => ⟨v, a.modulus⟩

/-- `src/mod_int.rs:1198-1208` `mul_assign_element_by_usize` -/
def mulByUsize (t : IntTy) (a : ModInt) (n : ℕ) : Option ModInt :=
  match reduceFromBigint t n a.modulus with
  | none => none
  | some v => (modularMul t a.value v a.modulus).map fun v => ⟨v, a.modulus⟩

end ModInt

end Algebraics
