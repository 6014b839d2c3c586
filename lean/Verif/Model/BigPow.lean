import Verif.Model.ModInt

/-!
# Model of `pow_modular_reduce` for `BigInt` and `BigUint`
-/

namespace Algebraics

namespace ModInt

/-- The documented meaning of `num-bigint`'s `BigInt::modpow` and `BigUint::modpow`, which
`src/mod_int.rs:449-460` calls: the power, reduced with the sign of the modulus; a negative exponent and a modulus
of zero panic. (Outside this crate; an assumption about the parameter `modpow` below.) -/
def IsModpow (modpow : ℤ → ℤ → ℤ → Option ℤ) : Prop :=
  ∀ base exponent modulus : ℤ, modpow base exponent modulus =
    if exponent < 0 ∨ modulus = 0 then none else some ((base ^ exponent.toNat).fmod modulus)

/-- `src/mod_int.rs:453-458` `pow_modular_reduce` for `BigInt` and `BigUint`: the exponent is converted to the type
of the base, so it may be negative for `BigInt`. -/
def powModularReduceBig (modpow : ℤ → ℤ → ℤ → Option ℤ) (v exponent modulus : ℤ) : Option ℤ :=
  modpow v exponent modulus

/-- `src/mod_int.rs:1234-1238` `element_pow_usize` for the two big types. -/
def powBig (modpow : ℤ → ℤ → ℤ → Option ℤ) (a : ModInt) (exponent : ℕ) : Option ModInt :=
  (powModularReduceBig modpow a.value exponent a.modulus).map fun v => ⟨v, a.modulus⟩

/-- the accumulator update of `src/mod_int.rs:429-436` for an exponent of a signed type -/
def powAccSigned (t : IntTy) (modulus base exponent : ℤ) (retval : Option ℤ) : Option (Option ℤ) :=
  if exponent % 2 = 1 then
    match retval with
    | none => some (some base)
    | some r => (modularMul t r base modulus).map some
  else some retval

/-- the loop of `src/mod_int.rs:428-442` for an exponent of a signed type, which is divided with truncation; the
fuel is its absolute value, which at least halves. -/
def powLoopSigned (t : IntTy) (modulus : ℤ) : ℕ → ℤ → ℤ → Option ℤ → Option ℤ
  | 0, _, _, retval => retval
  | fuel + 1, base, exponent, retval =>
    match powAccSigned t modulus base exponent retval with
    | none => none
    | some retval =>
      if exponent.tdiv 2 = 0 then retval
      else
        match modularMul t base base modulus with
        | none => none
        | some base => powLoopSigned t modulus fuel base (exponent.tdiv 2) retval

/-- `src/mod_int.rs:415-445` `pow_modular_reduce` for the primitive integer types and exponents of any `Integer`
type, so also negative ones. -/
def powModularReduceSigned (t : IntTy) (v exponent modulus : ℤ) : Option ℤ :=
  if exponent = 0 then some 1
  else
    match modularReduce t v modulus with
    | none => none
    | some base =>
      if exponent = 1 then some base else powLoopSigned t modulus exponent.natAbs base exponent none

end ModInt

end Algebraics
