import Verif.Model.ModInt

/-!
# Model of the modulus types of `src/mod_int.rs`

A modulus is an integer, a reference to a modulus, one of the unit types `Mod1` … `Mod16`, or a modulus
wrapped in `KnownPrime` or `KnownOdd`.  Which marker traits a modulus has depends on its type only; the
functions `isPrimeModulus`, `isOddModulus` and `isPrimePowerModulus` are the trait resolution.
-/

namespace Algebraics

/-- the unit types `Mod1` … `Mod16`, `src/mod_int.rs:572-587`; `n` is `k - 1` for `Modk` -/
abbrev StaticMod := Fin 16

namespace StaticMod

/-- the value in the macro call, `src/mod_int.rs:572-587` -/
def value (s : StaticMod) : ℤ := s.val + 1

/-- the options of the macro calls, `src/mod_int.rs:572-587`: is `odd` among them -/
def markedOdd (s : StaticMod) : Bool :=
  match s.val + 1 with
  | 1 | 3 | 5 | 7 | 9 | 11 | 13 | 15 => true
  | _ => false

/-- the options of the macro calls, `src/mod_int.rs:572-587`: is `prime` among them -/
def markedPrime (s : StaticMod) : Bool :=
  match s.val + 1 with
  | 2 | 3 | 5 | 7 | 11 | 13 => true
  | _ => false

/-- the options of the macro calls, `src/mod_int.rs:572-587`: the base and exponent of `prime_power`;
`prime` stands for `prime_power(value, 1)` (`547-553`) -/
def markedPower (s : StaticMod) : Option (ℤ × ℕ) :=
  match s.val + 1 with
  | 4 => some (2, 2)
  | 8 => some (2, 3)
  | 9 => some (3, 2)
  | 16 => some (2, 4)
  | _ => if s.markedPrime then some (s.value, 1) else none

end StaticMod

/-- the values of the types that implement `Modulus` -/
inductive Modulus
  /-- an integer, `src/mod_int.rs:351-360` -/
  | int (v : ℤ)
  /-- a reference, `src/mod_int.rs:181-186` -/
  | ref (m : Modulus)
  /-- `KnownPrime(m)`, `src/mod_int.rs:223-281`; `new_unsafe` (`228-230`) is the constructor -/
  | knownPrime (m : Modulus)
  /-- `KnownOdd(m)`, `src/mod_int.rs:292-347`; `new_unsafe` (`297-299`) is the constructor -/
  | knownOdd (m : Modulus)
  /-- one of the unit types, `src/mod_int.rs:505-587` -/
  | unit (s : StaticMod)
  deriving DecidableEq, Repr

namespace Modulus

/-- `to_modulus`/`into_modulus` into the integer type `t`: `src/mod_int.rs:176-178, 183-185, 247-253,
316-322, 353-359, 519-525`; `expect` is `none` -/
def intoModulus (t : IntTy) : Modulus → Option ℤ
  | int v => some v
  | ref m => m.intoModulus t
  | knownPrime m => m.intoModulus t
  | knownOdd m => m.intoModulus t
  | unit s => t.check s.value

/-- trait `PrimeModulus`: `src/mod_int.rs:266, 332, 549-551` -/
def isPrimeModulus : Modulus → Bool
  | int _ => false
  | ref _ => false
  | knownPrime _ => true
  | knownOdd m => m.isPrimeModulus
  | unit s => s.markedPrime

/-- trait `OddModulus`: `src/mod_int.rs:268, 334, 556-558, 563-565` -/
def isOddModulus : Modulus → Bool
  | int _ => false
  | ref _ => false
  | knownPrime m => m.isOddModulus
  | knownOdd _ => true
  | unit s => s.markedOdd

/-- trait `PrimePowerModulus`: `src/mod_int.rs:256, 325, 535` -/
def isPrimePowerModulus : Modulus → Bool
  | int _ => false
  | ref _ => false
  | knownPrime _ => true
  | knownOdd m => m.isPrimePowerModulus
  | unit s => s.markedPower.isSome

/-- `base_and_exponent`: `src/mod_int.rs:258-263, 327-329, 537-542`; `none` for a type without the method
and for a panic of `expect` -/
def baseAndExponent (t : IntTy) : Modulus → Option (ℤ × ℕ)
  | int _ => none
  | ref _ => none
  | knownPrime m => (m.intoModulus t).map (·, 1)
  | knownOdd m => m.baseAndExponent t
  | unit s => s.markedPower.bind fun be => (t.check be.1).map (·, be.2)

/-- `Deref::deref` and `unwrap` of the wrappers: `src/mod_int.rs:232-234, 240-242, 301-303, 309-311` -/
def unwrap : Modulus → Option Modulus
  | knownPrime m => some m
  | knownOdd m => some m
  | _ => none

/-- `KnownOddPrime::new_odd_prime_unsafe`, `src/mod_int.rs:287-289` -/
def newOddPrimeUnsafe (m : Modulus) : Modulus := knownOdd (knownPrime m)

/-- `Default::default()` of the type of a modulus (derived: `src/mod_int.rs:223, 292, 507`, zero for
integers; references have none) -/
def default : Modulus → Option Modulus
  | int _ => some (int 0)
  | ref _ => none
  | knownPrime m => m.default.map knownPrime
  | knownOdd m => m.default.map knownOdd
  | unit s => some (unit s)

/-- trait `StaticModulus`: `src/mod_int.rs:270, 336, 528` -/
def isStatic : Modulus → Bool
  | int _ => false
  | ref _ => false
  | knownPrime m => m.isStatic
  | knownOdd m => m.isStatic
  | unit _ => true

/-- `StaticModulus::get_modulus`: the default method (`src/mod_int.rs:190-192`, `Self::default()` converted)
for the unit types, passed on by the wrappers (`272-274, 338-340`) -/
def getModulus (t : IntTy) : Modulus → Option ℤ
  | int _ => none
  | ref _ => none
  | knownPrime m => m.getModulus t
  | knownOdd m => m.getModulus t
  | unit s => ((unit s).default).bind (·.intoModulus t)

end Modulus

end Algebraics
