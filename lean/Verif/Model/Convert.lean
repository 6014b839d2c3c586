import Verif.Model.ModInt
import Verif.Model.Poly
import Verif.Lemmas.Poly

/-!
# Model of the conversions of `src/polynomial.rs` from and to coefficients, stored fields and machine integers

The conversions of the coefficient type itself (`FromPrimitive`, `ToPrimitive` of `BigInt`, …) are outside the
crate; they are the classes `FromPrim` and `ToPrim`, with the instance of `BigInt`.
-/

namespace Algebraics

open PolyCoeff

/-- `num_traits::FromPrimitive` for the integer types (the float methods are not modelled) -/
class FromPrim (T : Type) where
  /-- `from_i8`, `from_u8`, …; the machine type is the first argument -/
  fromPrim : IntTy → ℤ → Option T

/-- `num_traits::ToPrimitive` for the integer types (the float methods are not modelled) -/
class ToPrim (T : Type) where
  /-- `to_i8`, `to_u8`, …; the machine type is the first argument -/
  toPrim : IntTy → T → Option ℤ

/-- `BigInt`: every machine integer converts, and back if it fits -/
instance : FromPrim ℤ := ⟨fun _ v => some v⟩

/-- `BigInt`: every machine integer converts, and back if it fits -/
instance : ToPrim ℤ := ⟨fun t v => t.check v⟩

/-- `Ratio<BigInt>` (`num-rational` 0.4): machine integers convert to themselves -/
instance : FromPrim ℚ := ⟨fun _ v => some v⟩

/-- `Ratio<BigInt>` (`num-rational` 0.4): truncated towards zero, then as for integers -/
instance : ToPrim ℚ := ⟨fun t q => t.check (q.num.tdiv q.den)⟩

variable {T : Type} [CommRing T] [PolyCoeff T] [DecidableEq T]

omit [DecidableEq T] in
theorem constant_canonical (c : T) (h : (toElem c).1 ≠ 0) :
    RawPoly.Canonical (T := T) ⟨[(toElem c).1], (toElem c).2⟩ :=
  ⟨fun _ => h, toElem_reduced c 0⟩

/-- `src/polynomial.rs:1024-1050` `From<T>` and `From<&T>` -/
def Poly.ofConst (c : T) : Poly T :=
  if h : (toElem c).1 = 0 then 0 else ⟨⟨[(toElem c).1], (toElem c).2⟩, constant_canonical c h⟩

/-- `src/polynomial.rs:1133-1137` `From<(Vec<T::Element>, T::Divisor)>` -/
def Poly.ofParts (parts : List (Elem T) × Dv T) : Poly T := Poly.normalize parts.1 parts.2

/-- `src/polynomial.rs:1139-1143` `Into<(Vec<T::Element>, T::Divisor)>` -/
def Poly.intoParts (p : Poly T) : List (Elem T) × Dv T := (p.raw.elements, p.raw.divisor)

/-- `src/polynomial.rs:1678-1701` `FromPrimitive` -/
instance [FromPrim T] : FromPrim (Poly T) := ⟨fun t v => (FromPrim.fromPrim t v).map Poly.ofConst⟩

/-- `src/polynomial.rs:1703-1732` `ToPrimitive` -/
instance [ToPrim T] : ToPrim (Poly T) := ⟨fun t p =>
  if p.len > 1 then none
  else match p.nonzeroCoefficient 0 with
    | some c => ToPrim.toPrim t c
    | none => some 0⟩

end Algebraics
