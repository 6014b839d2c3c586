import Verif.Lemmas.Poly
import Verif.Model.AlgNum

/-!
# Model of the text output: `Display` and `Debug`

A text is a list of characters.  The texts of integers (`num-bigint` and the standard library) and of
fractions (`num-rational`) are external: decimal digits with a minus sign, and `n/d`, or just `n` when
the denominator is one.  Only the plain forms `{}` and `{:?}` are modelled, not widths, fill
characters or the multi-line `{:#?}`.
-/

namespace Algebraics

/-- a printed text -/
abbrev Text := List Char

/-- external: a natural number in decimal digits. -/
def decimal (n : ℕ) : Text := Nat.toDigits 10 n

/-- external: an integer in decimal digits. -/
def intText (z : ℤ) : Text := if z < 0 then '-' :: decimal z.natAbs else decimal z.natAbs

/-- external: `Display for Ratio` of `num-rational`. -/
def ratText (q : ℚ) : Text :=
  if q.den = 1 then intText q.num else intText q.num ++ '/' :: decimal q.den

/-- `src/mod_int.rs:652-656` `Display for ModularInteger`; the modulus is printed by `Display` of the
modulus type, which prints the number for every modulus type of the crate (`277-281`, `343-347`,
`510-514`). -/
def modIntText (m : ℕ) (v : ZMod m) : Text :=
  "mod_int(".toList ++ decimal v.val ++ ", ".toList ++ decimal m ++ ")".toList

/-- `src/polynomial.rs:1636-1639` `VARIABLE_CHARS` -/
def variableChars : List Char := "XYZABCDEFGHIJKLMNOPQRSTUVW".toList

/-- `src/polynomial.rs:1635-1648` `get_variable_name`. -/
def variableName (n : ℕ) : Text :=
  if n < variableChars.length then [variableChars.getD n ' ']
  else variableName (n / variableChars.length) ++
    [variableChars.getD (n % variableChars.length) ' ']
termination_by n
decreasing_by
  rename_i h
  have hl : variableChars.length = 26 := rfl
  rw [hl] at h ⊢
  omega

/-- `Display` of a coefficient type together with `PolynomialCoefficient::NESTING_DEPTH`
(`src/polynomial.rs:99-100`). -/
class Printable (T : Type) where
  nestingDepth : ℕ
  text : T → Text

/-- `src/polynomial.rs:582` -/
instance : Printable ℤ := ⟨0, intText⟩

/-- `src/polynomial.rs:288` -/
instance : Printable ℚ := ⟨0, ratText⟩

/-- `src/mod_int.rs:1144` -/
instance (m : ℕ) : Printable (ZMod m) := ⟨0, modIntText m⟩

/-- `src/polynomial.rs:1659-1671`: one round of the loop, the coefficient of `X^power`. -/
def coefficientText {T : Type} [Printable T] (power : ℕ) (c : T) : Text :=
  let depth := Printable.nestingDepth T
  let leftParen : Text := if depth ≠ 0 then ['('] else []
  let rightParen : Text := if depth ≠ 0 then [')'] else []
  match power with
  | 0 => Printable.text c
  | 1 => " + ".toList ++ leftParen ++ Printable.text c ++ rightParen ++ "*".toList ++
      variableName depth
  | _ => " + ".toList ++ leftParen ++ Printable.text c ++ rightParen ++ "*".toList ++
      variableName depth ++ "^".toList ++ decimal power

/-- the loop `src/polynomial.rs:1658-1672` from the coefficient of `X^power` on. -/
def coefficientsText {T : Type} [Printable T] (power : ℕ) : List T → Text
  | [] => []
  | c :: cs => coefficientText power c ++ coefficientsText (power + 1) cs

/-- `src/polynomial.rs:1650-1676` `Display for Polynomial`. -/
def Poly.text {T : Type} [CommRing T] [PolyCoeff T] [Printable T] (p : Poly T) : Text :=
  if p.coeffs.isEmpty then "0".toList else coefficientsText 0 p.coeffs

/-- `src/polynomial.rs:710` `NESTING_DEPTH` of a polynomial. -/
instance {T : Type} [CommRing T] [PolyCoeff T] [Printable T] : Printable (Poly T) :=
  ⟨Printable.nestingDepth T + 1, Poly.text⟩

/-- `src/polynomial.rs:1552-1556` `Display for PolynomialFactor`. -/
def factorText {T : Type} [CommRing T] [PolyCoeff T] [Printable T] (f : Poly T × ℕ) : Text :=
  "(".toList ++ f.1.text ++ ")^".toList ++ decimal f.2

/-- `src/interval_arithmetic.rs:854-862` `Display for DyadicFractionInterval`. -/
def DFI.text (i : DFI) : Text :=
  "[".toList ++ intText i.lo ++ " / 2^".toList ++ decimal i.log2Denom ++ ", ".toList ++
    intText i.hi ++ " / 2^".toList ++ decimal i.log2Denom ++ "]".toList

/-- `src/interval_arithmetic.rs:838-852` `Debug for DyadicFractionInterval`. -/
def DFI.debugText (i : DFI) : Text :=
  "DyadicFractionInterval { lower_bound_numer: ".toList ++ intText i.lo ++
    ", upper_bound_numer: ".toList ++ intText i.hi ++ ", log2_denom: ".toList ++
    decimal i.log2Denom ++ " }".toList

/-- `src/algebraic_numbers.rs:71-83, 96-100` `Debug for RealAlgebraicNumber`. -/
def RealAlg.debugText (a : RealAlg) : Text :=
  "RealAlgebraicNumber { minimal_polynomial: ".toList ++ a.poly.text ++ ", interval: ".toList ++
    a.interval.debugText ++ " }".toList

/-- `src/python.rs:121-123` `__repr__`. -/
def RealAlg.pyRepr (a : RealAlg) : Text := "<".toList ++ a.debugText ++ ">".toList

end Algebraics
