import Verif.Model.PolyGcd
import Verif.Model.Traits

/-!
# Model of Sturm sequences and of Yun's square-free factorization (`src/polynomial.rs`)
-/

namespace Algebraics

open PolyCoeff ExactDivCoeff

namespace Poly

variable {T : Type} [CommRing T] [PolyCoeff T] [DecidableEq T] [ExactDivCoeff T]

/-- the loop of `src/polynomial.rs:1347-1359`; the two last elements of the vector are the arguments,
the result is the rest of the vector.  `remainder` is the closure argument, `none` its panic. -/
def sturmLoop (remainder : Poly T → Poly T → Option (Poly T)) :
    Nat → Poly T → Poly T → Option (List (Poly T))
  | 0, _, _ => some []
  | k + 1, nextToLast, last =>
    if last.isZero then some []
    else
      match remainder nextToLast last with
      | none => none
      | some r => (sturmLoop remainder k last (-r)).map (-r :: ·)

/-- `src/polynomial.rs:1333-1361` `into_generic_sturm_sequence`. -/
def genericSturm (derivative : Poly T → Option (Poly T))
    (remainder : Poly T → Poly T → Option (Poly T)) (p : Poly T) : Option (List (Poly T)) :=
  match p.len with
  | 0 => some []
  | 1 => some [p]
  | n + 2 =>
    match derivative p with
    | none => none
    | some d => (sturmLoop remainder n p d).map (p :: d :: ·)

/-- `src/polynomial.rs:1362-1373` `to_sturm_sequence`, `into_sturm_sequence`. -/
def sturmSequence (p : Poly T) : Option (List (Poly T)) :=
  genericSturm (fun v => some v.derivative) (fun a b => a.rem b) p

/-- the first closure of `src/polynomial.rs:1385-1397`. -/
def primitiveDerivative [LinearOrder T] (gcd : T → T → T) (v : Poly T) : Option (Poly T) :=
  match v.derivative.nonzeroContent gcd with
  | none => some v.derivative
  | some content =>
    if content < 0 then v.derivative.divCoeff (-content) else v.derivative.divCoeff content

/-- the second closure of `src/polynomial.rs:1398-1414`. -/
def primitiveRemainder [LinearOrder T] (gcd : T → T → T) (a b : Poly T) : Option (Poly T) :=
  match a.pseudoDivRem b with
  | none => none
  | some pr =>
    match pr.remainder.nonzeroContent gcd with
    | none => some pr.remainder
    | some content =>
      match pr.remainder.divCoeff content with
      | none => none
      | some r => if decide (pr.factor < 0) != decide (content < 0) then some (-r) else some r

/-- `src/polynomial.rs:1374-1416` `to_primitive_sturm_sequence`, `into_primitive_sturm_sequence`. -/
def primitiveSturmSequence [LinearOrder T] (gcd : T → T → T) (p : Poly T) : Option (List (Poly T)) :=
  genericSturm (primitiveDerivative gcd) (primitiveRemainder gcd) p

/-- the `GCD` implementation of the rationals: `src/traits.rs:129-152`. -/
def ratGcd (a b : ℚ) : ℚ := (ratGcdLcm a b).1

/-- the loop of `src/polynomial.rs:1602-1613`; `c` is overwritten before it is read, so only `b` and
`d` are state. Running out of fuel is proved impossible. -/
def yunLoop [LinearOrder T] (gcdT : T → T → T) : Nat → Poly T → Poly T → Option (List (Poly T))
  | 0, _, _ => none
  | fuel + 1, b, d =>
    match gcd b d with
    | none => none
    | some g =>
      match g.primitivePart gcdT with
      | none => none
      | some a =>
        match b.div a, d.div a with
        | some b', some c =>
          if b'.len = 1 then some [a]
          else (yunLoop gcdT fuel b' (c - b'.derivative)).map (a :: ·)
        | _, _ => none

/-- `src/polynomial.rs:1583-1618` `square_free_factorization_using_yuns_algorithm`: the constant
factor and the list of factors. `gcdT` is the `GCD` implementation of the coefficients. -/
def yun [LinearOrder T] (gcdT : T → T → T) (p : Poly T) : Option (T × List (Poly T)) :=
  if p.degree.getD 0 = 0 then some (p.nonzeroHighestPowerCoefficient.getD 0, [])
  else
    let content := p.content gcdT
    match p.divCoeff content with
    | none => none
    | some f =>
      let f' := f.derivative
      match gcd f f' with
      | none => none
      | some g =>
        match g.primitivePart gcdT with
        | none => none
        | some a0 =>
          match f.div a0, f'.div a0 with
          | some b, some c =>
            (yunLoop gcdT (b.len + p.len) b (c - b.derivative)).map fun l => (content, l)
          | _, _ => none

/-- `src/polynomial.rs:1622-1624` `is_square_free`; `none` is a panic. -/
def isSquareFree (p : Poly T) : Option Bool :=
  (gcd p p.derivative).map fun g => decide (g.degree.getD 0 = 0)

end Poly

end Algebraics
