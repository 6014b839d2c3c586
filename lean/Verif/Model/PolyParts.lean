import Verif.Model.Convert

/-!
# Model of polynomials with `Ratio<BigInt>` coefficients made from elements and any divisor

`Polynomial<Ratio<BigInt>>` has a public conversion from a vector of numerators and a divisor
(`src/polynomial.rs:1133-1137`).  `Poly ℚ` has a positive divisor; here the divisor is any integer, as the
type allows, and the functions that read or combine the two fields are modelled again on these fields.
`none` is a panic.  `gcd`, `lcm` and `gcd_lcm` of `BigInt` (num-integer) are never negative.
-/

namespace Algebraics

/-- the fields of `Polynomial<Ratio<BigInt>>`, `src/polynomial.rs:828-832, 286-287`; `==` is derived. -/
structure RatParts where
  elements : List ℤ
  divisor : ℤ
  deriving DecidableEq, Repr

namespace RatParts

/-- the gcd of `src/polynomial.rs:423-429`; the list is not empty there. -/
def elemsGcd (es : List ℤ) (d : ℤ) : ℕ :=
  match es with
  | [] => 0
  | e :: es => es.foldl (fun g e => Int.gcd g e) (Int.gcd e d)

/-- `src/polynomial.rs:418-437` `reduce_divisor` of `Ratio<BigInt>`; a division by zero panics. -/
def reduceDivisor (es : List ℤ) (d : ℤ) : Option RatParts :=
  match es with
  | [] => some ⟨[], 1⟩
  | _ =>
    let gcd := elemsGcd es d
    if gcd = 1 then some ⟨es, d⟩
    else if gcd = 0 then none
    else some ⟨es.map (fun e => e.tdiv gcd), d.tdiv gcd⟩

/-- `src/polynomial.rs:1133-1137` `From<(Vec<Element>, Divisor)>`, `1208-1220` `normalize`. -/
def ofParts (es : List ℤ) (d : ℤ) : Option RatParts := reduceDivisor (stripZeros es) d

/-- `src/polynomial.rs:1157-1168, 415-417` `coefficient`; `Ratio::new` panics for a zero denominator. -/
def coefficient (p : RatParts) (i : ℕ) : Option ℚ :=
  match p.elements[i]? with
  | none => some 0
  | some e => if p.divisor = 0 then none else some ((e : ℚ) / p.divisor)

/-- `src/polynomial/add_sub.rs:16-46` `add_sub_assign`: `f` is the addition or the subtraction. `exact_div` of the
divisors by their gcd panics if that is zero. -/
def addSub (f : ℤ → ℤ → ℤ) (l r : RatParts) : Option RatParts :=
  if l.elements = [] ∧ r.elements = [] then some l
  else
    let gcd := Int.gcd l.divisor r.divisor
    let lcm := Int.lcm l.divisor r.divisor
    if gcd = 0 then none
    else ofParts (Poly.addSubElems (T := ℤ) f (r.divisor.tdiv gcd) (l.divisor.tdiv gcd) l.elements r.elements) lcm

/-- `src/polynomial/add_sub.rs:76-135` `+` -/
def add (l r : RatParts) : Option RatParts := addSub (· + ·) l r

/-- `src/polynomial/add_sub.rs:190-250` `-` -/
def sub (l r : RatParts) : Option RatParts := addSub (· - ·) l r

/-- `src/polynomial/mul.rs:12-36` `*` -/
def mul (l r : RatParts) : Option RatParts :=
  if l.elements = [] ∨ r.elements = [] then some ⟨[], 1⟩
  else ofParts (Poly.mulRows (T := ℤ) r.elements 0 l.elements []) (l.divisor * r.divisor)

/-- the fields of a polynomial of `Verif.Model.Poly` -/
def ofPoly (p : Poly ℚ) : RatParts := ⟨p.raw.elements, ((p.raw.divisor : ℕ+) : ℕ)⟩

end RatParts

end Algebraics
