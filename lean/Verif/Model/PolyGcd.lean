import Verif.Model.Poly
import Verif.Lemmas.Poly

/-!
# Model of `src/polynomial/gcd.rs`

Loops that run until a polynomial becomes zero take a fuel argument computed from the lengths of
the inputs; running out of fuel is `none`, like a panic, and is proved impossible.
-/

namespace Algebraics

open PolyCoeff ExactDivCoeff

namespace Poly

variable {T : Type} [CommRing T] [PolyCoeff T] [DecidableEq T] [ExactDivCoeff T]

/-- `src/polynomial.rs:204-223` `coefficient_pow_usize` (the nested-polynomial override at 799 calls
`pow`, whose loop is the same; that override panics on `0^0`, a call the gcd code never makes since
all its bases are nonzero). -/
def coeffPow (base : T) (exponent : Nat) : T :=
  if exponent = 0 then 1
  else
    match powLoop (fun a b => some (a * b)) (exponent + 1) base exponent none with
    | some (some r) => r
    | _ => 1

/-- `src/polynomial/gcd.rs:16-31` `exact_mul_by_signed_power`. -/
def exactMulBySignedPower (factor base : T) (pos neg : Nat) : Option T :=
  if neg ≤ pos then some (factor * coeffPow base (pos - neg))
  else exactDiv factor (coeffPow base (neg - pos))

/-- the loop of `src/polynomial/gcd.rs:63-94`. -/
def subresultantLoop : Nat → Poly T → Nat → T → T → Poly T → Nat → Option (Poly T)
  | 0, _, _, _, _, _, _ => none
  | fuel + 1, f2, n2, a2, c2, f1, n1 =>
    if n2 < n1 then none
    else
      match f2.pseudoDivRem f1 with
      | none => none
      | some r =>
        match r.remainder.divCoeff (-a2 * coeffPow (-c2) (n2 - n1)) with
        | none => none
        | some f =>
          match f.degree with
          | none => some f1
          | some n =>
            match f1.nonzeroHighestPowerCoefficient with
            | none => none
            | some a1 =>
              match exactMulBySignedPower (coeffPow a1 (n2 - n1)) c2 (n1 + 1) n2 with
              | none => none
              | some c1 => subresultantLoop fuel f1 n1 a1 c1 f n

/-- the part of `src/polynomial/gcd.rs:45-99` after the operands are ordered by length. -/
def subresultantGcdOrdered (l r : Poly T) (needNegate : Bool) : Option (Poly T) :=
  if r.isZero then some l
  else
    match l.degree, r.degree with
    | some n2, some n1 =>
      (subresultantLoop (r.len + 1) l n2 1 1 r n1).map fun f => if needNegate then -f else f
    | _, _ => none

/-- `src/polynomial/gcd.rs:37-100` `subresultant_gcd`. -/
def subresultantGcd (l r : Poly T) : Option (Poly T) :=
  if l.len < r.len then
    subresultantGcdOrdered r l
      ((r.degree.getD 0) % 2 == 1 && (l.degree.getD 0) % 2 == 1)
  else subresultantGcdOrdered l r false

/-- the choice of `psi` in `src/polynomial/gcd.rs:143-151` for all calls but the first; `f` is the
leading coefficient of `u`. -/
def resultantPsi (f : T) (deltaP : Nat) (psiP : T) : Option T :=
  match deltaP with
  | 0 => none
  | 1 => some psiP
  | dp + 2 => exactDiv (coeffPow (-f) (dp + 1)) (coeffPow psiP dp)

/-- the choice of `psi` and `beta` in `src/polynomial/gcd.rs:134-155`; `none` is a panic. -/
def resultantPsiBeta (u : Poly T) (i delta deltaP : Nat) (psiP : T) : Option (T × T) :=
  if i = 1 then some (-1, if delta % 2 = 1 then -1 else 1)
  else
    match u.nonzeroHighestPowerCoefficient with
    | none => none
    | some f =>
      match resultantPsi f deltaP psiP with
      | none => none
      | some psi => some (psi, -f * coeffPow psi (delta - 1))

/-- `src/polynomial/gcd.rs:106-171` `recursive_resultant`; the outer `Option` is the panic, the inner
one the returned `Option`.  `i` is the recursion counter; `assert!(i > 1)` holds whenever `i ≠ 1`
because the first call passes 1. -/
def resultantLoop : Nat → Poly T → Poly T → Nat → Nat → T → Option (Option T)
  | 0, _, _, _, _, _ => none
  | fuel + 1, u, v, i, deltaP, psiP =>
    match u.degree, v.degree with
    | some m, some n =>
      if m < n then
        match resultantLoop fuel v u i deltaP psiP with
        | none => none
        | some none => some none
        | some (some r) => if m % 2 == 1 && n % 2 == 1 then some (some (-r)) else some (some r)
      else if n = 0 then
        match v.coeffs with
        | [] => none
        | c :: _ => some (some (coeffPow c m))
      else
        match u.pseudoDivRem v with
        | none => none
        | some pr =>
          if pr.remainder.isZero then some none
          else
            let delta := m + 1 - n
            match resultantPsiBeta u i delta deltaP psiP with
            | none => none
            | some (psi, beta) =>
              match pr.remainder.divCoeff beta, v.nonzeroHighestPowerCoefficient with
              | some r, some l =>
                match r.degree with
                | none => none
                | some s =>
                  let w := coeffPow beta n
                  let w := if m % 2 == 1 && n % 2 == 1 then -w else w
                  match resultantLoop fuel v r (i + 1) delta psi with
                  | none => none
                  | some none => some none
                  | some (some x) =>
                    if n * delta + s < m then none
                    else
                      match exactDiv (w * x) (coeffPow l (n * delta + s - m)) with
                      | none => none
                      | some y => some (some y)
              | _, _ => none
    | _, _ => none

/-- `src/polynomial/gcd.rs:101-179` `nonzero_resultant`. -/
def nonzeroResultant (u v : Poly T) : Option (Option T) :=
  if u.isZero || v.isZero then some none
  else resultantLoop (u.len + v.len + 2) u v 1 0 0

/-- `src/polynomial/gcd.rs:180-185` `resultant`. -/
def resultant (u v : Poly T) : Option T := (nonzeroResultant u v).map (·.getD 0)

/-! ### gcd over a field -/

/-- `src/polynomial.rs:258-274` (`Ratio`) and `src/mod_int.rs:1246-1257` (`ModularInteger`):
`get_nonzero_reducing_factor` for fields is the leading coefficient. -/
def nonzeroReducingFactor (p : Poly T) : Option T := p.nonzeroHighestPowerCoefficient

/-- `src/polynomial.rs:1310-1332` `reduce_assign`, `into_reduced`, `to_reduced`. -/
def toReduced (p : Poly T) : Option (Poly T) :=
  match p.nonzeroReducingFactor with
  | none => some p
  | some d => p.divCoeff d

/-- `src/polynomial/gcd.rs:193-197` `GCD::gcd`. -/
def gcd (l r : Poly T) : Option (Poly T) :=
  match l.toReduced, r.toReduced with
  | some l', some r' =>
    match subresultantGcd l' r' with
    | none => none
    | some g => g.toReduced
  | _, _ => none

/-- the lcm part shared by `src/polynomial/gcd.rs:200-204` and `287-291`. -/
def lcmOf (l r g : Poly T) : Option (Poly T) :=
  if g.isZero then some 0 else (r.exactDivPoly g).map (l * ·)

/-- `src/polynomial/gcd.rs:198-206` `gcd_lcm`. -/
def gcdLcmPoly (l r : Poly T) : Option (Poly T × Poly T) :=
  match gcd l r with
  | none => none
  | some g => (lcmOf l r g).map fun m => (g, m)

/-- `src/polynomial/gcd.rs:233-237` `struct StateSet`, also used for `ExtendedGCDResult`. -/
structure ExtState (T : Type) [CommRing T] [PolyCoeff T] where
  v : Poly T
  x : Poly T
  y : Poly T

/-- one division of all three components: `src/polynomial/gcd.rs:271-275`. -/
def ExtState.divBy (s : ExtState T) (c : T) : Option (ExtState T) :=
  match s.v.divCoeff c, s.x.divCoeff c, s.y.divCoeff c with
  | some v, some x, some y => some ⟨v, x, y⟩
  | _, _, _ => none

/-- the loop of `src/polynomial/gcd.rs:264-278`. -/
def extGcdLoop : Nat → ExtState T → ExtState T → Option (ExtState T)
  | 0, _, _ => none
  | fuel + 1, l, r =>
    if r.v.isZero then some l
    else
      match l.v.divRem r.v with
      | none => none
      | some (q, rem) =>
        let n : ExtState T := ⟨rem, l.x - r.x * q, l.y - r.y * q⟩
        match n.v.nonzeroReducingFactor with
        | none => extGcdLoop fuel r n
        | some c =>
          match n.divBy c with
          | none => none
          | some n => extGcdLoop fuel r n

/-- `src/polynomial/gcd.rs:213-284` `extended_gcd`. -/
def extendedGcd (l r : Poly T) : Option (ExtState T) :=
  match l.nonzeroReducingFactor with
  | none =>
    match r.nonzeroReducingFactor with
    | none => some ⟨0, 0, 0⟩
    | some rf =>
      match r.divCoeff rf, r.toOneIfNonzero with
      | some g, some o => (o.divCoeff rf).map fun y => ⟨g, 0, y⟩
      | _, _ => none
  | some lf =>
    match l.divCoeff lf, l.toOneIfNonzero with
    | some lv, some o =>
      match o.divCoeff lf with
      | none => none
      | some lx =>
        match r.nonzeroReducingFactor with
        | none => some ⟨lv, lx, 0⟩
        | some rf =>
          match r.divCoeff rf, r.toOneIfNonzero with
          | some rv, some o =>
            match o.divCoeff rf with
            | none => none
            | some ry => extGcdLoop (r.len + 2) ⟨lv, lx, 0⟩ ⟨rv, 0, ry⟩
          | _, _ => none
    | _, _ => none

end Poly

end Algebraics
