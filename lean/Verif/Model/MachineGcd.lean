import Verif.Model.MachineContent
import Verif.Model.PolySturm

/-!
# Model of gcd, resultant and Sturm sequences of polynomials over machine integers

`Polynomial<i8>`, ..., `<i128>`, `<isize>`, as in `Model/MachinePoly.lean`.  The operations are written down in the
order of the code, so that the first one that overflows is the one that panics.  The loops take a fuel argument, as in
`Model/PolyGcd.lean`, and running out of it is `none`.
-/

namespace Algebraics

namespace MachinePoly

variable (w : ℕ) (m : Overflow)

/-- `src/polynomial.rs:204-223` `coefficient_pow_usize`. -/
def coeffPow (base : ℤ) (exponent : ℕ) : Option ℤ :=
  if exponent = 0 then some 1
  else do
    let r ← Poly.powLoop (fun a b => m.fit w (a * b)) (exponent + 1) base exponent none
    r

/-- `src/polynomial/gcd.rs:16-31` `exact_mul_by_signed_power`. -/
def exactMulBySignedPower (factor base : ℤ) (pos neg : ℕ) : Option ℤ :=
  if neg ≤ pos then do
    let b ← coeffPow w m base (pos - neg)
    m.fit w (factor * b)
  else do
    let b ← coeffPow w m base (neg - pos)
    exactDivPrim (.signed w) factor b

/-- `src/polynomial/div_rem.rs:294-321` `div_single`: the panics of `exact_div` do not depend on the compiler. -/
def divCoeff (p : List ℤ) (c : ℤ) : Option (List ℤ) := do
  let q ← p.mapM fun e => exactDivPrim (.signed w) e c
  return normalize q

/-- `src/polynomial/div_rem.rs:114-117` `pseudo_div_rem`. -/
def pseudoDivRem (p q : List ℤ) : Option (List ℤ × List ℤ × ℤ) := do
  let r ← checkedPseudoDivRem w m p q
  r

/-- the loop of `src/polynomial/gcd.rs:63-94`.  (`n_i_2 - n_i_1` never overflows, with or without checks: C83 proves
that a remainder is shorter than the divisor.) -/
def subresultantLoop : ℕ → List ℤ → ℕ → ℤ → ℤ → List ℤ → ℕ → Option (List ℤ)
  | 0, _, _, _, _, _, _ => none
  | fuel + 1, f2, n2, a2, c2, f1, n1 => do
    let pr ← pseudoDivRem w m f2 f1
    let a2 ← m.fit w (-a2)
    let c2' ← m.fit w (-c2)
    let c2' ← coeffPow w m c2' (n2 - n1)
    let divisor ← m.fit w (a2 * c2')
    let f ← divCoeff w pr.2.1 divisor
    if f.isEmpty then return f1
    else
      let a1 ← f1.getLast?
      let e ← coeffPow w m a1 (n2 - n1)
      let c1 ← exactMulBySignedPower w m e c2 (n1 + 1) n2
      subresultantLoop fuel f1 n1 a1 c1 f (f.length - 1)

/-- the part of `src/polynomial/gcd.rs:45-99` after the operands are ordered by length. -/
def subresultantGcdOrdered (l r : List ℤ) (needNegate : Bool) : Option (List ℤ) :=
  if r.isEmpty then some l
  else do
    let f ← subresultantLoop w m (r.length + 1) l (l.length - 1) 1 1 r (r.length - 1)
    if needNegate then neg w m f else return f

/-- `src/polynomial/gcd.rs:37-100` `subresultant_gcd`. -/
def subresultantGcd (l r : List ℤ) : Option (List ℤ) :=
  if l.length < r.length then
    subresultantGcdOrdered w m r l ((r.length - 1) % 2 == 1 && (l.length - 1) % 2 == 1)
  else subresultantGcdOrdered w m l r false

/-- `-x` under a condition, `x` otherwise (`src/polynomial/gcd.rs:117-121, 140, 162-164`). -/
def negIf (b : Bool) (x : ℤ) : Option ℤ := if b then m.fit w (-x) else some x

/-- the choice of `psi` in `src/polynomial/gcd.rs:143-151`; `f` is the leading coefficient of `u`. -/
def resultantPsi (f : ℤ) (deltaP : ℕ) (psiP : ℤ) : Option ℤ :=
  match deltaP with
  | 0 => none
  | 1 => some psiP
  | dp + 2 => do
    let nf ← m.fit w (-f)
    let a ← coeffPow w m nf (dp + 1)
    let b ← coeffPow w m psiP dp
    exactDivPrim (.signed w) a b

/-- the choice of `psi` and `beta` in `src/polynomial/gcd.rs:134-155`. -/
def resultantPsiBeta (u : List ℤ) (i delta deltaP : ℕ) (psiP : ℤ) : Option (ℤ × ℤ) :=
  if i = 1 then do
    let psi ← m.fit w (-1)
    let beta ← negIf w m (delta % 2 == 1) 1
    return (psi, beta)
  else do
    let f ← u.getLast?
    let psi ← resultantPsi w m f deltaP psiP
    let nf ← m.fit w (-f)
    let b ← coeffPow w m psi (delta - 1)
    let beta ← m.fit w (nf * b)
    return (psi, beta)

/-- `src/polynomial/gcd.rs:106-171` `recursive_resultant`; the outer `Option` is the panic, the inner one the returned
`Option`.  The subtraction `n * delta + s - m` never overflows, with or without checks, since
`n * (m + 1 - n) - m = (n - 1) * (m - n)`. -/
def resultantLoop : ℕ → List ℤ → List ℤ → ℕ → ℕ → ℤ → Option (Option ℤ)
  | 0, _, _, _, _, _ => none
  | fuel + 1, u, v, i, deltaP, psiP =>
    if u.isEmpty || v.isEmpty then none
    else
      let du := u.length - 1
      let dv := v.length - 1
      if du < dv then do
        let retval ← resultantLoop fuel v u i deltaP psiP
        match retval with
        | none => return none
        | some r =>
          let r ← negIf w m (du % 2 == 1 && dv % 2 == 1) r
          return some r
      else if dv = 0 then do
        let c ← v.head?
        let r ← coeffPow w m c du
        return some r
      else do
        let pr ← pseudoDivRem w m u v
        if pr.2.1.isEmpty then return none
        else
          let delta := du + 1 - dv
          let pb ← resultantPsiBeta w m u i delta deltaP psiP
          let r ← divCoeff w pr.2.1 pb.2
          let l ← v.getLast?
          if r.isEmpty then none
          else
            let s := r.length - 1
            let x ← coeffPow w m pb.2 dv
            let x ← negIf w m (du % 2 == 1 && dv % 2 == 1) x
            let y ← resultantLoop fuel v r (i + 1) delta pb.1
            match y with
            | none => return none
            | some y =>
              let x ← m.fit w (x * y)
              let f ← coeffPow w m l (dv * delta + s - du)
              let q ← exactDivPrim (.signed w) x f
              return some q

/-- `src/polynomial/gcd.rs:101-179` `nonzero_resultant`. -/
def nonzeroResultant (u v : List ℤ) : Option (Option ℤ) :=
  if u.isEmpty || v.isEmpty then some none
  else resultantLoop w m (u.length + v.length + 2) u v 1 0 0

/-- `src/polynomial/gcd.rs:180-185` `resultant`. -/
def resultant (u v : List ℤ) : Option ℤ := (nonzeroResultant w m u v).map (·.getD 0)

/-- the loop of `src/polynomial.rs:1347-1359`; the two last elements of the vector are the arguments, the result is
the rest of the vector. -/
def sturmLoop (remainder : List ℤ → List ℤ → Option (List ℤ)) : ℕ → List ℤ → List ℤ → Option (List (List ℤ))
  | 0, _, _ => some []
  | k + 1, nextToLast, last =>
    if last.isEmpty then some []
    else do
      let r ← remainder nextToLast last
      let r ← neg w m r
      let rest ← sturmLoop remainder k last r
      return r :: rest

/-- the first closure of `src/polynomial.rs:1385-1397`. -/
def primitiveDerivative (v : List ℤ) : Option (List ℤ) := do
  let result ← derivative w m v
  let content ← nonzeroContent w m result
  match content with
  | none => return result
  | some content =>
    if content < 0 then do
      let content ← m.fit w (-content)
      divCoeff w result content
    else divCoeff w result content

/-- the second closure of `src/polynomial.rs:1398-1414`. -/
def primitiveRemainder (a b : List ℤ) : Option (List ℤ) := do
  let pr ← pseudoDivRem w m a b
  let content ← nonzeroContent w m pr.2.1
  match content with
  | none => return pr.2.1
  | some content =>
    let result ← divCoeff w pr.2.1 content
    if decide (pr.2.2 < 0) != decide (content < 0) then neg w m result else return result

/-- `src/polynomial.rs:1333-1361, 1374-1416` `to_primitive_sturm_sequence`, `into_primitive_sturm_sequence`. -/
def primitiveSturmSequence (p : List ℤ) : Option (List (List ℤ)) :=
  match p.length with
  | 0 => some []
  | 1 => some [p]
  | n + 2 => do
    let d ← primitiveDerivative w m p
    let rest ← sturmLoop w m (primitiveRemainder w m) n p d
    return p :: d :: rest

end MachinePoly

end Algebraics
