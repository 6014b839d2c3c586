import Verif.Model.ModPoly

/-!
# Resultants of polynomials over modular integers (`/repo/src/polynomial/gcd.rs`), on the stored coefficients

As in `Verif.Model.ModPoly` a polynomial is the stored list of pairs (value, modulus), and every operation on
coefficients is the one of `mod_int.rs` for the integer type `t`.  `none` is a panic; where the function itself returns
an `Option`, that is the inner one.
-/

namespace Algebraics

namespace ModPoly

variable (t : IntTy) (ext : ℤ → ℤ → ModInt.ExtGcd)

/-- the choice of `psi` in `src/polynomial/gcd.rs:146-151` for all calls but the first; `f` is the leading
coefficient of `u`, `delta_p = 0` is `unreachable!()`. -/
def resultantPsi (f : ModInt) (deltaP : ℕ) (psiP : ModInt) : Option ModInt :=
  match deltaP with
  | 0 => none
  | 1 => some psiP
  | dp + 2 => do
    let nf ← ModInt.neg t f
    let a ← coeffPow t nf (dp + 1)
    let b ← coeffPow t psiP dp
    ModInt.div t ext a b

/-- the choice of `psi` and `beta` in `src/polynomial/gcd.rs:134-155`. -/
def resultantPsiBeta (u v : List ModInt) (i delta deltaP : ℕ) (psiP : ModInt) : Option (ModInt × ModInt) :=
  if i = 1 then do
    let first ← v.head?
    let one ← oneLike t first
    let psi ← ModInt.neg t one
    if delta % 2 = 1 then do
      let beta ← ModInt.neg t one
      return (psi, beta)
    else return (psi, one)
  else do
    let f ← u.getLast?
    let psi ← resultantPsi t ext f deltaP psiP
    let nf ← ModInt.neg t f
    let pw ← coeffPow t psi (delta - 1)
    let beta ← ModInt.mul t nf pw
    return (psi, beta)

/-- `-x` if both degrees are odd (`src/polynomial/gcd.rs:117-121` and `162-164`). -/
def negIfOdd (m n : ℕ) (x : ModInt) : Option ModInt :=
  if m % 2 == 1 && n % 2 == 1 then ModInt.neg t x else some x

/-- `src/polynomial/gcd.rs:106-171` `recursive_resultant`; `i` is the recursion counter, `assert!(i > 1)` holds whenever
`i ≠ 1` because the first call passes 1. `usize` subtraction below zero is a panic. -/
def resultantLoop : ℕ → List ModInt → List ModInt → ℕ → ℕ → ModInt → Option (Option ModInt)
  | 0, _, _, _, _, _ => none
  | fuel + 1, u, v, i, deltaP, psiP =>
    if u.isEmpty || v.isEmpty then none
    else
      let m := u.length - 1
      let n := v.length - 1
      if m < n then do
        match ← resultantLoop fuel v u i deltaP psiP with
        | none => return none
        | some r => return some (← negIfOdd t m n r)
      else if n = 0 then do
        let c ← v.head?
        return some (← coeffPow t c m)
      else do
        let pr ← pseudoDivRem t u v
        if pr.2.1.isEmpty then return none
        else
          let delta := m + 1 - n
          let pb ← resultantPsiBeta t ext u v i delta deltaP psiP
          let r ← divCoeff t ext pr.2.1 pb.2
          let l ← v.getLast?
          if r.isEmpty then none
          else
            let s := r.length - 1
            let w ← coeffPow t pb.2 n
            let w ← negIfOdd t m n w
            match ← resultantLoop fuel v r (i + 1) delta pb.1 with
            | none => return none
            | some x =>
              let w ← ModInt.mul t w x
              if n * delta + s < m then none
              else
                let f ← coeffPow t l (n * delta + s - m)
                return some (← ModInt.div t ext w f)

/-- `src/polynomial/gcd.rs:101-179` `nonzero_resultant`. -/
def nonzeroResultant (u v : List ModInt) : Option (Option ModInt) :=
  if u.isEmpty || v.isEmpty then some none
  else do
    let first ← u.head?
    let zero ← zeroLike t first
    resultantLoop t ext (u.length + v.length + 2) u v 1 0 zero

/-- `src/polynomial/gcd.rs:180-185` `resultant`; `zero` is `T::zero()`, which only the types whose modulus is fixed at
compile time have. -/
def resultant (zero : ModInt) (u v : List ModInt) : Option ModInt := do
  let r ← nonzeroResultant t ext u v
  return r.getD zero

end ModPoly

end Algebraics
