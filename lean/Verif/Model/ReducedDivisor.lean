import Verif.Model.PolyCoeff

/-!
# Model of `get_reduced_divisor` of `src/polynomial.rs`

The copying variant of `reduce_divisor`, written out separately for `Ratio` coefficients.
-/

namespace Algebraics

/-- `src/polynomial.rs:438-459` `get_reduced_divisor` for `Ratio<BigInt>`: unlike `reduce_divisor` it divides
by the gcd also when that is one. -/
def ratGetReducedDivisor (es : List ℤ) (d : ℕ+) : List ℤ × ℕ+ :=
  match es with
  | [] => ([], 1)
  | e :: rest =>
    let gcd : ℕ := rest.foldl (fun g e => Int.gcd g e) (Int.gcd e (d : ℕ))
    ((e :: rest).map (fun e => e.tdiv gcd), Nat.toPNat' ((d : ℕ) / gcd))

/-- `src/polynomial.rs:154-162` (integers), `784-789` (nested polynomials), `src/mod_int.rs:1222-1227`:
`get_reduced_divisor` of the coefficients without a divisor. -/
def selfGetReducedDivisor {R : Type} (es : List R) (_d : Unit) : List R × Unit := (es, ())

end Algebraics
