import Verif.Spec.History
import Verif.Spec.Factor

/-!
# Programs that use algebraic numbers: which of them come to an end

Specification side only. `EndsWith` says that a program returns from all its calls; `SizedProgram` says, in terms
of real numbers and their polynomials alone, that no call gets numbers of immense size.
-/

namespace Algebraics

open Polynomial

/-- All instructions return one after the other, and the variables have the property `Q` in the end: in every
call, whatever the cache of `log 2` and the order of the heap are, and for all random numbers in which no finite
pattern is avoided for ever, finitely many steps of `factor` and of the call's own loop are enough. -/
def EndsWith (Q : (ℕ → RealAlg) → Prop) : List Instr → (ℕ → RealAlg) → Prop
  | [], st => Q st
  | i :: p, st => ∀ (ln2 : ℕ → ℕ → DFI) (choose : ℕ → List ℕ → ℕ) (rng : ℕ → ℕ),
      (∀ t, IsLn2 (ln2 t)) → Poly.HeapOrder choose → Fair rng →
      ∃ M, ∀ ffuel ≥ M, ∃ N, ∀ fuel ≥ N, ∃ c,
        RealAlg.call ln2 (RealAlg.factorCall choose rng ffuel) fuel st i = .ok c ∧
        EndsWith Q p (Function.update st i.target c)

/-- two algebraic numbers of moderate size: they are roots of irreducible polynomials of degrees `m`, `n` with
integer coefficients of `g`, `h` bits, and `m n (9 m n + n g + m h + 1) < 2^29`; for example degrees 20 and 25
and coefficients of 10000 bits -/
def SizedPair (x y : ℝ) : Prop :=
  ∃ p q : ℤ[X], Irreducible p ∧ aeval x p = 0 ∧ Irreducible q ∧ aeval y q = 0 ∧
    ∃ g h : ℕ, (∀ i, |p.coeff i| < 2 ^ g) ∧ (∀ i, |q.coeff i| < 2 ^ h) ∧
      p.natDegree * q.natDegree *
        (9 * (p.natDegree * q.natDegree) + q.natDegree * g + p.natDegree * h + 1) < 2 ^ 29

/-- the instruction stores a rational number that was just made from a ratio or an integer; `K` tells which
variables hold such numbers -/
def Instr.Fresh (K : ℕ → Prop) : Instr → Prop
  | .const _ _ | .floor _ _ | .trunc _ _ => True
  | .copy _ s => K s
  | _ => False

/-- the call gets numbers of moderate size; powers are those of rational numbers with integer exponents, and
positive powers, below `2^16` and with a moderate denominator of the exponent, of positive integers in variables
of `K` -/
def Instr.Sized (K : ℕ → Prop) (v : ℕ → ℝ) : Instr → Prop
  | .fract _ s => Irrational (v s) → SizedPair (v s) ⌊v s⌋
  | .pow _ s e => (¬ Irrational (v s) ∧ e.den = 1) ∨
      (K s ∧ ∃ m : ℕ, v s = m ∧ 0 < m ∧ 0 < e ∧ e.den ≤ 5000 ∧ e * (Nat.log 2 m + 2) ≤ 16)
  | .add _ s t | .sub _ s t | .absSub _ s t | .mul _ s t | .div _ s t => SizedPair (v s) (v t)
  | .rem _ s t => SizedPair (v s) (v t) ∧ SizedPair (truncate (v s / v t)) (v t) ∧
      SizedPair (v s) (truncate (v s / v t) * v t)
  | _ => True

/-- nothing is divided by zero -/
def Instr.NoZero (v : ℕ → ℝ) : Instr → Prop
  | .recip _ s => v s ≠ 0
  | .pow _ s e => v s ≠ 0 ∨ 0 < e
  | .div _ _ t | .rem _ _ t => v t ≠ 0
  | _ => True

/-- every instruction of the program gets numbers of moderate size and divides by no zero -/
def SizedProgram : List Instr → (ℕ → Prop) → (ℕ → ℝ) → Prop
  | [], _, _ => True
  | i :: p, K, v => i.Sized K v ∧ i.NoZero v ∧
      SizedProgram p (Function.update K i.target (i.Fresh K)) (Function.update v i.target (i.value v))

end Algebraics
