import Verif.Spec.MachinePoly

/-!
# Programs over polynomials, and what they compute
-/

namespace Algebraics

open Polynomial

namespace MachinePoly

/-- an operation of a program, whose operands are earlier results, by number; the number of no result stands for the
zero polynomial -/
inductive Op where
  /-- a given polynomial -/
  | lit (p : List ℤ)
  | add (i j : ℕ)
  | sub (i j : ℕ)
  | neg (i : ℕ)
  | mul (i j : ℕ)
  | addCoeff (i : ℕ) (c : ℤ)
  | subCoeff (i : ℕ) (c : ℤ)
  | mulCoeff (i : ℕ) (c : ℤ)
  /-- the power with exponent `e + 1` -/
  | powSucc (i e : ℕ)
  | derivative (i : ℕ)

/-- the polynomial an operation stands for, after the results `rs` -/
noncomputable def Op.value (rs : List ℤ[X]) : Op → ℤ[X]
  | .lit p => listPoly p
  | .add i j => rs.getD i 0 + rs.getD j 0
  | .sub i j => rs.getD i 0 - rs.getD j 0
  | .neg i => -rs.getD i 0
  | .mul i j => rs.getD i 0 * rs.getD j 0
  | .addCoeff i c => rs.getD i 0 + C c
  | .subCoeff i c => rs.getD i 0 - C c
  | .mulCoeff i c => rs.getD i 0 * C c
  | .powSucc i e => rs.getD i 0 ^ (e + 1)
  | .derivative i => Polynomial.derivative (rs.getD i 0)

/-- the polynomials a program stands for: one for each of its operations -/
noncomputable def values (prog : List Op) : List ℤ[X] := prog.foldl (fun rs o => rs ++ [o.value rs]) []

/-- the polynomials given in a program are values of the type `Polynomial<iw>` -/
def Typed (w : ℕ) (prog : List Op) : Prop := ∀ p, Op.lit p ∈ prog → Valid w p

end MachinePoly

end Algebraics
