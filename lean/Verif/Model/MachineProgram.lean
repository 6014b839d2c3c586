import Verif.Spec.MachineProgram

/-!
# Running a program over machine polynomials

Nothing of `/repo` is modelled here beyond the operators themselves (`Verif/Model/MachinePoly.lean`): a program is what
a user writes with them.
-/

namespace Algebraics

namespace MachinePoly

variable (w : ℕ) (m : Overflow)

/-- one operation of a user's program: the operators of `src/polynomial/add_sub.rs:76-304`,
`src/polynomial/mul.rs:12-148`, `pow` of `src/polynomial/mul.rs:187-230`, which panics where `checked_pow` gives `None`,
and `derivative` of `src/polynomial.rs:1417-1443`. -/
def Op.run (rs : List (List ℤ)) : Op → Option (List ℤ)
  | .lit p => some p
  | .add i j => MachinePoly.add w m (rs.getD i []) (rs.getD j [])
  | .sub i j => MachinePoly.sub w m (rs.getD i []) (rs.getD j [])
  | .neg i => MachinePoly.neg w m (rs.getD i [])
  | .mul i j => MachinePoly.mul w m (rs.getD i []) (rs.getD j [])
  | .addCoeff i c => MachinePoly.addCoeff w m (rs.getD i []) c
  | .subCoeff i c => MachinePoly.subCoeff w m (rs.getD i []) c
  | .mulCoeff i c => MachinePoly.mulCoeff w m (rs.getD i []) c
  | .powSucc i e => (checkedPow w m (rs.getD i []) (e + 1)).bind id
  | .derivative i => MachinePoly.derivative w m (rs.getD i [])

/-- a user's program: its operations one after the other, until one of them panics (`none`) or the end; the results of
all of them are returned. -/
def runFrom : List (List ℤ) → List Op → Option (List (List ℤ))
  | rs, [] => some rs
  | rs, o :: os => do
    let r ← o.run w m rs
    runFrom (rs ++ [r]) os

/-- a user's program, from the start. -/
def run (prog : List Op) : Option (List (List ℤ)) := runFrom w m [] prog

end MachinePoly

end Algebraics
