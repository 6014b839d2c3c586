import Verif.Model.MachineGcd

/-!
# One machine type serves as well as another
-/

namespace Algebraics

namespace MachinePoly

/-- whatever a call returns in a program compiled as `m` for coefficients of `w` bits, the same call returns in a
program compiled as `m'` for coefficients of `w'` bits -/
def ServesAsWell (w : ℕ) (m : Overflow) (w' : ℕ) (m' : Overflow) : Prop :=
  ∀ (p q : List ℤ) (c e : ℤ),
    (∀ x, add w m p q = some x → add w' m' p q = some x) ∧
    (∀ x, sub w m p q = some x → sub w' m' p q = some x) ∧
    (∀ x, neg w m p = some x → neg w' m' p = some x) ∧
    (∀ x, addCoeff w m p c = some x → addCoeff w' m' p c = some x) ∧
    (∀ x, subCoeff w m p c = some x → subCoeff w' m' p c = some x) ∧
    (∀ x, mulCoeff w m p c = some x → mulCoeff w' m' p c = some x) ∧
    (∀ x, mul w m p q = some x → mul w' m' p q = some x) ∧
    (∀ x, checkedPow w m p e = some x → checkedPow w' m' p e = some x) ∧
    (∀ x, derivative w m p = some x → derivative w' m' p = some x) ∧
    (∀ x, eval w m p c = some x → eval w' m' p c = some x) ∧
    (∀ x, pseudoDivRem w m p q = some x → pseudoDivRem w' m' p q = some x) ∧
    (∀ x, divCoeff w p c = some x → divCoeff w' p c = some x) ∧
    (∀ x, content w m p = some x → content w' m' p = some x) ∧
    (∀ x, primitivePart w m p = some x → primitivePart w' m' p = some x) ∧
    (∀ x, maxNorm w m p = some x → maxNorm w' m' p = some x) ∧
    (∀ x, manhattanNorm w m p = some x → manhattanNorm w' m' p = some x) ∧
    (∀ x, subresultantGcd w m p q = some x → subresultantGcd w' m' p q = some x) ∧
    (∀ x, resultant w m p q = some x → resultant w' m' p q = some x) ∧
    (∀ x, nonzeroResultant w m p q = some x → nonzeroResultant w' m' p q = some x) ∧
    (∀ x, primitiveSturmSequence w m p = some x → primitiveSturmSequence w' m' p = some x)

end MachinePoly

end Algebraics
