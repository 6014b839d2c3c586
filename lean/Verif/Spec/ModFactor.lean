import Verif.Model.ModFactor
import Verif.Spec.ModPoly

/-!
# What a stored factor tree should be
-/

namespace Algebraics

open Polynomial

namespace ModPoly

/-- A stored factor tree that is correct modulo `n`: every polynomial in it is a polynomial with modulus `n`, every leaf
has an invertible leading coefficient, and at each inner node the recorded product is the product of the two subtrees,
the recorded degree is its degree, and the recorded cofactors combine the products of the two subtrees to one. -/
def Tree.Ok (n : ℕ) : Tree → Prop
  | .leaf f => Valid n f ∧ IsUnit (value n f).leadingCoeff
  | .node l r d p lb rb => l.Ok n ∧ r.Ok n ∧ Valid n p ∧ Valid n lb ∧ Valid n rb ∧
      value n p = value n l.product * value n r.product ∧ d = (value n p).natDegree ∧
      value n lb * value n l.product + value n rb * value n r.product = 1

/-- the product of the leaves -/
noncomputable def Tree.leafProduct (n : ℕ) (t : Tree) : (ZMod n)[X] := (t.leaves.map (value n)).prod

end ModPoly

end Algebraics
