import Verif.Model.TreePrint
import Verif.Model.Factor

/-!
# Model of the printed factor tree (`src/polynomial/factorization_over_integers.rs:140-190`)

The raw string of the inner node has seven lines.
-/

namespace Algebraics

namespace FTree

variable {n : ℕ}

/-- `src/polynomial/factorization_over_integers.rs:140-145` `Display for FactorTreeLeafNode`. -/
def leafText (factor : Poly (ZMod n)) : Text := "(".toList ++ factor.text ++ ")".toList

/-- `src/polynomial/factorization_over_integers.rs:147-172` `Display for FactorTreeInteriorNode`. -/
def nodeText (totalDegree : ℕ) (product leftBezout rightBezout : Poly (ZMod n)) : Text :=
  "FactorTreeInteriorNode {\n    left:.., right:..,\n    total_degree:".toList ++ decimal totalDegree ++
    ",\n    product:(".toList ++ product.text ++
    "),\n    left_bezout_coefficient:(".toList ++ leftBezout.text ++
    "),\n    right_bezout_coefficient:(".toList ++ rightBezout.text ++ ")\n}".toList

/-- `to_leaf_or_node_pair` (`src/polynomial/factorization_over_integers.rs:180-190`) all the way down, with the texts
cut into lines as in `src/util.rs:953-954, 992-996`. -/
def toPTree : FTree n → PTree
  | leaf factor => .leaf (strLines (leafText factor))
  | node left right totalDegree product leftBezout rightBezout =>
    .node (toPTree left) (strLines (nodeText totalDegree product leftBezout rightBezout)) (toPTree right)

end FTree

end Algebraics
