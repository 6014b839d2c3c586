import Verif.Props.TreePrint
import Verif.Lemmas.FactorTreePrint
import Verif.Props.Display

/-! # C95: the printed factor tree (`src/polynomial/factorization_over_integers.rs:140-190`) -/

namespace Algebraics

namespace FTree

variable {n : ℕ}

/-- How many inner nodes a factor tree has. -/
def inner : FTree n → ℕ
  | leaf _ => 0
  | node l r _ _ _ _ => inner l + 1 + inner r

/-- What is to be printed of a factor tree, from left to right: the lines with their columns; `d` is the depth. -/
def report : ℕ → FTree n → List (ℕ × Text)
  | d, leaf factor => [(4 * d + 1, "(".toList ++ factor.text ++ ")".toList)]
  | d, node left right totalDegree product leftBezout rightBezout =>
    report (d + 1) left ++
      [(4 * d + 3, []),
        (4 * d + 3, "FactorTreeInteriorNode {".toList),
        (4 * d + 3, "    left:.., right:..,".toList),
        (4 * d + 3, "    total_degree:".toList ++ decimal totalDegree ++ ",".toList),
        (4 * d + 3, "    product:(".toList ++ product.text ++ "),".toList),
        (4 * d + 3, "    left_bezout_coefficient:(".toList ++ leftBezout.text ++ "),".toList),
        (4 * d + 3, "    right_bezout_coefficient:(".toList ++ rightBezout.text ++ ")".toList),
        (4 * d + 3, "}".toList),
        (4 * d + 3, [])] ++
      report (d + 1) right

/-- C95: the lines of a printed factor tree. -/
theorem C95_factor_tree_lines (t : FTree n) :
    List.Forall₂ (fun line row => row.1 ≤ line.length ∧ line.drop row.1 = row.2) (PTree.printed (toPTree t))
      (report 0 t) := by
  have key : ∀ (t : FTree n) (d : ℕ), report d t = PTree.rows d (toPTree t) := by
    intro t
    induction t with
    | leaf f =>
      intro d
      rw [toPTree, leafText_lines]
      rfl
    | node l r k p a b ihl ihr =>
      intro d
      rw [toPTree, nodeText_lines, report, PTree.rows, ihl, ihr]
      rfl
  rw [key]
  exact PTree.C95_columns _

/-- C95: the printed factor tree determines the factor tree, with all products and Bézout coefficients. -/
theorem C95_factor_tree [NeZero n] : Function.Injective fun t : FTree n => PTree.printed (toPTree t) := by
  have hp : Function.Injective (Poly.text (T := ZMod n)) :=
    C63_polynomial_injective (CoeffType.modInt n) (Or.inr (Or.inr ⟨n, NeZero.ne n, rfl⟩)) 0
  intro t t' h
  have h := (PTree.C95_read_back _ _).1 h
  induction t generalizing t' with
  | leaf f =>
    cases t' with
    | leaf f' =>
      simp only [toPTree, leafText_lines, PTree.visible, PTree.shown, reduceCtorEq, if_false, PTree.leaf.injEq, List.cons.injEq,
        and_true] at h
      rw [hp (List.append_cancel_left (List.append_cancel_right h))]
    | node l r d p a b => simp [toPTree, PTree.visible] at h
  | node l r d p a b ihl ihr =>
    cases t' with
    | leaf f' => simp [toPTree, PTree.visible] at h
    | node l' r' d' p' a' b' =>
      simp only [toPTree, nodeText_lines, PTree.visible, PTree.node.injEq, List.cons.injEq, and_true, true_and] at h
      obtain ⟨h1, ⟨h2, h3, h4, h5⟩, h6⟩ := h
      have e1 := ihl ((PTree.C95_read_back _ _).2 h1) h1
      have e2 := ihr ((PTree.C95_read_back _ _).2 h6) h6
      have e3 := decimal_injective (List.append_cancel_left (List.append_cancel_right h2))
      have e4 := hp (List.append_cancel_left (List.append_cancel_right h3))
      have e5 := hp (List.append_cancel_left (List.append_cancel_right h4))
      have e6 := hp (List.append_cancel_left (List.append_cancel_right h5))
      rw [e1, e2, e3, e4, e5, e6]

/-- C95: a factor tree takes a line for every leaf and nine for every inner node; there is one leaf more than there are
inner nodes. -/
theorem C95_factor_tree_size (t : FTree n) : (PTree.printed (toPTree t)).length = 10 * inner t + 1 := by
  rw [PTree.C95_size]
  induction t with
  | leaf f => rw [toPTree, leafText_lines]; rfl
  | node l r d p a b ihl ihr =>
    simp only [toPTree, nodeText_lines, PTree.height, ihl, ihr, inner, List.length_cons, List.length_nil]
    omega

/-- C95: cutting a text into lines: the lines come back, when none of them contains the end of a line and the last one is
not empty. -/
theorem C95_lines (ls : List Text) (hp : ∀ l ∈ ls, '\n' ∉ l ∧ '\r' ∉ l) (last : Text)
    (hlast : '\n' ∉ last ∧ '\r' ∉ last) (hne : last ≠ []) :
    strLines ((ls.flatMap fun l => l ++ ['\n']) ++ last) = ls ++ [last] := by
  have hplain : ∀ l : Text, '\n' ∉ l ∧ '\r' ∉ l → Plain l := fun l h c hc =>
    ⟨fun e => h.1 (e ▸ hc), fun e => h.2 (e ▸ hc)⟩
  induction ls with
  | nil => exact strLines_last (hplain _ hlast) hne
  | cons l ls ih =>
    rw [List.flatMap_cons, List.append_assoc, List.append_assoc, List.singleton_append,
      strLines_line (hplain _ (hp l (by simp))), ih fun l hl => hp l (by simp [hl])]
    rfl

/-- C95: a line may also end with a carriage return and a line feed; a carriage return elsewhere belongs to the line. -/
theorem C95_carriage_return (l rest : Text) (hl : '\n' ∉ l) :
    strLines (l ++ '\r' :: '\n' :: rest) = l :: strLines rest ∧
    (l.getLast? ≠ some '\r' → strLines (l ++ '\n' :: rest) = l :: strLines rest) := by
  have key : ∀ (s cur rest : Text), '\n' ∉ s → strLinesFrom cur (s ++ rest) = strLinesFrom (cur ++ s) rest := by
    intro s
    induction s with
    | nil => intro cur rest _; simp
    | cons c s ih =>
      intro cur rest h
      simp only [List.mem_cons, not_or] at h
      rw [List.cons_append, strLinesFrom, if_neg (Ne.symm h.1), ih _ _ h.2]
      simp
  unfold strLines
  refine ⟨?_, fun h => ?_⟩
  · rw [key l _ _ hl, strLinesFrom, if_neg (by decide), strLinesFrom, if_pos rfl, if_pos (by simp)]
    simp
  · rw [key l _ _ hl, strLinesFrom, if_pos rfl, List.nil_append, if_neg h]

/-- a final line end makes no further line; a carriage return belongs to the line end -/
example : strLines "ab\n\r\nc\n".toList = ["ab".toList, [], "c".toList] := by decide

/-- A factor tree modulo 5, and trees with more nodes. -/
example : (PTree.printed (toPTree (leaf (1 : Poly (ZMod 5))))).length = 1 ∧ NeZero 5 :=
  ⟨C95_factor_tree_size _, inferInstance⟩

example (t : FTree 5) : (PTree.printed (toPTree (node t t 2 0 0 0))).length = 20 * inner t + 11 := by
  rw [C95_factor_tree_size, inner]
  omega

end FTree

end Algebraics
