import Verif.Model.FactorTreePrint
import Verif.Lemmas.TreePrint
import Verif.Lemmas.Display

/-! # Lemmas for the printed factor tree -/

namespace Algebraics

/-- no line ends -/
def Plain (s : Text) : Prop := ∀ c ∈ s, c ≠ '\n' ∧ c ≠ '\r'

theorem Plain.append {s t : Text} (hs : Plain s) (ht : Plain t) : Plain (s ++ t) := by
  intro c hc
  rcases List.mem_append.1 hc with h | h
  · exact hs c h
  · exact ht c h

theorem plain_nil : Plain [] := by intro c hc; simp at hc

theorem plain_decimal (n : ℕ) : Plain (decimal n) := by
  intro c hc
  have h := decimal_digits n c hc
  constructor <;> rintro rfl <;> simp [Char.isDigit] at h

theorem plain_modIntText (m : ℕ) (v : ZMod m) : Plain (modIntText m v) := by
  unfold modIntText
  have h1 : Plain "mod_int(".toList := by unfold Plain; decide
  have h2 : Plain ", ".toList := by unfold Plain; decide
  have h3 : Plain ")".toList := by unfold Plain; decide
  exact (((h1.append (plain_decimal _)).append h2).append (plain_decimal _)).append h3

theorem plain_variableName_zero : Plain (variableName 0) := by
  rw [variableName_eq]
  unfold Plain
  decide

theorem plain_coefficientText {n : ℕ} (power : ℕ) (c : ZMod n) : Plain (coefficientText power c) := by
  have h1 : Plain " + ".toList := by unfold Plain; decide
  have h2 : Plain "*".toList := by unfold Plain; decide
  have h3 : Plain "^".toList := by unfold Plain; decide
  have hd : Printable.nestingDepth (ZMod n) = 0 := rfl
  have ht : Plain (Printable.text c) := plain_modIntText n c
  unfold coefficientText
  rw [hd]
  simp only [ne_eq, not_true_eq_false, if_false, List.append_nil]
  split
  · exact ht
  · exact ((h1.append ht).append h2).append plain_variableName_zero
  · exact ((((h1.append ht).append h2).append plain_variableName_zero).append h3).append (plain_decimal _)

theorem plain_text {n : ℕ} (p : Poly (ZMod n)) : Plain p.text := by
  unfold Poly.text
  split
  · unfold Plain; decide
  · have key : ∀ (cs : List (ZMod n)) (i : ℕ), Plain (coefficientsText i cs) := by
      intro cs
      induction cs with
      | nil => intro i; exact plain_nil
      | cons c cs ih => intro i; exact (plain_coefficientText i c).append (ih (i + 1))
    exact key _ _

theorem strLinesFrom_plain {s : Text} (hs : Plain s) (cur rest : Text) :
    strLinesFrom cur (s ++ rest) = strLinesFrom (cur ++ s) rest := by
  induction s generalizing cur with
  | nil => simp
  | cons c s ih =>
    have hc := hs c (by simp)
    rw [List.cons_append, strLinesFrom, if_neg hc.1, ih (fun d hd => hs d (by simp [hd]))]
    simp

/-- a line is cut off -/
theorem strLines_line {s : Text} (hs : Plain s) (rest : Text) :
    strLines (s ++ '\n' :: rest) = s :: strLines rest := by
  unfold strLines
  rw [strLinesFrom_plain hs, List.nil_append, strLinesFrom, if_pos rfl, if_neg]
  intro h
  exact (hs _ (List.mem_of_getLast? h)).2 rfl

/-- the last line -/
theorem strLines_last {s : Text} (hs : Plain s) (h : s ≠ []) : strLines s = [s] := by
  have := strLinesFrom_plain hs [] []
  rw [List.append_nil, List.nil_append] at this
  rw [strLines, this, strLinesFrom, if_neg h]

namespace FTree

variable {n : ℕ}

theorem leafText_lines (factor : Poly (ZMod n)) :
    strLines (leafText factor) = ["(".toList ++ factor.text ++ ")".toList] := by
  have h1 : Plain "(".toList := by unfold Plain; decide
  have h2 : Plain ")".toList := by unfold Plain; decide
  exact strLines_last ((h1.append (plain_text _)).append h2) (by simp [leafText])

theorem glue {x1 x2 x3 x4 x5 x6 x7 x8 x9 x10 d p a b y1 y2 y3 y4 y5 : Text}
    (e1 : y1 = x1 ++ '\n' :: (x2 ++ '\n' :: x3)) (e2 : y2 = x4 ++ '\n' :: x5) (e3 : y3 = x6 ++ '\n' :: x7)
    (e4 : y4 = x6 ++ '\n' :: x8) (e5 : y5 = x9 ++ '\n' :: x10) :
    y1 ++ d ++ y2 ++ p ++ y3 ++ a ++ y4 ++ b ++ y5 =
      x1 ++ '\n' :: (x2 ++ '\n' :: ((x3 ++ d ++ x4) ++ '\n' :: ((x5 ++ p ++ x6) ++ '\n' :: ((x7 ++ a ++ x6) ++
        '\n' :: ((x8 ++ b ++ x9) ++ '\n' :: x10))))) := by
  subst e1 e2 e3 e4 e5
  simp

theorem nodeText_lines (d : ℕ) (p a b : Poly (ZMod n)) :
    strLines (nodeText d p a b) =
      ["FactorTreeInteriorNode {".toList,
        "    left:.., right:..,".toList,
        "    total_degree:".toList ++ decimal d ++ ",".toList,
        "    product:(".toList ++ p.text ++ "),".toList,
        "    left_bezout_coefficient:(".toList ++ a.text ++ "),".toList,
        "    right_bezout_coefficient:(".toList ++ b.text ++ ")".toList,
        "}".toList] := by
  have e : nodeText d p a b =
      "FactorTreeInteriorNode {".toList ++ '\n' :: ("    left:.., right:..,".toList ++ '\n' ::
        (("    total_degree:".toList ++ decimal d ++ ",".toList) ++ '\n' ::
        (("    product:(".toList ++ p.text ++ "),".toList) ++ '\n' ::
        (("    left_bezout_coefficient:(".toList ++ a.text ++ "),".toList) ++ '\n' ::
        (("    right_bezout_coefficient:(".toList ++ b.text ++ ")".toList) ++ '\n' :: "}".toList))))) := by
    have e1 : "FactorTreeInteriorNode {\n    left:.., right:..,\n    total_degree:".toList =
        "FactorTreeInteriorNode {".toList ++ '\n' :: ("    left:.., right:..,".toList ++ '\n' ::
          "    total_degree:".toList) := by decide
    have e2 : ",\n    product:(".toList = ",".toList ++ '\n' :: "    product:(".toList := by decide
    have e3 : "),\n    left_bezout_coefficient:(".toList =
        "),".toList ++ '\n' :: "    left_bezout_coefficient:(".toList := by decide
    have e4 : "),\n    right_bezout_coefficient:(".toList =
        "),".toList ++ '\n' :: "    right_bezout_coefficient:(".toList := by decide
    have e5 : ")\n}".toList = ")".toList ++ '\n' :: "}".toList := by decide
    unfold nodeText
    exact glue e1 e2 e3 e4 e5
  have h1 : Plain "FactorTreeInteriorNode {".toList := by unfold Plain; decide
  have h2 : Plain "    left:.., right:..,".toList := by unfold Plain; decide
  have h3 : Plain "    total_degree:".toList := by unfold Plain; decide
  have h3' : Plain ",".toList := by unfold Plain; decide
  have h4 : Plain "    product:(".toList := by unfold Plain; decide
  have h4' : Plain "),".toList := by unfold Plain; decide
  have h5 : Plain "    left_bezout_coefficient:(".toList := by unfold Plain; decide
  have h6 : Plain "    right_bezout_coefficient:(".toList := by unfold Plain; decide
  have h6' : Plain ")".toList := by unfold Plain; decide
  have h7 : Plain "}".toList := by unfold Plain; decide
  rw [e, strLines_line h1, strLines_line h2, strLines_line ((h3.append (plain_decimal _)).append h3'),
    strLines_line ((h4.append (plain_text _)).append h4'), strLines_line ((h5.append (plain_text _)).append h4'),
    strLines_line ((h6.append (plain_text _)).append h6'), strLines_last h7 (by simp)]

end FTree

end Algebraics
