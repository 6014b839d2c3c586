import Verif.Model.TreePrint

/-! # Specification for tree printing -/

namespace Algebraics

namespace PTree

/-- A leaf with an empty text is shown as one empty line. -/
def shown (lines : List Text) : List Text := if lines = [] then [[]] else lines

/-- The tree as it can be seen: empty leaves are empty lines. -/
def visible : PTree → PTree
  | leaf lines => leaf (shown lines)
  | node l data r => node (visible l) data (visible r)

/-- How many lines a tree takes: an inner node has an empty line before and after its text. -/
def height : PTree → ℕ
  | leaf lines => max 1 lines.length
  | node l data r => height l + (data.length + 2) + height r

/-- The line of a tree where its parent's branch arrives. -/
def centre : PTree → ℕ
  | leaf lines => max 1 lines.length / 2
  | node l data _ => height l + (data.length + 2) / 2

/-- The lines of all texts, from left to right, each with the column where it starts; `d` is the depth. -/
def rows : ℕ → PTree → List (ℕ × Text)
  | d, leaf lines => (shown lines).map fun line => (4 * d + 1, line)
  | d, node l data r =>
    rows (d + 1) l ++ (([[]] ++ data ++ [[]]).map fun line => (4 * d + 3, line)) ++ rows (d + 1) r

/-- Lines are written one after the other until one is refused. -/
def writeSeq {σ E : Type} (w : σ → Text → σ × Option E) : List Text → σ → σ × Option E
  | [], s => (s, none)
  | line :: rest, s =>
    match w s line with
    | (s, some e) => (s, some e)
    | (s, none) => writeSeq w rest s

end PTree

end Algebraics
