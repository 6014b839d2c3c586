import Verif.Model.Display

/-!
# What a printed table looks like

Nothing here depends on how the table is printed.
-/

namespace Algebraics

/-- a table of cells, each with some lines of text -/
structure Table where
  columns : ℕ
  rows : ℕ
  /-- the lines of the cell in column `x` and row `y` -/
  cell : ℕ → ℕ → List Text

namespace Table

variable (t : Table)

/-- line `k` of a cell, empty if there are fewer -/
def line (x y k : ℕ) : Text := ((t.cell x y)[k]?).getD []

/-- a text with spaces up to a width -/
def padded (l : Text) (width : ℕ) : Text := l ++ List.replicate (width - l.length) ' '

/-- the number of bytes of a text in UTF-8 -/
def bytes (l : Text) : ℕ := (l.map Char.utf8Size).sum

/-- the width of a column: the bytes of its longest line, at least one -/
def width (x : ℕ) : ℕ := max 1 ((Finset.range t.rows).sup fun y => (Finset.range (t.cell x y).length).sup fun k =>
  bytes (t.line x y k))

/-- the height of a row: the lines of its highest cell, at least one -/
def height (y : ℕ) : ℕ := max 1 ((Finset.range t.columns).sup fun x => (t.cell x y).length)

/-- some cell has more than one line -/
def Multiline : Prop := ∃ x < t.columns, ∃ y < t.rows, 1 < (t.cell x y).length

end Table

end Algebraics
