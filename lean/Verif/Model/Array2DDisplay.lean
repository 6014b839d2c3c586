import Verif.Model.Array2D
import Verif.Model.Display

/-!
# Model of `Display for Array2DBase` (`src/array2d.rs:409-493`)

The texts of the elements and the way a text is cut into lines (`str::lines`) are parameters.  Both the plain form
`{}` and the alternate form `{:#}` are modelled.
-/

namespace Algebraics

namespace Array2D

/-- `str::len`: bytes, not characters -/
def byteLen (l : Text) : ℕ := (l.map Char.utf8Size).sum

/-- `{cell_line:width$}` of a `str`: spaces on the right, up to `width` characters. -/
def padRight (l : Text) (width : ℕ) : Text := l ++ List.replicate (width - l.length) ' '

/-- `src/array2d.rs:421-427`: width and height of a cell. -/
def cellSize (lines : List Text) : ℕ × ℕ :=
  let s := lines.foldl (fun s line => (max s.1 (byteLen line), s.2 + 1)) (1, 0)
  (s.1, max s.2 1)

/-- `row_heights`, `col_widths`, `any_multiline_cells` of `src/array2d.rs:415-418`. -/
structure TableSize where
  rowHeights : List ℕ
  colWidths : List ℕ
  anyMultiline : Bool

/-- `src/array2d.rs:428-433`: a cell is taken into account. -/
def measureCell (cells : ℕ → ℕ → List Text) (s : TableSize) (x y : ℕ) : TableSize :=
  let size := cellSize (cells x y)
  { rowHeights := s.rowHeights.modify y (max · size.2)
    colWidths := s.colWidths.modify x (max · size.1)
    anyMultiline := s.anyMultiline || decide (1 < size.2) }

/-- `src/array2d.rs:419-436`: both loops. -/
def measure (cells : ℕ → ℕ → List Text) (xSize ySize : ℕ) : TableSize :=
  (List.range ySize).foldl (fun s y => (List.range xSize).foldl (fun s x => measureCell cells s x y) s)
    ⟨List.replicate ySize 0, List.replicate xSize 0, false⟩

/-- `src/array2d.rs:437-446` `write_separator_line`. -/
def separatorLine (colWidths : List ℕ) : Text :=
  (colWidths.flatMap fun w => ['+', '-'] ++ List.replicate w '-' ++ ['-']) ++ ['+']

/-- `src/array2d.rs:459-478`: one line of a row of cells; `iters` are the lines still to come of each cell. -/
def cellsLine (alternate : Bool) (xSize : ℕ) (colWidths : List ℕ) (iters : List (List Text)) : Text :=
  (if alternate then [] else ['[']) ++
    ((List.range xSize).flatMap fun x =>
      (if alternate then ['|'] else []) ++ ([' '] ++ padRight ((iters.getD x []).headD []) (colWidths.getD x 0) ++ [' '])) ++
    (if alternate then ['|'] else [']'])

/-- `src/array2d.rs:458-482`: the lines of a row of cells; `next()` has been called on every line iterator. -/
def rowLoop (alternate : Bool) (xSize : ℕ) (colWidths : List ℕ) : ℕ → List (List Text) → Text
  | 0, _ => []
  | n + 1, iters =>
    cellsLine alternate xSize colWidths iters ++ (if n ≠ 0 then ['\n'] else []) ++
      rowLoop alternate xSize colWidths n (iters.map List.tail)

/-- `src/array2d.rs:451-490`: a row of cells. -/
def rowText (alternate : Bool) (cells : ℕ → ℕ → List Text) (xSize ySize : ℕ) (s : TableSize) (y : ℕ) : Text :=
  let isLastRow := decide (y = ySize - 1)
  let lineIters := (List.range xSize).map fun x => cells x y
  let height := s.rowHeights.getD y 0 + if !alternate && s.anyMultiline && !isLastRow then 1 else 0
  rowLoop alternate xSize s.colWidths height lineIters ++
    (if alternate then '\n' :: separatorLine s.colWidths else []) ++
    (if isLastRow then [] else ['\n'])

/-- `src/array2d.rs:409-493` `fmt`, given the lines of the text of each element. -/
def displayText (alternate : Bool) (cells : ℕ → ℕ → List Text) (xSize ySize : ℕ) : Text :=
  if xSize = 0 ∨ ySize = 0 then
    "[x_size=".toList ++ decimal xSize ++ ", y_size=".toList ++ decimal ySize ++ "]\n".toList
  else
    let s := measure cells xSize ySize
    (if alternate then separatorLine s.colWidths ++ ['\n'] else []) ++
      (List.range ySize).flatMap (rowText alternate cells xSize ySize s)

/-- `src/array2d.rs:409-493` `fmt`; `text` prints an element and `lines` is `str::lines`. Indexing can panic. -/
def display {α : Type} (alternate : Bool) (text : α → Text) (lines : Text → List Text) (a : Array2D α) : Option Text :=
  if ∀ x < a.xSize, ∀ y < a.ySize, (a.index x y).isSome then
    some (displayText alternate (fun x y => ((a.index x y).map fun v => lines (text v)).getD []) a.xSize a.ySize)
  else none

end Array2D

end Algebraics
