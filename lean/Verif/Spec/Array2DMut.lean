import Verif.Model.Array2DMut
import Verif.Props.Array2D

/-!
Specification for C93: what changes of a two-dimensional array, made through mutable slices and mutable
iterators, mean for its elements. It knows coordinates only, no data, stride or offset.
-/

namespace Algebraics

/-- the first index that a range stands for -/
def SliceBound.lo : SliceBound → ℕ
  | index i => i
  | full => 0
  | range s _ => s
  | rangeFrom s => s
  | rangeTo _ => 0
  | rangeInclusive s _ => s
  | rangeToInclusive _ => 0
  | bounds .unbounded _ => 0
  | bounds (.included s) _ => s
  | bounds (.excluded s) _ => s + 1

/-- the index after the last one that a range stands for, in a direction with `size` indices -/
def SliceBound.hi (size : ℕ) : SliceBound → ℕ
  | index i => i + 1
  | full => size
  | range _ e => e
  | rangeFrom _ => size
  | rangeTo e => e
  | rangeInclusive _ l => l + 1
  | rangeToInclusive l => l + 1
  | bounds _ .unbounded => size
  | bounds _ (.included l) => l + 1
  | bounds _ (.excluded e) => e

/-- The elements by their coordinates; only those inside the bounds matter. -/
abbrev Grid (α : Type) := ℕ → ℕ → α

/-- The call, of a history of `next` (`true`) and `next_back` (`false`), that hands out the element at `q`
of an array of the given size: the history takes the positions, in column-major order, from both ends. -/
def callFor (xSize ySize : ℕ) (ops : List Bool) (q : ℕ × ℕ) : Option ℕ :=
  ((dequeRun (columnMajor xSize ySize) ops).map Prod.fst).findIdx? (· = some q)

/-- what a change does to the elements of the array it is made on -/
def Grid.edit {α : Type} (xSize ySize : ℕ) (g : Grid α) : Array2D.Edit α → Grid α
  | .set x y v => fun i j => if i = x ∧ j = y then v else g i j
  | .modify x y f => fun i j => if i = x ∧ j = y then f (g i j) else g i j
  | .swap x1 y1 x2 y2 => fun i j =>
    if i = x1 ∧ j = y1 then g x2 y2 else if i = x2 ∧ j = y2 then g x1 y1 else g i j
  | .iterMut ops w => fun i j =>
    match callFor xSize ySize ops (i, j) with
    | some k => w k (i, j) (g i j)
    | none => g i j

/-- what a change through nested mutable slices does to the elements of the outermost array: a slice is the
window of the indices its two ranges stand for, numbered from 0 -/
def Grid.through {α : Type} (e : Array2D.Edit α) :
    List (SliceBound × SliceBound) → (xSize ySize : ℕ) → Grid α → Grid α
  | [], xSize, ySize, g => g.edit xSize ySize e
  | (xb, yb) :: path, xSize, ySize, g => fun i j =>
    if xb.lo ≤ i ∧ i < xb.hi xSize ∧ yb.lo ≤ j ∧ j < yb.hi ySize then
      Grid.through e path (xb.hi xSize - xb.lo) (yb.hi ySize - yb.lo)
        (fun i' j' => g (xb.lo + i') (yb.lo + j')) (i - xb.lo) (j - yb.lo)
    else g i j

/-- a program of changes, one after the other -/
def Grid.run {α : Type} (xSize ySize : ℕ) :
    List (List (SliceBound × SliceBound) × Array2D.Edit α) → Grid α → Grid α
  | [], g => g
  | (path, e) :: rest, g => Grid.run xSize ySize rest (Grid.through e path xSize ySize g)

/-- the positions that a change names exist -/
def Array2D.Edit.Fits {α : Type} (xSize ySize : ℕ) : Array2D.Edit α → Prop
  | .set x y _ => x < xSize ∧ y < ySize
  | .modify x y _ => x < xSize ∧ y < ySize
  | .swap x1 y1 x2 y2 => (x1 < xSize ∧ y1 < ySize) ∧ x2 < xSize ∧ y2 < ySize
  | .iterMut _ _ => True

/-- all ranges lie inside the array or slice they are applied to, and so does the change -/
def PathFits {α : Type} (e : Array2D.Edit α) : List (SliceBound × SliceBound) → ℕ → ℕ → Prop
  | [], xSize, ySize => e.Fits xSize ySize
  | (xb, yb) :: path, xSize, ySize =>
    (xb.lo ≤ xb.hi xSize ∧ xb.hi xSize ≤ xSize) ∧ (yb.lo ≤ yb.hi ySize ∧ yb.hi ySize ≤ ySize) ∧
      PathFits e path (xb.hi xSize - xb.lo) (yb.hi ySize - yb.lo)

/-- none of the slices is empty -/
def PathNonempty : List (SliceBound × SliceBound) → ℕ → ℕ → Prop
  | [], _, _ => True
  | (xb, yb) :: path, xSize, ySize =>
    xb.lo < xb.hi xSize ∧ yb.lo < yb.hi ySize ∧
      PathNonempty path (xb.hi xSize - xb.lo) (yb.hi ySize - yb.lo)

/-- the array shows the elements of the grid -/
def Array2D.Shows {α : Type} (a : Array2D α) (g : Grid α) : Prop :=
  ∀ x y, x < a.xSize → y < a.ySize → a.index x y = some (g x y)

end Algebraics
