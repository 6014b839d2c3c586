import Mathlib.Data.List.Basic
import Mathlib.Data.Nat.Notation

/-!
Model of `/repo/src/array2d.rs` (crate-private, used by `lattice.rs`).

An array owns a `Vec` or borrows a slice; here `data` is the list of the elements it can see and
`stride` the distance between columns (`y_size` for an owned array).  Panics (failed assertions,
slice indices out of range, subtraction underflow in a debug build) are `none`.  `Display` is in
`Model/Array2DDisplay.lean`.  Sizes are unbounded here; with machine words in
`Model/Array2DWords.lean`.
-/

namespace Algebraics

/-- `Positions` (/repo/src/array2d.rs lines 500-519). -/
structure Positions where
  x : ℕ
  y : ℕ
  ySize : ℕ
  revX : ℕ
  afterRevY : ℕ
  deriving DecidableEq, Repr

namespace Positions

/-- `Positions::new` (/repo/src/array2d.rs lines 522-534). -/
def new (xSize ySize : ℕ) : Positions :=
  if xSize = 0 ∨ ySize = 0 then ⟨0, 0, 0, 0, 0⟩ else ⟨0, 0, ySize, xSize - 1, ySize⟩

/-- `is_finished` (/repo/src/array2d.rs lines 535-537). -/
def isFinished (p : Positions) : Bool := p.x = p.revX ∧ p.y = p.afterRevY

/-- `pos` (/repo/src/array2d.rs lines 538-543). -/
def pos (p : Positions) : Option (ℕ × ℕ) := if p.isFinished then none else some (p.x, p.y)

/-- `rev_pos` (/repo/src/array2d.rs lines 544-549); the outer option is the underflow of `after_rev_y - 1`. -/
def revPos (p : Positions) : Option (Option (ℕ × ℕ)) :=
  if p.isFinished then some none
  else if p.afterRevY = 0 then none
  else some (some (p.revX, p.afterRevY - 1))

/-- `Iterator::next` (/repo/src/array2d.rs lines 554-562): the new state and the item. -/
def next (p : Positions) : Positions × Option (ℕ × ℕ) :=
  match p.pos with
  | none => (p, none)
  | some r =>
    let y := p.y + 1
    if y = p.ySize ∧ p.revX ≠ p.x then ({ p with y := 0, x := p.x + 1 }, some r)
    else ({ p with y := y }, some r)

/-- `DoubleEndedIterator::next_back` (/repo/src/array2d.rs lines 576-584). -/
def nextBack (p : Positions) : Option (Positions × Option (ℕ × ℕ)) :=
  match p.revPos with
  | none => none
  | some none => some (p, none)
  | some (some r) =>
    let a := p.afterRevY - 1
    if a = 0 ∧ p.revX ≠ p.x then
      if p.revX = 0 then none
      else some ({ p with afterRevY := p.ySize, revX := p.revX - 1 }, some r)
    else some ({ p with afterRevY := a }, some r)

/-- `ExactSizeIterator::len` (/repo/src/array2d.rs lines 588-590). -/
def len (p : Positions) : Option ℕ :=
  if p.revX < p.x then none
  else
    let a := p.ySize * (p.revX - p.x) + p.afterRevY
    if a < p.y then none else some (a - p.y)

/-- A step of a history (the methods at /repo/src/array2d.rs lines 552-585): `next` (`true`) or `next_back` (`false`). -/
def step (p : Positions) : Bool → Option (Positions × Option (ℕ × ℕ))
  | true => some p.next
  | false => p.nextBack

/-- A whole history of calls (/repo/src/array2d.rs lines 552-591): the items returned, each with the `len()` after the call. -/
def run (p : Positions) : List Bool → Option (List (Option (ℕ × ℕ) × ℕ))
  | [] => some []
  | op :: ops => do
    let (p', item) ← p.step op
    let n ← p'.len
    let rest ← p'.run ops
    return (item, n) :: rest

end Positions

/-- `Array2DBase` (/repo/src/array2d.rs lines 154-160).  `stride` is `y_size` for an owned array. -/
structure Array2D (α : Type) where
  xSize : ℕ
  ySize : ℕ
  stride : ℕ
  data : List α

namespace Array2D

variable {α : Type}

/-- `from_array` (/repo/src/array2d.rs lines 219-227). -/
def fromArray (xSize ySize : ℕ) (data : List α) : Option (Array2D α) :=
  if xSize * ySize = data.length then some ⟨xSize, ySize, ySize, data⟩ else none

/-- `Index::index` (/repo/src/array2d.rs lines 394-397) through `get_index` (240-244). -/
def index (a : Array2D α) (x y : ℕ) : Option α :=
  if x < a.xSize ∧ y < a.ySize then a.data[x * a.stride + y]? else none

/-- Assignment through `IndexMut::index_mut` (/repo/src/array2d.rs lines 403-406). -/
def set (a : Array2D α) (x y : ℕ) (v : α) : Option (Array2D α) :=
  if x < a.xSize ∧ y < a.ySize ∧ x * a.stride + y < a.data.length then
    some { a with data := a.data.set (x * a.stride + y) v }
  else none

/-- `slice` and `slice_mut` on half-open ranges (/repo/src/array2d.rs lines 276-312,
`do_slice` 245-275; the other kinds of bounds are turned
into these before the assertions).  The last test is the slice indexing `data[data_offset..]`. -/
def slice (a : Array2D α) (xStart xEnd yStart yEnd : ℕ) : Option (Array2D α) :=
  if xStart ≤ xEnd ∧ xEnd ≤ a.xSize ∧ yStart ≤ yEnd ∧ yEnd ≤ a.ySize then
    let offset := xStart * a.stride + yStart
    if offset ≤ a.data.length then
      some ⟨xEnd - xStart, yEnd - yStart, a.stride, a.data.drop offset⟩
    else none
  else none

/-- `swap_elements` (/repo/src/array2d.rs lines 342-349). -/
def swapElements (a : Array2D α) (x1 y1 x2 y2 : ℕ) : Option (Array2D α) := do
  let v1 ← a.index x1 y1
  let v2 ← a.index x2 y2
  let a ← a.set x1 y1 v2
  a.set x2 y2 v1

/-- `IterOwnedData` (/repo/src/array2d.rs lines 721-726, used by `IterMut`, `IntoIter`): the part of the data not yet handed out and
where it starts. -/
structure IterOwned (α : Type) where
  stride : ℕ
  offset : ℕ
  iter : List α

/-- `IterOwnedData::get_unchecked` (/repo/src/array2d.rs lines 729-733). -/
def IterOwned.get (d : IterOwned α) (x y : ℕ) : Option (IterOwned α × α) :=
  if x * d.stride + y < d.offset then none
  else
    let index := x * d.stride + y - d.offset
    match d.iter[index]? with
    | none => none
    | some v => some ({ d with offset := d.offset + (index + 1), iter := d.iter.drop (index + 1) }, v)

/-- `IterOwnedData::get_unchecked_back` (/repo/src/array2d.rs lines 734-739): `nth_back (len - index - 1)` leaves the first `index`
elements. -/
def IterOwned.getBack (d : IterOwned α) (x y : ℕ) : Option (IterOwned α × α) :=
  if x * d.stride + y < d.offset then none
  else
    let index := x * d.stride + y - d.offset
    if d.iter.length < index + 1 then none
    else
      match d.iter[index]? with
      | none => none
      | some v => some ({ d with iter := d.iter.take index }, v)

/-- A history of calls on `IterMut`/`IntoIter` (`impl_positions_wrapper!`,
/repo/src/array2d.rs lines 595-629): the items. -/
def runOwned (p : Positions) (d : IterOwned α) : List Bool → Option (List (Option α))
  | [] => some []
  | op :: ops => do
    let (p', item) ← p.step op
    match item with
    | none =>
      let rest ← runOwned p' d ops
      return none :: rest
    | some (x, y) =>
      let (d', v) ← if op then d.get x y else d.getBack x y
      let rest ← runOwned p' d' ops
      return some v :: rest

/-- A history of calls on `Iter` (/repo/src/array2d.rs lines 683-718): the items, read from the whole data. -/
def runIter (p : Positions) (a : Array2D α) : List Bool → Option (List (Option α))
  | [] => some []
  | op :: ops => do
    let (p', item) ← p.step op
    match item with
    | none =>
      let rest ← runIter p' a ops
      return none :: rest
    | some (x, y) =>
      let v ← a.data[x * a.stride + y]?
      let rest ← runIter p' a ops
      return some v :: rest

/-- `iter()` (/repo/src/array2d.rs lines 316-322) run through a history. -/
def iterHistory (a : Array2D α) (ops : List Bool) : Option (List (Option α)) :=
  runIter (Positions.new a.xSize a.ySize) a ops

/-- `iter_mut()` / `into_iter()` (/repo/src/array2d.rs lines 323-335, 47-56) run through a history. -/
def iterOwnedHistory (a : Array2D α) (ops : List Bool) : Option (List (Option α)) :=
  runOwned (Positions.new a.xSize a.ySize) ⟨a.stride, 0, a.data⟩ ops

end Array2D

end Algebraics
