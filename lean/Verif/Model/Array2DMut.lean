import Verif.Model.Array2DMake

/-!
Further model of `/repo/src/array2d.rs`: writing through mutable slices and mutable iterators.

A reference `&mut T` to an element is the number of the element in the data of the array the iterator was
made for, so the iterator over references is the model of `IterOwnedData` run on these numbers. A mutable
slice borrows the data of its parent from an offset on; when the borrow ends the parent's data is what it
was before the offset, followed by the data of the slice. Panics are `none`.
-/

namespace Algebraics

namespace Array2D

variable {α : Type}

/-- A history of calls on `IterMutWithPositions` / `IntoIterWithPositions` (/repo/src/array2d.rs lines
664-686, 766-788, through `impl_positions_wrapper!` 595-629): the items, each with its position.
`with_positions` and `without_positions` (674-677, 752-755) only move the fields, so that a history on
`IterMut` is this one without the positions. -/
def runOwnedPos (p : Positions) (d : IterOwned α) : List Bool → Option (List (Option ((ℕ × ℕ) × α)))
  | [] => some []
  | op :: ops => do
    let (p', item) ← p.step op
    match item with
    | none =>
      let rest ← runOwnedPos p' d ops
      return none :: rest
    | some (x, y) =>
      let (d', v) ← if op then d.get x y else d.getBack x y
      let rest ← runOwnedPos p' d' ops
      return some ((x, y), v) :: rest

/-- The references that `iter_mut().with_positions()` (/repo/src/array2d.rs lines 323-335, 752-755) hands
out in a history of calls: `self.data.borrow_mut().iter_mut()` is the iterator over the references to all
elements in their order. -/
def iterMutRefs (a : Array2D α) (ops : List Bool) : Option (List (Option ((ℕ × ℕ) × ℕ))) :=
  runOwnedPos (Positions.new a.xSize a.ySize) ⟨a.stride, 0, List.range a.data.length⟩ ops

/-- The caller of `iter_mut` (/repo/src/array2d.rs lines 323-335, 822-830) writes through the references:
the item of call number `k` at position `q` gets the value `w k q old`. -/
def writeRefs (w : ℕ → ℕ × ℕ → α → α) : ℕ → List (Option ((ℕ × ℕ) × ℕ)) → List α → List α
  | _, [], data => data
  | k, none :: rest, data => writeRefs w (k + 1) rest data
  | k, some (q, i) :: rest, data => writeRefs w (k + 1) rest (data.modify i (w k q))

/-- What a program does with a mutable array or slice: the methods that take `&mut self`
(/repo/src/array2d.rs lines 323-349, 400-407). -/
inductive Edit (α : Type) where
  /-- `a[(x, y)] = v` -/
  | set (x y : ℕ) (v : α)
  /-- `f(&mut a[(x, y)])` -/
  | modify (x y : ℕ) (f : α → α)
  /-- `a.swap_elements(x1, y1, x2, y2)` -/
  | swap (x1 y1 x2 y2 : ℕ)
  /-- a history of calls on `a.iter_mut()` with writes through the items -/
  | iterMut (ops : List Bool) (w : ℕ → ℕ × ℕ → α → α)

/-- `index_mut`, `swap_elements` and `iter_mut` (/repo/src/array2d.rs lines 323-349, 400-407) as changes of
the array or slice they are called on. -/
def Edit.run (e : Edit α) (a : Array2D α) : Option (Array2D α) :=
  match e with
  | set x y v => a.set x y v
  | modify x y f => do
    let v ← a.index x y
    a.set x y (f v)
  | swap x1 y1 x2 y2 => a.swapElements x1 y1 x2 y2
  | iterMut ops w => do
    let refs ← a.iterMutRefs ops
    return { a with data := writeRefs w 0 refs a.data }

/-- `slice_mut` (/repo/src/array2d.rs lines 293-312), taken repeatedly, each slice of the one before, and a
change of the innermost slice. The slice's data is `&mut self.data.borrow_mut()[data_offset..]` (310), with
the `data_offset` of `do_slice` (269-274). -/
def through (a : Array2D α) (f : Array2D α → Option (Array2D α)) :
    List (SliceBound × SliceBound) → Option (Array2D α)
  | [] => f a
  | (xb, yb) :: path => do
    let (xStart, xEnd) ← startAndEnd xb.toBounds a.xSize
    let (yStart, yEnd) ← startAndEnd yb.toBounds a.ySize
    let v ← a.slice xStart xEnd yStart yEnd
    let v' ← v.through f path
    return { a with data := a.data.take (xStart * a.stride + yStart) ++ v'.data }

/-- A program of changes (the methods at /repo/src/array2d.rs lines 293-349, 400-407), each through its own
nested mutable slices. -/
def runEdits (a : Array2D α) : List (List (SliceBound × SliceBound) × Edit α) → Option (Array2D α)
  | [] => some a
  | (path, e) :: rest => do
    let a' ← a.through e.run path
    a'.runEdits rest

end Array2D

end Algebraics
