import Verif.Model.Array2DMut
import Verif.Model.MachinePoly

/-!
Further model of `/repo/src/array2d.rs`: the same functions with the arithmetic of `usize` words of `w` bits,
compiled with overflow checks (a debug build) or without (a release build).  Sizes, indices and bounds are
natural numbers below `2^w`.  Panics are `none`.  Running out of memory is not modelled: a vector may have any
length.
-/

namespace Algebraics

/-- What `+` and `*` on words of `w` bits make of the exact result `v` (the operators in
/repo/src/array2d.rs lines 169, 220, 256, 261, 367, 376, 556, 559, 589, 731). -/
def Overflow.word (w : ℕ) : Overflow → ℕ → Option ℕ
  | .panics, v => if v < 2 ^ w then some v else none
  | .wraps, v => some (v % 2 ^ w)

/-- What `-` on words of `w` bits gives (the operators in /repo/src/array2d.rs lines 271, 272, 531, 548, 578, 581,
589, 730, 735, 737). -/
def Overflow.wordSub (w : ℕ) : Overflow → ℕ → ℕ → Option ℕ
  | .panics, a, b => if b ≤ a then some (a - b) else none
  | .wraps, a, b => some ((a + (2 ^ w - b)) % 2 ^ w)

namespace Positions

/-- `rev_pos` (/repo/src/array2d.rs lines 544-549). -/
def revPosWords (w : ℕ) (m : Overflow) (p : Positions) : Option (Option (ℕ × ℕ)) :=
  if p.isFinished then some none
  else do
    let y ← m.wordSub w p.afterRevY 1
    return some (p.revX, y)

/-- `Iterator::next` (/repo/src/array2d.rs lines 554-562). -/
def nextWords (w : ℕ) (m : Overflow) (p : Positions) : Option (Positions × Option (ℕ × ℕ)) :=
  match p.pos with
  | none => some (p, none)
  | some r => do
    let y ← m.word w (p.y + 1)
    if y = p.ySize ∧ p.revX ≠ p.x then
      let x ← m.word w (p.x + 1)
      return ({ p with y := 0, x := x }, some r)
    else return ({ p with y := y }, some r)

/-- `DoubleEndedIterator::next_back` (/repo/src/array2d.rs lines 576-584). -/
def nextBackWords (w : ℕ) (m : Overflow) (p : Positions) : Option (Positions × Option (ℕ × ℕ)) := do
  match ← p.revPosWords w m with
  | none => return (p, none)
  | some r =>
    let a ← m.wordSub w p.afterRevY 1
    if a = 0 ∧ p.revX ≠ p.x then
      let x ← m.wordSub w p.revX 1
      return ({ p with afterRevY := p.ySize, revX := x }, some r)
    else return ({ p with afterRevY := a }, some r)

/-- `ExactSizeIterator::len` (/repo/src/array2d.rs lines 588-590). -/
def lenWords (w : ℕ) (m : Overflow) (p : Positions) : Option ℕ := do
  let d ← m.wordSub w p.revX p.x
  let a ← m.word w (p.ySize * d)
  let b ← m.word w (a + p.afterRevY)
  m.wordSub w b p.y

/-- One call (the methods at /repo/src/array2d.rs lines 552-585): `next` (`true`) or `next_back` (`false`). -/
def stepWords (w : ℕ) (m : Overflow) (p : Positions) : Bool → Option (Positions × Option (ℕ × ℕ))
  | true => p.nextWords w m
  | false => p.nextBackWords w m

/-- A history of calls (/repo/src/array2d.rs lines 552-591): the items, each with what `len()` would do after the
call. -/
def runWords (w : ℕ) (m : Overflow) (p : Positions) : List Bool → Option (List (Option (ℕ × ℕ) × Option ℕ))
  | [] => some []
  | op :: ops => do
    let (p', item) ← p.stepWords w m op
    let rest ← p'.runWords w m ops
    return (item, p'.lenWords w m) :: rest

end Positions

/-- `start_and_end` (/repo/src/array2d.rs lines 250-267). -/
def startAndEndWords (w : ℕ) (m : Overflow) (b : Bound × Bound) (size : ℕ) : Option (ℕ × ℕ) := do
  let start ← match b.1 with
    | .unbounded => some 0
    | .excluded v => m.word w (v + 1)
    | .included v => some v
  let stop ← match b.2 with
    | .unbounded => some size
    | .excluded v => some v
    | .included v => m.word w (v + 1)
  if ¬ start ≤ stop then none
  else if ¬ stop ≤ size then none
  else some (start, stop)

namespace Array2D

variable {α : Type} {σ : Type}

/-- `get_index_unchecked` (/repo/src/array2d.rs lines 168-170). -/
def addressWords (w : ℕ) (m : Overflow) (stride x y : ℕ) : Option ℕ := do
  let p ← m.word w (x * stride)
  m.word w (p + y)

/-- `from_array` (/repo/src/array2d.rs lines 219-227). -/
def fromArrayWords (w : ℕ) (m : Overflow) (xSize ySize : ℕ) (data : List α) : Option (Array2D α) := do
  let n ← m.word w (xSize * ySize)
  if n = data.length then some ⟨xSize, ySize, ySize, data⟩ else none

/-- `new` (/repo/src/array2d.rs lines 372-380). -/
def newWords (w : ℕ) (m : Overflow) (xSize ySize : ℕ) (value : α) : Option (Array2D α) := do
  let len ← m.word w (xSize * ySize)
  fromArrayWords w m xSize ySize (List.replicate len value)

/-- `new_with` (/repo/src/array2d.rs lines 366-371). -/
def newWithWords (w : ℕ) (m : Overflow) (xSize ySize : ℕ) (f : σ → σ × α) (s : σ) : Option (σ × Array2D α) := do
  let len ← m.word w (xSize * ySize)
  let (s', data) := resizeWith f len s
  let a ← fromArrayWords w m xSize ySize data
  return (s', a)

/-- `Positions::new(..).map(f).collect()` (/repo/src/array2d.rs lines 361-363), after the call of `len` for the
size hint. -/
def collectPositionsWords (w : ℕ) (m : Overflow) (f : ℕ → ℕ → σ → σ × α) :
    ℕ → Positions → σ → Option (σ × List α)
  | 0, _, _ => none
  | fuel + 1, p, s => do
    match ← p.nextWords w m with
    | (_, none) => return (s, [])
    | (p', some (x, y)) =>
      let (s', v) := f x y s
      let (s'', rest) ← collectPositionsWords w m f fuel p' s'
      return (s'', v :: rest)

/-- `new_with_positions` (/repo/src/array2d.rs lines 353-365).  `collect` asks for the size hint (563-566); std
does so after the first element, the model before it.  The call fails in the same cases: with at least two
elements in a column the first element changes no product or sum in `len`, and with fewer nothing overflows. -/
def newWithPositionsWords (w : ℕ) (m : Overflow) (xSize ySize : ℕ) (f : ℕ → ℕ → σ → σ × α) (s : σ) :
    Option (σ × Array2D α) := do
  let _ ← (Positions.new xSize ySize).lenWords w m
  let (s', data) ← collectPositionsWords w m f (xSize * ySize + 1) (Positions.new xSize ySize) s
  let a ← fromArrayWords w m xSize ySize data
  return (s', a)

/-- `Index::index` (/repo/src/array2d.rs lines 394-397) through `get_index` (240-244). -/
def indexWords (w : ℕ) (m : Overflow) (a : Array2D α) (x y : ℕ) : Option α :=
  if x < a.xSize ∧ y < a.ySize then do
    let i ← addressWords w m a.stride x y
    a.data[i]?
  else none

/-- Assignment through `IndexMut::index_mut` (/repo/src/array2d.rs lines 403-406). -/
def setWords (w : ℕ) (m : Overflow) (a : Array2D α) (x y : ℕ) (v : α) : Option (Array2D α) :=
  if x < a.xSize ∧ y < a.ySize then do
    let i ← addressWords w m a.stride x y
    if i < a.data.length then some { a with data := a.data.set i v } else none
  else none

/-- `swap_elements` (/repo/src/array2d.rs lines 342-349). -/
def swapElementsWords (w : ℕ) (m : Overflow) (a : Array2D α) (x1 y1 x2 y2 : ℕ) : Option (Array2D α) := do
  let v1 ← a.indexWords w m x1 y1
  let v2 ← a.indexWords w m x2 y2
  let a ← a.setWords w m x1 y1 v2
  a.setWords w m x2 y2 v1

/-- `do_slice` and `slice`, `slice_mut` (/repo/src/array2d.rs lines 245-312): the slice and its offset in the
data. -/
def sliceWords (w : ℕ) (m : Overflow) (a : Array2D α) (xb yb : SliceBound) : Option (ℕ × Array2D α) := do
  let (xStart, xEnd) ← startAndEndWords w m xb.toBounds a.xSize
  let (yStart, yEnd) ← startAndEndWords w m yb.toBounds a.ySize
  let xSize ← m.wordSub w xEnd xStart
  let ySize ← m.wordSub w yEnd yStart
  let offset ← addressWords w m a.stride xStart yStart
  if offset ≤ a.data.length then some (offset, ⟨xSize, ySize, a.stride, a.data.drop offset⟩) else none

/-- `IterOwnedData::get_unchecked` (/repo/src/array2d.rs lines 729-733). -/
def IterOwned.getWords (w : ℕ) (m : Overflow) (d : IterOwned α) (x y : ℕ) : Option (IterOwned α × α) := do
  let i ← addressWords w m d.stride x y
  let index ← m.wordSub w i d.offset
  let next ← m.word w (index + 1)
  let offset ← m.word w (d.offset + next)
  match d.iter[index]? with
  | none => none
  | some v => some ({ d with offset := offset, iter := d.iter.drop (index + 1) }, v)

/-- `IterOwnedData::get_unchecked_back` (/repo/src/array2d.rs lines 734-739): `nth_back k` gives the element with
`k` elements after it and leaves the ones before it. -/
def IterOwned.getBackWords (w : ℕ) (m : Overflow) (d : IterOwned α) (x y : ℕ) : Option (IterOwned α × α) := do
  let i ← addressWords w m d.stride x y
  let index ← m.wordSub w i d.offset
  let r ← m.wordSub w d.iter.length index
  let k ← m.wordSub w r 1
  if d.iter.length ≤ k then none
  else
    match d.iter[d.iter.length - 1 - k]? with
    | none => none
    | some v => some ({ d with iter := d.iter.take (d.iter.length - 1 - k) }, v)

/-- A history of calls on `IterMutWithPositions` / `IntoIterWithPositions` (/repo/src/array2d.rs lines
664-686, 766-788, through `impl_positions_wrapper!` 595-629). -/
def runOwnedPosWords (w : ℕ) (m : Overflow) (p : Positions) (d : IterOwned α) :
    List Bool → Option (List (Option ((ℕ × ℕ) × α)))
  | [] => some []
  | op :: ops => do
    let (p', item) ← p.stepWords w m op
    match item with
    | none =>
      let rest ← runOwnedPosWords w m p' d ops
      return none :: rest
    | some (x, y) =>
      let (d', v) ← if op then d.getWords w m x y else d.getBackWords w m x y
      let rest ← runOwnedPosWords w m p' d' ops
      return some ((x, y), v) :: rest

/-- `iter_mut().with_positions()` (/repo/src/array2d.rs lines 323-335, 752-755) in a history of calls. -/
def iterMutRefsWords (w : ℕ) (m : Overflow) (a : Array2D α) (ops : List Bool) :
    Option (List (Option ((ℕ × ℕ) × ℕ))) :=
  runOwnedPosWords w m (Positions.new a.xSize a.ySize) ⟨a.stride, 0, List.range a.data.length⟩ ops

/-- A history of calls on `Iter` (/repo/src/array2d.rs lines 683-718). -/
def runIterWords (w : ℕ) (m : Overflow) (p : Positions) (a : Array2D α) : List Bool → Option (List (Option α))
  | [] => some []
  | op :: ops => do
    let (p', item) ← p.stepWords w m op
    match item with
    | none =>
      let rest ← runIterWords w m p' a ops
      return none :: rest
    | some (x, y) =>
      let i ← addressWords w m a.stride x y
      let v ← a.data[i]?
      let rest ← runIterWords w m p' a ops
      return some v :: rest

/-- `index_mut`, `swap_elements` and `iter_mut` (/repo/src/array2d.rs lines 323-349, 400-407) as changes of
the array or slice they are called on. -/
def Edit.runWords (w : ℕ) (m : Overflow) (e : Edit α) (a : Array2D α) : Option (Array2D α) :=
  match e with
  | set x y v => a.setWords w m x y v
  | modify x y f => do
    let v ← a.indexWords w m x y
    a.setWords w m x y (f v)
  | swap x1 y1 x2 y2 => a.swapElementsWords w m x1 y1 x2 y2
  | iterMut ops f => do
    let refs ← a.iterMutRefsWords w m ops
    return { a with data := writeRefs f 0 refs a.data }

/-- A change through nested mutable slices (/repo/src/array2d.rs lines 293-312). -/
def throughWords (w : ℕ) (m : Overflow) (a : Array2D α) (f : Array2D α → Option (Array2D α)) :
    List (SliceBound × SliceBound) → Option (Array2D α)
  | [] => f a
  | (xb, yb) :: path => do
    let (offset, v) ← a.sliceWords w m xb yb
    let v' ← v.throughWords w m f path
    return { a with data := a.data.take offset ++ v'.data }

/-- A program of changes (the methods at /repo/src/array2d.rs lines 293-349, 400-407), each through its own
nested mutable slices. -/
def runEditsWords (w : ℕ) (m : Overflow) (a : Array2D α) :
    List (List (SliceBound × SliceBound) × Edit α) → Option (Array2D α)
  | [] => some a
  | (path, e) :: rest => do
    let a' ← a.throughWords w m (e.runWords w m) path
    a'.runEditsWords w m rest

end Array2D

end Algebraics
