import Verif.Model.Array2D

/-!
Further model of `/repo/src/array2d.rs`: the kinds of slice bounds, the constructors and `to_owned`.

A closure that a constructor calls is a function on a state `σ`, the state being what the Rust closure
captures. Panics are `none`. `usize` is unbounded here; see `Model/Array2DWords.lean` for machine words.
-/

namespace Algebraics

/-- `std::ops::Bound<usize>`. -/
inductive Bound where
  | unbounded
  | excluded (v : ℕ)
  | included (v : ℕ)
  deriving DecidableEq, Repr

/-- The types that implement `Array2DSliceBound` (/repo/src/array2d.rs lines 176-215); the ones that hold
references are the same by value. An inclusive range is one that has not been iterated over. -/
inductive SliceBound where
  | index (i : ℕ)
  | full
  | range (start stop : ℕ)
  | rangeFrom (start : ℕ)
  | rangeTo (stop : ℕ)
  | rangeInclusive (start last : ℕ)
  | rangeToInclusive (last : ℕ)
  | bounds (start stop : Bound)
  deriving DecidableEq, Repr

/-- `to_slice_bound` (/repo/src/array2d.rs lines 176-201). -/
def SliceBound.toBounds : SliceBound → Bound × Bound
  | index i => (.included i, .included i)
  | full => (.unbounded, .unbounded)
  | range s e => (.included s, .excluded e)
  | rangeFrom s => (.included s, .unbounded)
  | rangeTo e => (.unbounded, .excluded e)
  | rangeInclusive s l => (.included s, .included l)
  | rangeToInclusive l => (.unbounded, .included l)
  | bounds s e => (s, e)

/-- `start_and_end` (/repo/src/array2d.rs lines 250-267). -/
def startAndEnd (b : Bound × Bound) (size : ℕ) : Option (ℕ × ℕ) :=
  let start := match b.1 with
    | .unbounded => 0
    | .excluded v => v + 1
    | .included v => v
  let stop := match b.2 with
    | .unbounded => size
    | .excluded v => v
    | .included v => v + 1
  if ¬ start ≤ stop then none
  else if ¬ stop ≤ size then none
  else some (start, stop)

namespace Array2D

variable {α : Type} {σ : Type}

/-- `slice` and `slice_mut` (/repo/src/array2d.rs lines 245-312) for every kind of bounds. -/
def sliceBounds (a : Array2D α) (x y : SliceBound) : Option (Array2D α) := do
  let (xStart, xEnd) ← startAndEnd x.toBounds a.xSize
  let (yStart, yEnd) ← startAndEnd y.toBounds a.ySize
  a.slice xStart xEnd yStart yEnd

/-- `Positions::new(..).map(f).collect()` (/repo/src/array2d.rs lines 361-363): calls `next` until it
returns `None`; `fuel` bounds the number of calls, running out of it is `none`. -/
def collectPositions (f : ℕ → ℕ → σ → σ × α) : ℕ → Positions → σ → Option (σ × List α)
  | 0, _, _ => none
  | fuel + 1, p, s =>
    match p.next with
    | (_, none) => some (s, [])
    | (p', some (x, y)) => do
      let (s', v) := f x y s
      let (s'', rest) ← collectPositions f fuel p' s'
      return (s'', v :: rest)

/-- `new_with_positions` (/repo/src/array2d.rs lines 353-365): the state of the closure afterwards and the
array. -/
def newWithPositions (xSize ySize : ℕ) (f : ℕ → ℕ → σ → σ × α) (s : σ) : Option (σ × Array2D α) := do
  let (s', data) ← collectPositions f (xSize * ySize + 1) (Positions.new xSize ySize) s
  let a ← fromArray xSize ySize data
  return (s', a)

/-- `Vec::resize_with` of an empty vector (/repo/src/array2d.rs line 369). -/
def resizeWith (f : σ → σ × α) : ℕ → σ → σ × List α
  | 0, s => (s, [])
  | n + 1, s =>
    let (s', v) := f s
    let (s'', rest) := resizeWith f n s'
    (s'', v :: rest)

/-- `new_with` (/repo/src/array2d.rs lines 366-371). -/
def newWith (xSize ySize : ℕ) (f : σ → σ × α) (s : σ) : Option (σ × Array2D α) := do
  let (s', data) := resizeWith f (xSize * ySize) s
  let a ← fromArray xSize ySize data
  return (s', a)

/-- `new` (/repo/src/array2d.rs lines 372-380). -/
def new (xSize ySize : ℕ) (value : α) : Option (Array2D α) :=
  fromArray xSize ySize (List.replicate (xSize * ySize) value)

/-- `self.iter().cloned().collect()` (/repo/src/array2d.rs line 340): calls `next` until it returns
`None`; `fuel` bounds the number of calls, running out of it is `none`. -/
def collectIter (a : Array2D α) : ℕ → Positions → Option (List α)
  | 0, _ => none
  | fuel + 1, p =>
    match p.next with
    | (_, none) => some []
    | (p', some (x, y)) => do
      let v ← a.data[x * a.stride + y]?
      let rest ← collectIter a fuel p'
      return v :: rest

/-- `to_owned` (/repo/src/array2d.rs lines 336-341). -/
def toOwned (a : Array2D α) : Option (Array2D α) := do
  let data ← collectIter a (a.xSize * a.ySize + 1) (Positions.new a.xSize a.ySize)
  fromArray a.xSize a.ySize data

end Array2D

end Algebraics
