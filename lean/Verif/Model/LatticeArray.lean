import Verif.Model.Lattice
import Verif.Model.Array2DMake

/-!
# Lattice reduction (`/repo/src/lattice.rs`) on the arrays as they are stored, for `T = BigInt`

`Verif.Model.Lattice` treats an array as a function that gives the columns. Here the arrays are the ones of
`Verif.Model.Array2D` (sizes, stride and a flat list of elements), and every access is the one the code makes: `slice`,
the iterators, indexing with its assertions, `swap_elements`. `none` is a panic. `Ratio<BigInt>` is `ℚ`.
-/

namespace Algebraics

namespace Lattice

namespace Stored

/-- the body of the loop of `src/lattice.rs:23-29`. -/
def productStep {β : Type} (mul : ℚ → β → ℚ) (acc : Option ℚ) (p : ℚ × β) : Option ℚ :=
  match acc with
  | none => some (mul p.1 p.2)
  | some v => some (v + mul p.1 p.2)

/-- `src/lattice.rs:16-31` `inner_product`; `mul` is the product of a ratio with a ratio or with an integer, the two
uses there are. (Simplification: the two iterators are run one after the other, not in turns; they only read.) -/
def innerProduct {β : Type} (mul : ℚ → β → ℚ) (a : Array2D ℚ) (b : Array2D β) : Option ℚ :=
  if a.xSize = b.xSize ∧ a.ySize = b.ySize then do
    let xs ← Array2D.collectIter a (a.xSize * a.ySize + 1) (Positions.new a.xSize a.ySize)
    let ys ← Array2D.collectIter b (b.xSize * b.ySize + 1) (Positions.new b.xSize b.ySize)
    return ((xs.zip ys).foldl (productStep mul) none).getD 0
  else none

/-- `slice(x, ..)`. (`src/lattice.rs:46-47`, `104-107` and others: the columns of an array) -/
def column {α : Type} (a : Array2D α) (x : ℕ) : Option (Array2D α) := a.sliceBounds (.index x) .full

/-- a ratio times an integer (`src/lattice.rs:24`). -/
def mulInt (a : ℚ) (b : ℤ) : ℚ := a * b

/-- a ratio times a ratio (`src/lattice.rs:24`). -/
def mulRat (a b : ℚ) : ℚ := a * b

/-- the body of the loop of `src/lattice.rs:53-56`: `basis[(column, y)] -= basis[(j, y)] * factor`. -/
def subtractRat (c j : ℕ) (factor : ℚ) (basis : Array2D ℚ) (y : ℕ) : Option (Array2D ℚ) := do
  let v ← basis.index j y
  let w ← basis.index c y
  basis.set c y (w - v * factor)

/-- the body of the loop of `src/lattice.rs:45-57`. -/
def gsStep (input : Array2D ℤ) (c : ℕ) (basis : Array2D ℚ) (j : ℕ) : Option (Array2D ℚ) := do
  let n ← innerProduct mulInt (← column basis c) (← column input j)
  let d ← innerProduct mulRat (← column basis j) (← column basis j)
  if d = 0 then (if n = 0 then some basis else none)
  else (List.range basis.ySize).foldlM (subtractRat c j (n / d)) basis

/-- the body of the loop of `src/lattice.rs:42-44`. -/
def copyEntry (input : Array2D ℤ) (c : ℕ) (basis : Array2D ℚ) (y : ℕ) : Option (Array2D ℚ) := do
  let v ← input.index c y
  basis.set c y v

/-- `src/lattice.rs:33-58` `gram_schmidt_calculate_column`. -/
def gsColumn (input : Array2D ℤ) (basis : Array2D ℚ) (c : ℕ) : Option (Array2D ℚ) :=
  if input.xSize = basis.xSize ∧ input.ySize = basis.ySize then
    if c < basis.xSize then do
      let basis ← (List.range basis.ySize).foldlM (copyEntry input c) basis
      (List.range c).foldlM (gsStep input c) basis
    else none
  else none

/-- an array of zeros, `Array2DOwned::new_with(x_size, y_size, Zero::zero)` (`src/lattice.rs:64`, `83`). -/
def zeros (xSize ySize : ℕ) : Option (Array2D ℚ) := do
  let r ← Array2D.newWith xSize ySize (fun s : Unit => (s, (0 : ℚ))) ()
  return r.2

/-- `src/lattice.rs:60-69` `gram_schmidt`. -/
def gramSchmidt (input : Array2D ℤ) : Option (Array2D ℚ) := do
  let basis ← zeros input.xSize input.ySize
  (List.range basis.xSize).foldlM (gsColumn input) basis

/-- `src/lattice.rs:71-75` `LLLState`. -/
structure State where
  basis : Array2D ℤ
  orthogonal : Array2D ℚ
  valid : ℕ

namespace State

/-- `src/lattice.rs:81-87` `LLLState::new`. -/
def new (basis : Array2D ℤ) : Option State := do
  let o ← zeros basis.xSize basis.ySize
  return ⟨basis, o, 0⟩

/-- `src/lattice.rs:88-91` `invalidate_column`. -/
def invalidate (s : State) (c : ℕ) : State := { s with valid := min s.valid c }

/-- the `while` loop of `src/lattice.rs:93-100`; `fuel` bounds the number of turns, running out of it is `none`. -/
def calculateLoop (c : ℕ) : ℕ → State → Option State
  | fuel, s =>
    if c < s.valid then some s
    else
      match fuel with
      | 0 => none
      | fuel + 1 => do
        let input ← s.basis.sliceBounds .full .full
        let o ← gsColumn input s.orthogonal s.valid
        calculateLoop c fuel ⟨s.basis, o, s.valid + 1⟩

/-- `src/lattice.rs:92-101` `calculate_column`. -/
def calculate (s : State) (c : ℕ) : Option State := calculateLoop c (c + 1) s

/-- `src/lattice.rs:102-109` `mu`; the division by zero of `Ratio` is a panic. -/
def mu (s : State) (i j : ℕ) : Option (ℚ × State) := do
  let s ← s.calculate j
  let n ← innerProduct mulInt (← column s.orthogonal j) (← column s.basis i)
  let d ← innerProduct mulRat (← column s.orthogonal j) (← column s.orthogonal j)
  if d = 0 then none else return (n / d, s)

end State

/-- the body of the loop of `src/lattice.rs:136-139`. -/
def subtractInt (k j : ℕ) (r : ℤ) (basis : Array2D ℤ) (y : ℕ) : Option (Array2D ℤ) := do
  let v ← basis.index j y
  let w ← basis.index k y
  basis.set k y (w - v * r)

/-- the body of the `for` loop of `src/lattice.rs:122-141`. The rounding (125-134) is `Lattice.roundEven`. -/
def reduceStep (k : ℕ) (s : State) (j : ℕ) : Option State := do
  let (q, s) ← s.mu k j
  if 1 / 2 < |q| then
    let r := roundEven q
    let s := s.invalidate k
    let basis ← (List.range s.basis.ySize).foldlM (subtractInt k j r) s.basis
    return { s with basis := basis }
  else return s

/-- the body of the loop of `src/lattice.rs:157-159`. -/
def swapEntry (k : ℕ) (basis : Array2D ℤ) (y : ℕ) : Option (Array2D ℤ) := basis.swapElements k y (k - 1) y

/-- one turn of the `while` loop of `src/lattice.rs:121-163`, for `k < x_size`; `k - 1` panics for `k = 0`. -/
def step (delta : ℚ) (k : ℕ) (s : State) : Option (ℕ × State) := do
  let s ← (List.range k).reverse.foldlM (reduceStep k) s
  if k = 0 then none
  else
    let (q, s) ← s.mu k (k - 1)
    let s ← s.calculate (k - 1)
    let before ← innerProduct mulRat (← column s.orthogonal (k - 1)) (← column s.orthogonal (k - 1))
    let s ← s.calculate k
    let this ← innerProduct mulRat (← column s.orthogonal k) (← column s.orthogonal k)
    if (delta - q * q) * before ≤ this then return (k + 1, s)
    else
      let s := (s.invalidate k).invalidate (k - 1)
      let basis ← (List.range s.basis.ySize).foldlM (swapEntry k) s.basis
      return (max 1 (k - 1), { s with basis := basis })

/-- the `while` loop of `src/lattice.rs:121-163`. -/
def loop (delta : ℚ) : ℕ → ℕ → State → Except Stop State
  | 0, _, _ => .error .fuel
  | fuel + 1, k, s =>
    if k < s.basis.xSize then
      match step delta k s with
      | none => .error .panic
      | some (k, s) => loop delta fuel k s
    else .ok s

/-- `src/lattice.rs:112-165` `lll_reduce_with_delta`. -/
def reduceWithDelta (basis : Array2D ℤ) (delta : ℚ) (fuel : ℕ) : Except Stop (Array2D ℤ) :=
  match State.new basis with
  | none => .error .panic
  | some s => do
    let s ← loop delta fuel 1 s
    return s.basis

/-- `src/lattice.rs:167-178` `lll_reduce`. -/
def reduce (basis : Array2D ℤ) (fuel : ℕ) : Except Stop (Array2D ℤ) := reduceWithDelta basis (3 / 4) fuel

end Stored

end Lattice

end Algebraics
