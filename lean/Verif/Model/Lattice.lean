import Mathlib.Data.Rat.Floor
import Mathlib.Data.List.FinRange
import Mathlib.Logic.Function.Basic
import Verif.Model.AlgNum

/-!
# Lattice reduction (`/repo/src/lattice.rs`), for `T = BigInt`

An `Array2DOwned<T>` with `x_size` columns of `y_size = m` elements is a function from column numbers to
columns `Fin m → T`; writing to a column is `Function.update`. Columns from `x_size` on are never looked
at. (Simplification: the index checks of the arrays are left out, they are the subject of
`Verif.Props.Array2D`; all indices below are smaller than the sizes.) `Ratio<BigInt>` is `ℚ`. `none` is a
panic.
-/

namespace Algebraics

namespace Lattice

variable {m : ℕ}

/-- the body of the loop of `src/lattice.rs:23-29`. -/
def innerStep {α : Type} [Add α] [Mul α] (a b : Fin m → α) (acc : Option α) (y : Fin m) : Option α :=
  match acc with
  | none => some (a y * b y)
  | some v => some (v + a y * b y)

/-- `src/lattice.rs:16-31` `inner_product`. -/
def inner {α : Type} [Zero α] [Add α] [Mul α] (a b : Fin m → α) : α :=
  ((List.finRange m).foldl (innerStep a b) none).getD 0

/-- the columns as columns of rational numbers (`Ratio::from_integer`, and the products of a
`Ratio<T>` and a `T` in `inner_product`). -/
def toRat (a : Fin m → ℤ) : Fin m → ℚ := fun y => (a y : ℚ)

/-- the body of the loop of `src/lattice.rs:45-57`. -/
def gsStep (input : ℕ → Fin m → ℤ) (column : ℕ) (basis : ℕ → Fin m → ℚ) (j : ℕ) :
    Option (ℕ → Fin m → ℚ) :=
  let n := inner (basis column) (toRat (input j))
  let d := inner (basis j) (basis j)
  if d = 0 then (if n = 0 then some basis else none)
  else
    let factor := n / d
    some (Function.update basis column fun y => basis column y - basis j y * factor)

/-- `src/lattice.rs:33-58` `gram_schmidt_calculate_column`. -/
def gsColumn (input : ℕ → Fin m → ℤ) (basis : ℕ → Fin m → ℚ) (column : ℕ) :
    Option (ℕ → Fin m → ℚ) :=
  (List.range column).foldlM (gsStep input column) (Function.update basis column (toRat (input column)))

/-- `src/lattice.rs:60-69` `gram_schmidt`; `xSize` is the number of columns. -/
def gramSchmidt (xSize : ℕ) (input : ℕ → Fin m → ℤ) : Option (ℕ → Fin m → ℚ) :=
  (List.range xSize).foldlM (gsColumn input) fun _ _ => 0

/-- `src/lattice.rs:71-75` `LLLState`. -/
structure State (m : ℕ) where
  basis : ℕ → Fin m → ℤ
  orthogonal : ℕ → Fin m → ℚ
  valid : ℕ

namespace State

/-- `src/lattice.rs:81-87` `LLLState::new`. -/
def new (basis : ℕ → Fin m → ℤ) : State m := ⟨basis, fun _ _ => 0, 0⟩

/-- `src/lattice.rs:88-91` `invalidate_column`. -/
def invalidate (s : State m) (column : ℕ) : State m := { s with valid := min s.valid column }

/-- the `while` loop of `src/lattice.rs:93-100`; it takes as many turns as columns are missing. -/
def calculateLoop (s : State m) : ℕ → Option (State m)
  | 0 => some s
  | count + 1 => do
    let o ← gsColumn s.basis s.orthogonal s.valid
    calculateLoop ⟨s.basis, o, s.valid + 1⟩ count

/-- `src/lattice.rs:92-101` `calculate_column`. -/
def calculate (s : State m) (column : ℕ) : Option (State m) := s.calculateLoop (column + 1 - s.valid)

/-- `src/lattice.rs:102-109` `mu` (`none` also for the division by zero of `Ratio`). -/
def mu (s : State m) (i j : ℕ) : Option (ℚ × State m) := do
  let s ← s.calculate j
  let d := inner (s.orthogonal j) (s.orthogonal j)
  if d = 0 then none else some (inner (s.orthogonal j) (toRat (s.basis i)) / d, s)

end State

/-- the rounding of `src/lattice.rs:125-134`: to the nearest integer, ties to even. -/
def roundEven (q : ℚ) : ℤ :=
  let r := ⌊q⌋
  let rest := q - r
  if rest = 1 / 2 then (if r % 2 ≠ 0 then r + 1 else r)
  else if 1 / 2 < rest then r + 1
  else r

/-- the body of the `for` loop of `src/lattice.rs:122-141`. -/
def reduceStep (k : ℕ) (s : State m) (j : ℕ) : Option (State m) := do
  let (q, s) ← s.mu k j
  if 1 / 2 < |q| then
    let r := roundEven q
    let s := s.invalidate k
    return { s with basis := Function.update s.basis k fun y => s.basis k y - s.basis j y * r }
  else return s

/-- one turn of the `while` loop of `src/lattice.rs:121-163`, for `k < x_size`. -/
def step (delta : ℚ) (k : ℕ) (s : State m) : Option (ℕ × State m) := do
  let s ← (List.range k).reverse.foldlM (reduceStep k) s
  let (q, s) ← s.mu k (k - 1)
  let s ← s.calculate (k - 1)
  let before := inner (s.orthogonal (k - 1)) (s.orthogonal (k - 1))
  let s ← s.calculate k
  let this := inner (s.orthogonal k) (s.orthogonal k)
  if (delta - q * q) * before ≤ this then return (k + 1, s)
  else
    let s := (s.invalidate k).invalidate (k - 1)
    return (max 1 (k - 1),
      { s with basis := Function.update (Function.update s.basis k (s.basis (k - 1))) (k - 1) (s.basis k) })

/-- the `while` loop of `src/lattice.rs:121-163`. -/
def loop (xSize : ℕ) (delta : ℚ) : ℕ → ℕ → State m → Except Stop (State m)
  | 0, _, _ => .error .fuel
  | fuel + 1, k, s =>
    if k < xSize then
      match step delta k s with
      | none => .error .panic
      | some (k, s) => loop xSize delta fuel k s
    else .ok s

/-- `src/lattice.rs:112-165` `lll_reduce_with_delta`. -/
def reduceWithDelta (xSize : ℕ) (basis : ℕ → Fin m → ℤ) (delta : ℚ) (fuel : ℕ) :
    Except Stop (ℕ → Fin m → ℤ) := do
  let s ← loop xSize delta fuel 1 (State.new basis)
  return s.basis

/-- `src/lattice.rs:167-178` `lll_reduce`. -/
def reduce (xSize : ℕ) (basis : ℕ → Fin m → ℤ) (fuel : ℕ) : Except Stop (ℕ → Fin m → ℤ) :=
  reduceWithDelta xSize basis (3 / 4) fuel

end Lattice

end Algebraics
