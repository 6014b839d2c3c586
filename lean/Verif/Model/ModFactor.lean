import Verif.Model.ModPoly

/-!
# Model of the factoring code on stored modular integers

`src/polynomial/factorization_over_integers.rs` again, as in `Model/Factor.lean` (see there for the random stream, the
order of the heap and fuel), but with the arithmetic that the code performs: the modular factorization in
`ModularInteger<i32, KnownOddPrime<i32>>`, the lifting and the search in `ModularInteger<BigInt, BigInt>`, every
coefficient a pair (value, modulus) whose operations panic on overflow and on different moduli. All `expect`s and
(debug) assertions of the code are modelled. Not modelled: overflow of `usize`, printing.
-/

namespace Algebraics

namespace ModPoly

/-- the integer type of the modular factorization, `src/polynomial/factorization_over_integers.rs:430`. -/
def i32 : IntTy := .signed 32

/-- the integer type of the lifting, `src/polynomial/factorization_over_integers.rs:491-499`. -/
def big : IntTy := .bigInt

/-- `src/polynomial/mul.rs:151-156` `is_one`; `is_element_one` is `src/mod_int.rs:1148-1150`. -/
def isOne (p : List ModInt) : Bool := p.length == 1 && p.all fun c => decide (c.value = 1)

/-- `src/polynomial.rs:1622-1624` `is_square_free`. -/
def isSquareFree (t : IntTy) (ext : ℤ → ℤ → ModInt.ExtGcd) (p : List ModInt) : Option Bool := do
  let d ← derivative t p
  let g ← gcd t ext p d
  return decide (g.length - 1 = 0)

/-- `src/polynomial/factorization_over_integers.rs:427-431`: the polynomial with integer coefficients in `i32` modular
integers. -/
def ofInts32 (f : Poly ℤ) (modulus : ℤ) : Option (List ModInt) :=
  (f.coeffs.mapM fun v : ℤ => ModInt.ofBigint i32 v modulus).map normalize

/-- `src/polynomial/factorization_over_integers.rs:526-529`: the polynomial with integer coefficients in big modular
integers. -/
def ofIntsBig (f : Poly ℤ) (modulus : ℤ) : Option (List ModInt) :=
  (f.coeffs.mapM fun v : ℤ => ModInt.new big v modulus).map normalize

/-- `src/polynomial/factorization_over_integers.rs:229-238` `set_modulus`, and the closure given to `map_coefficients`
in lines 491-499. -/
def setModulus (p : List ModInt) (modulus : ℤ) : Option (List ModInt) :=
  (p.mapM fun c => ModInt.new big c.value modulus).map normalize

variable (ext : ℤ → ℤ → ModInt.ExtGcd)

/-- the choice of the prime: `src/polynomial/factorization_over_integers.rs:412-436`, with the polynomial read modulo
it. -/
def selectPrime (f : Poly ℤ) : ℕ → ℤ → Option (List ModInt × ℤ)
  | 0, _ => none
  | k + 1, prime =>
    match nextPrimeI32 prime with
    | some (some prime) =>
      if f.highestPowerCoefficient % prime = 0 then selectPrime f k prime
      else do
        let converted ← ofInts32 f prime
        if converted.length ≠ f.len then none
        else
          match ← isSquareFree i32 ext converted with
          | true => return (converted, prime)
          | false => selectPrime f k prime
    | _ => none

/-- the `flat_map` of `src/polynomial/factorization_over_integers.rs:441-451`; `i` is the index of the first entry. -/
def flatFactors (rng : ℕ → ℕ) (fuel : ℕ) : ℕ → List (List ModInt) → ℕ → Except Stop (List (List ModInt) × ℕ)
  | _, [], pos => .ok ([], pos)
  | i, f :: fs, pos =>
    if isOne f then flatFactors rng fuel (i + 1) fs pos
    else if i = 0 then
      match flatFactors rng fuel (i + 1) fs pos with
      | .error e => .error e
      | .ok (r, pos) => .ok (f :: r, pos)
    else
      match sdf i32 ext rng fuel i pos f with
      | .error e => .error e
      | .ok (l, pos) =>
        match flatFactors rng fuel (i + 1) fs pos with
        | .error e => .error e
        | .ok (r, pos) => .ok (l ++ r, pos)

/-- the modular factorization of `src/polynomial/factorization_over_integers.rs:439-453`. -/
def modularFactors (rng : ℕ → ℕ) (fuel pos : ℕ) (f : List ModInt) : Except Stop (List (List ModInt) × ℕ) :=
  match ddf i32 ext f with
  | none => .error .panic
  | some l => flatFactors ext rng fuel 0 l pos

/-- `FactorTreeNode`, `FactorTreeLeafNode`, `FactorTreeInteriorNode`:
`src/polynomial/factorization_over_integers.rs:29-36, 83-85, 104-107`. -/
inductive Tree where
  | leaf (factor : List ModInt)
  | node (left right : Tree) (totalDegree : ℕ) (product leftBezout rightBezout : List ModInt)

namespace Tree

/-- `src/polynomial/factorization_over_integers.rs:88-90, 110-115` `total_degree`, with its `expect`. -/
def degree : Tree → Option ℕ
  | leaf f => if f.isEmpty then none else some (f.length - 1)
  | node _ _ d _ _ _ => some d

/-- `src/polynomial/factorization_over_integers.rs:116-121` `product`. -/
def product : Tree → List ModInt
  | leaf f => f
  | node _ _ _ p _ _ => p

/-- `src/polynomial/factorization_over_integers.rs:77-80, 99-101, 133-138` `into_leaves`. -/
def leaves : Tree → List (List ModInt)
  | leaf f => [f]
  | node l r _ _ _ _ => l.leaves ++ r.leaves

/-- `src/polynomial/factorization_over_integers.rs:39-63` `FactorTreeInteriorNode::new`. -/
def mkNode (left right : Tree) : Option Tree := do
  let dl ← left.degree
  let dr ← right.degree
  let product ← mul i32 left.product right.product
  let e ← extendedGcd i32 ext left.product right.product
  if isOne e.v ∧ e.x.length < right.product.length ∧ e.y.length < left.product.length then
    return node left right (dl + dr) product e.x e.y
  else none

/-- `BinaryHeap::pop`, as in `Model/Factor.lean`. A comparison with a zero leaf panics; that is left to `mkNode`, which
every entry of a heap with two entries or more gets to. -/
def pop (choose : ℕ → List ℕ → ℕ) (k : ℕ) (heap : List Tree) : Option (Tree × List Tree) :=
  let i := choose k (heap.map fun t => t.degree.getD 0)
  match heap[i]? with
  | none => none
  | some t => some (t, heap.eraseIdx i)

/-- the loop of `src/polynomial/factorization_over_integers.rs:469-488`; `some none` is the early return. -/
def build (choose : ℕ → List ℕ → ℕ) : ℕ → ℕ → List Tree → Option (Option Tree)
  | 0, _, _ => none
  | fuel + 1, k, heap =>
    match pop choose k heap with
    | none => some none
    | some (smallest, heap) =>
      match pop choose (k + 1) heap with
      | none => some (some smallest)
      | some (second, heap) =>
        match mkNode ext smallest second with
        | none => none
        | some t => build choose fuel (k + 2) (t :: heap)

/-- `src/polynomial/factorization_over_integers.rs:64-76, 91-98, 122-132, 491-499` `map_coefficients`, from `i32` to
big integers. -/
def toBig (modulus : ℤ) : Tree → Option Tree
  | leaf f => do
    let f ← setModulus f modulus
    return leaf f
  | node l r d p lb rb => do
    let l ← toBig modulus l
    let r ← toBig modulus r
    let p ← setModulus p modulus
    let lb ← setModulus lb modulus
    let rb ← setModulus rb modulus
    return node l r d p lb rb

/-- `src/polynomial/factorization_over_integers.rs:245-250`: the new factors of one Hensel step, left and right. -/
def liftFactors (l r lb rb newProduct : List ModInt) : Option (List ModInt × List ModInt) := do
  let lr ← mul big l r
  let error ← sub big newProduct lr
  let e ← mul big lb error
  let qr ← divRem big ext e r
  let x ← mul big rb error
  let lx ← add big l x
  let y ← mul big qr.1 l
  let left ← add big lx y
  let right ← add big r qr.2
  return (left, right)

/-- `src/polynomial/factorization_over_integers.rs:251-259`: the new cofactors of one Hensel step. -/
def liftBezout (l r lb rb : List ModInt) (modulus : ℤ) : Option (List ModInt × List ModInt) := do
  let a ← mul big lb l
  let b ← mul big rb r
  let s ← add big a b
  let one ← ModInt.new big 1 modulus
  let bezoutError ← subCoeff big s one
  let e ← mul big lb bezoutError
  let qr ← divRem big ext e r
  let newLb ← sub big lb qr.2
  let x ← mul big rb bezoutError
  let d ← sub big rb x
  let y ← mul big qr.1 l
  let newRb ← sub big d y
  return (newLb, newRb)

/-- the four debug assertions of `src/polynomial/factorization_over_integers.rs:264-273`. -/
def liftChecks (oldModulus : ℤ) (oldLeft oldRight l r lb rb newProduct : List ModInt) : Option Bool := do
  let l' ← setModulus l oldModulus
  let r' ← setModulus r oldModulus
  let a ← mul big lb l
  let b ← mul big rb r
  let s ← add big a b
  let p ← mul big l r
  return decide (l' = oldLeft) && decide (r' = oldRight) && isOne s && decide (p = newProduct)

/-- `src/polynomial/factorization_over_integers.rs:211-297` `hensel_lift_step`. -/
def henselStep (oldModulus newModulus : ℤ) : Tree → List ModInt → Option Tree
  | leaf _, newProduct => some (leaf newProduct)
  | node left right _ _ lb rb, newProduct => do
    let oldL ← setModulus left.product newModulus
    let oldR ← setModulus right.product newModulus
    let oldLb ← setModulus lb newModulus
    let oldRb ← setModulus rb newModulus
    let lr ← liftFactors ext oldL oldR oldLb oldRb newProduct
    let bz ← liftBezout ext lr.1 lr.2 oldLb oldRb newModulus
    let ok ← liftChecks oldModulus left.product right.product lr.1 lr.2 bz.1 bz.2 newProduct
    if ok then
      let tl ← henselStep oldModulus newModulus left lr.1
      let tr ← henselStep oldModulus newModulus right lr.2
      let dl ← tl.degree
      let dr ← tr.degree
      return node tl tr (dl + dr) newProduct bz.1 bz.2
    else none

end Tree

/-- the lifting loop: `src/polynomial/factorization_over_integers.rs:524-535`. -/
def liftLoop (f : Poly ℤ) (limit : ℕ) : ℕ → ℤ → Tree → Option (ℤ × Tree)
  | 0, _, _ => none
  | fuel + 1, modulus, tree =>
    if Poly.needsLift limit modulus.toNat then do
      let expected ← ofIntsBig f (modulus * modulus)
      let tree ← tree.henselStep ext modulus (modulus * modulus) expected
      liftLoop f limit fuel (modulus * modulus) tree
    else some (modulus, tree)

/-- the representative in `(-M/2, M/2]`, with the assertions: `src/polynomial/factorization_over_integers.rs:597-603`;
`halfModulus` is line 564. -/
def symmetric (modulus : ℤ) (c : ModInt) : Option ℤ :=
  if c.value < 0 then none
  else if ¬ c.value < modulus then none
  else if modulus.tdiv 2 < c.value then some (c.value - modulus)
  else some c.value

/-- `src/polynomial/factorization_over_integers.rs:589-591`; an index out of range panics. -/
def subsetProduct (factors : List (List ModInt)) : List ℕ → List ModInt → Option (List ModInt)
  | [], acc => some acc
  | i :: is, acc => do
    let g ← factors[i]?
    let acc ← mul big acc g
    subsetProduct factors is acc

/-- the candidate for a subset: `src/polynomial/factorization_over_integers.rs:585-607`. -/
def candidate (modulus : ℤ) (input : Poly ℤ) (factors : List (List ModInt)) (subset : List ℕ) : Option (Poly ℤ) := do
  let c ← ModInt.new big input.highestPowerCoefficient modulus
  let p ← subsetProduct factors subset (normalize [c])
  let l ← p.mapM (symmetric modulus)
  (Poly.ofCoeffs l).primitivePart Poly.intGcd

/-- what the closure of the subset search captures. -/
structure Search where
  input : Poly ℤ
  modular : List (List ModInt)
  factors : List (Poly ℤ)
  found : Bool

/-- the closure: `src/polynomial/factorization_over_integers.rs:583-627`. `some true` is `Break`, `some false` a panic,
`none` is `Continue`. -/
def searchStep (modulus : ℤ) (subset : List ℕ) (s : Search) : Search × Option Bool :=
  match candidate modulus s.input s.modular subset with
  | none => (s, some false)
  | some c =>
    match s.input.exactPseudoDiv c with
    | none => (s, none)
    | some (quotient, _) =>
      match quotient.primitivePart Poly.intGcd with
      | none => (s, some false)
      | some q =>
        (⟨q, subset.reverse.foldl (fun l i => l.eraseIdx i) s.modular, s.factors ++ [c], true⟩,
          some true)

/-- the subset search: `src/polynomial/factorization_over_integers.rs:570-631`. -/
def searchLoop (modulus : ℤ) : ℕ → ℕ → Search → Option Search
  | 0, _, _ => none
  | fuel + 1, size, s =>
    let size := if s.found then size else size + 1
    if size * 2 > s.modular.length then some s
    else
      match forSubsetsOfSize (searchStep modulus) size 0 s.modular.length { s with found := false } with
      | (_, some false) => none
      | (s, _) => searchLoop modulus fuel size s

/-- the part of `factor_square_free_polynomial_with_rng` after the lifting, with the debug assertion of lines 545-551:
`src/polynomial/factorization_over_integers.rs:540-633`. -/
def recombine (f : Poly ℤ) (modulus : ℤ) (tree : Tree) : Option (List (Poly ℤ)) :=
  let content := f.content Poly.intGcd
  let modular := tree.leaves.filter fun g => !decide (g.length = 1)
  if modular.any fun g => decide (g.length ≤ 1) then none
  else
    let factors : List (Poly ℤ) := if content = 1 then [] else [Poly.ofCoeffs [content]]
    match searchLoop modulus (2 * modular.length + 2) 0 ⟨f, modular, factors, false⟩ with
    | none => none
    | some s => some (s.factors ++ [s.input])

/-- the part of `factor_square_free_polynomial_with_rng` after the modular factorization:
`src/polynomial/factorization_over_integers.rs:464-633`. -/
def liftAndRecombine (choose : ℕ → List ℕ → ℕ) (f : Poly ℤ) (prime : ℤ) (l : List (List ModInt)) :
    Option (List (Poly ℤ)) :=
  match Tree.build ext choose (l.length + 1) 0 (l.map Tree.leaf) with
  | none => none
  | some none =>
    if f.content Poly.intGcd = 1 then some [] else some [Poly.ofCoeffs [f.content Poly.intGcd]]
  | some (some tree) => do
    let tree ← tree.toBig prime
    let limit := f.factorLimit.toNat
    let r ← liftLoop ext f limit (limit + 2) prime tree
    recombine f r.1 r.2

/-- `src/polynomial/factorization_over_integers.rs:403-634` `factor_square_free_polynomial_with_rng`. -/
def factorSquareFree (choose : ℕ → List ℕ → ℕ) (rng : ℕ → ℕ) (fuel pos : ℕ) (f : Poly ℤ) :
    Except Stop (List (Poly ℤ) × ℕ) :=
  if f.degree.getD 0 ≤ 1 then .ok ([f], pos)
  else
    match selectPrime ext f (2 ^ 31) 2 with
    | none => .error .panic
    | some (modular, prime) =>
      match modularFactors ext rng fuel pos modular with
      | .error e => .error e
      | .ok (l, pos) =>
        match liftAndRecombine ext choose f prime l with
        | none => .error .panic
        | some r => .ok (r, pos)

/-- the loop of `factor_with_rng` over the square-free factors: `src/polynomial/factorization_over_integers.rs:644-654`. -/
def factorLoop (choose : ℕ → List ℕ → ℕ) (rng : ℕ → ℕ) (fuel : ℕ) :
    ℕ → List (Poly ℚ) → ℕ → Except Stop (List (Poly ℤ × ℕ) × ℕ)
  | _, [], pos => .ok ([], pos)
  | index, g :: gs, pos =>
    match factorSquareFree ext choose rng fuel pos (Poly.ofCoeffs (Poly.ratElements g)) with
    | .error e => .error e
    | .ok (l, pos) =>
      match factorLoop choose rng fuel (index + 1) gs pos with
      | .error e => .error e
      | .ok (r, pos) =>
        .ok ((l.filter fun q => !q.isOne).map (fun q => (q, index + 1)) ++ r, pos)

/-- `src/polynomial/factorization_over_integers.rs:635-663` `factor_with_rng`, `factor`. -/
def factor (choose : ℕ → List ℕ → ℕ) (rng : ℕ → ℕ) (fuel pos : ℕ) (f : Poly ℤ) :
    Except Stop (Poly.Factors × ℕ) :=
  let content := f.content Poly.intGcd
  match f.coeffs.mapM (fun v => checkedExactDivInt v content) with
  | none => .error .panic
  | some l =>
    let rational : Poly ℚ := Poly.ofCoeffs (l.map fun v : ℤ => (v : ℚ))
    match rational.yun Poly.ratGcd with
    | none => .error .panic
    | some (_, gs) =>
      match factorLoop ext choose rng fuel 0 gs pos with
      | .error e => .error e
      | .ok (r, pos) => .ok (⟨content, r⟩, pos)

end ModPoly

end Algebraics
