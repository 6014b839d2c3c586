import Verif.Model.PolySturm
import Verif.Lemmas.PolyDiv
import Verif.Model.Util
import Mathlib.Data.ZMod.Basic

/-!
# Model of the factoring code

`src/polynomial/distinct_degree_factorization.rs`, `src/polynomial/same_degree_factorization.rs` and
`src/polynomial/factorization_over_integers.rs`.

* A polynomial over `ModularInteger` with modulus `n` is a `Poly (ZMod n)`.
* The random number generator is a parameter: the stream `rng : ℕ → ℕ` of everything the generator
  ever delivers, read from a position `pos` on; a sample of `Uniform::new(0, p)` is the next entry
  reduced modulo `p`, so every sequence of samples is the reading of some stream.
* The order in which `BinaryHeap` delivers trees of equal degree is a parameter: `choose k ds` is the
  index of the entry that the `k`-th `pop` removes when `ds` are the degrees of the entries.
* A loop without a syntactic bound takes fuel. `Stop.fuel` (the run is not finished yet) is kept
  apart from `Stop.panic`.
* Not modelled here: the stored form of the modular integers (`Model/ModFactor.lean` has it, and C89 says that it
  makes no difference). Not modelled: overflow of `usize`, printing.
-/

namespace Algebraics

/-- Why a run delivers no result. -/
inductive Stop where
  | panic
  | fuel
  deriving DecidableEq, Repr

/-- A call of which `none` is the panic. -/
def orPanic {α : Type} : Option α → Except Stop α
  | none => .error .panic
  | some a => .ok a

namespace Poly

/-- `is_one` (/repo/src/polynomial/mul.rs lines 151-156). -/
def isOne {T : Type} [CommRing T] [PolyCoeff T] [DecidableEq T] (p : Poly T) : Bool :=
  decide (p.coeffs = [1])

/-- the polynomial with integer coefficients read modulo `m`
(/repo/src/polynomial/factorization_over_integers.rs lines 427-431, 526-529). -/
def modPoly (m : ℕ) (f : Poly ℤ) : Poly (ZMod m) :=
  ofCoeffs (f.coeffs.map fun c : ℤ => (c : ZMod m))

/-- `set_modulus` (/repo/src/polynomial/factorization_over_integers.rs lines 229-238): the
representatives `0 ≤ v < n` read modulo `m`. -/
def setModulus {n : ℕ} (m : ℕ) (f : Poly (ZMod n)) : Poly (ZMod m) :=
  ofCoeffs (f.coeffs.map fun c => (c.val : ZMod m))

variable {n : ℕ}

/-! ## Distinct degree factorization -/

/-- the loop of `distinct_degree_factorization`
(/repo/src/polynomial/distinct_degree_factorization.rs lines 32-41); the result is the rest of
`retval`. Running out of iterations is the `unreachable!`. -/
def ddfLoop (x : Poly (ZMod n)) : ℕ → Poly (ZMod n) → Poly (ZMod n) → Option (List (Poly (ZMod n)))
  | 0, _, _ => none
  | k + 1, self, power =>
    if self.len ≤ 1 then some []
    else
      match gcd (power - x) self with
      | none => none
      | some nextFactor =>
        match self.div nextFactor with
        | none => none
        | some self =>
          match power.powmod n self with
          | none => none
          | some power => (ddfLoop x k self power).map (nextFactor :: ·)

/-- `distinct_degree_factorization`
(/repo/src/polynomial/distinct_degree_factorization.rs lines 18-42). -/
def ddf (f : Poly (ZMod n)) : Option (List (Poly (ZMod n))) :=
  match f.nonzeroHighestPowerCoefficient with
  | none => some [0]
  | some c =>
    let x : Poly (ZMod n) := makeMonomial 1 1
    match f.divCoeff c with
    | none => none
    | some self =>
      match x.powmod n self with
      | none => none
      | some power => (ddfLoop x self.len self power).map (ofCoeffs [c] :: ·)

/-! ## Same degree factorization -/

/-- the random polynomial of /repo/src/polynomial/same_degree_factorization.rs lines 65-70. -/
def randomPoly (n : ℕ) (rng : ℕ → ℕ) (pos d : ℕ) : Poly (ZMod n) :=
  ofCoeffs ((List.range (2 * d - 1)).map (fun i => ((rng (pos + i) % n : ℕ) : ZMod n)) ++ [1])

/-- one turn of the inner `loop` of /repo/src/polynomial/same_degree_factorization.rs lines 63-80:
`none` is a panic, `some none` the next turn. -/
def sdfSplit (d : ℕ) (random f : Poly (ZMod n)) : Option (Option (Poly (ZMod n) × Poly (ZMod n))) :=
  match random.powmod (((n : ℤ) ^ d - 1) / 2) f with
  | none => none
  | some r =>
    match gcd f (r.subCoeff 1) with
    | none => none
    | some g =>
      if 0 < g.degree.getD 0 ∧ g.len < f.len then
        match f.exactDivPoly g with
        | none => none
        | some q => some (some (g, q))
      else some none

/-- the outer loop of /repo/src/polynomial/same_degree_factorization.rs lines 54-84 (the stack has
its top first); a turn of the inner loop that did not split starts the outer turn again, with the
same polynomial. The second component of the result is the new position in the stream. -/
def sdfLoop (rng : ℕ → ℕ) (d : ℕ) : ℕ → ℕ → List (Poly (ZMod n)) → List (Poly (ZMod n)) →
    Except Stop (List (Poly (ZMod n)) × ℕ)
  | 0, _, _, _ => .error .fuel
  | _ + 1, pos, [], retval => .ok (retval, pos)
  | fuel + 1, pos, f :: stack, retval =>
    if f.degree.getD 0 < d then .error .panic
    else if f.degree = some d then sdfLoop rng d fuel pos stack (retval ++ [f])
    else
      match sdfSplit d (randomPoly n rng pos d) f with
      | none => .error .panic
      | some none => sdfLoop rng d fuel (pos + (2 * d - 1)) (f :: stack) retval
      | some (some (g, q)) => sdfLoop rng d fuel (pos + (2 * d - 1)) (q :: g :: stack) retval

/-- `same_degree_factorization`
(/repo/src/polynomial/same_degree_factorization.rs lines 30-86). -/
def sdf (rng : ℕ → ℕ) (fuel d pos : ℕ) (f : Poly (ZMod n)) :
    Except Stop (List (Poly (ZMod n)) × ℕ) :=
  if d < 1 ∨ f.len ≤ 1 then .error .panic
  else if f.degree = some d then .ok ([f], pos)
  else
    match f.nonzeroHighestPowerCoefficient with
    | none => .ok ([], pos)
    | some c => if c = 1 then sdfLoop rng d fuel pos [f] [] else .error .panic

/-- the `flat_map` of /repo/src/polynomial/factorization_over_integers.rs lines 441-451; `i` is the
index of the first entry. -/
def flatFactors (rng : ℕ → ℕ) (fuel : ℕ) : ℕ → List (Poly (ZMod n)) → ℕ →
    Except Stop (List (Poly (ZMod n)) × ℕ)
  | _, [], pos => .ok ([], pos)
  | i, f :: fs, pos =>
    if f.isOne then flatFactors rng fuel (i + 1) fs pos
    else if i = 0 then
      match flatFactors rng fuel (i + 1) fs pos with
      | .error e => .error e
      | .ok (r, pos) => .ok (f :: r, pos)
    else
      match sdf rng fuel i pos f with
      | .error e => .error e
      | .ok (l, pos) =>
        match flatFactors rng fuel (i + 1) fs pos with
        | .error e => .error e
        | .ok (r, pos) => .ok (l ++ r, pos)

/-- the modular factorization of /repo/src/polynomial/factorization_over_integers.rs lines 439-453. -/
def modularFactors (rng : ℕ → ℕ) (fuel pos : ℕ) (f : Poly (ZMod n)) :
    Except Stop (List (Poly (ZMod n)) × ℕ) :=
  match f.ddf with
  | none => .error .panic
  | some l => flatFactors rng fuel 0 l pos

end Poly

/-! ## The factor tree -/

/-- `FactorTreeNode`, `FactorTreeLeafNode`, `FactorTreeInteriorNode`
(/repo/src/polynomial/factorization_over_integers.rs lines 29-36, 83-85, 104-107). -/
inductive FTree (n : ℕ) where
  | leaf (factor : Poly (ZMod n))
  | node (left right : FTree n) (totalDegree : ℕ) (product leftBezout rightBezout : Poly (ZMod n))

namespace FTree

open Poly

variable {n : ℕ}

/-- `total_degree` (/repo/src/polynomial/factorization_over_integers.rs lines 88-90, 110-115). The
`expect` on a zero leaf is not modelled: no leaf is ever zero. -/
def degree : FTree n → ℕ
  | leaf f => f.degree.getD 0
  | node _ _ d _ _ _ => d

/-- `product` (/repo/src/polynomial/factorization_over_integers.rs lines 116-121). -/
def product : FTree n → Poly (ZMod n)
  | leaf f => f
  | node _ _ _ p _ _ => p

/-- `into_leaves` (/repo/src/polynomial/factorization_over_integers.rs lines 77-80, 99-101,
133-138). -/
def leaves : FTree n → List (Poly (ZMod n))
  | leaf f => [f]
  | node l r _ _ _ _ => l.leaves ++ r.leaves

/-- `FactorTreeInteriorNode::new` (/repo/src/polynomial/factorization_over_integers.rs lines
39-63). -/
def mkNode (left right : FTree n) : Option (FTree n) :=
  match extendedGcd left.product right.product with
  | none => none
  | some e =>
    if e.v.isOne ∧ e.x.len < right.product.len ∧ e.y.len < left.product.len then
      some (node left right (left.degree + right.degree) (left.product * right.product) e.x e.y)
    else none

/-- `BinaryHeap::pop`, on the list of the entries; see the head of this file. -/
def pop (choose : ℕ → List ℕ → ℕ) (k : ℕ) (heap : List (FTree n)) : Option (FTree n × List (FTree n)) :=
  let i := choose k (heap.map degree)
  match heap[i]? with
  | none => none
  | some t => some (t, heap.eraseIdx i)

/-- the loop of /repo/src/polynomial/factorization_over_integers.rs lines 469-488; `some none` is
the early return with an empty heap. The heap has one entry less after each turn. -/
def build (choose : ℕ → List ℕ → ℕ) : ℕ → ℕ → List (FTree n) → Option (Option (FTree n))
  | 0, _, _ => none
  | fuel + 1, k, heap =>
    match pop choose k heap with
    | none => some none
    | some (smallest, heap) =>
      match pop choose (k + 1) heap with
      | none => some (some smallest)
      | some (second, heap) =>
        match mkNode smallest second with
        | none => none
        | some t => build choose fuel (k + 2) (t :: heap)

/-- the new factors of one Hensel step
(/repo/src/polynomial/factorization_over_integers.rs lines 239-250): left, right. -/
def liftFactors {m : ℕ} (l r lb rb newProduct : Poly (ZMod m)) :
    Option (Poly (ZMod m) × Poly (ZMod m)) :=
  let error := newProduct - l * r
  match (lb * error).divRem r with
  | none => none
  | some (quotient, remainder) => some (l + rb * error + quotient * l, r + remainder)

/-- the new cofactors of one Hensel step
(/repo/src/polynomial/factorization_over_integers.rs lines 251-259). -/
def liftBezout {m : ℕ} (l r lb rb : Poly (ZMod m)) : Option (Poly (ZMod m) × Poly (ZMod m)) :=
  let bezoutError := (lb * l + rb * r).subCoeff 1
  match (lb * bezoutError).divRem r with
  | none => none
  | some (quotient, remainder) => some (lb - remainder, rb - rb * bezoutError - quotient * l)

/-- the four debug assertions of /repo/src/polynomial/factorization_over_integers.rs lines
264-273. -/
def liftChecks {m : ℕ} (oldLeft oldRight : Poly (ZMod n)) (l r lb rb newProduct : Poly (ZMod m)) :
    Bool :=
  decide (setModulus n l = oldLeft) && decide (setModulus n r = oldRight) &&
    (lb * l + rb * r).isOne && decide (l * r = newProduct)

/-- `hensel_lift_step` (/repo/src/polynomial/factorization_over_integers.rs lines 211-297), from
modulus `n` to modulus `m`; `none` is a panic, also of the debug assertions. -/
def henselStep (m : ℕ) : FTree n → Poly (ZMod m) → Option (FTree m)
  | leaf _, newProduct => some (leaf newProduct)
  | node left right _ _ lb rb, newProduct =>
    match liftFactors (setModulus m left.product) (setModulus m right.product)
        (setModulus m lb) (setModulus m rb) newProduct with
    | none => none
    | some (l, r) =>
      match liftBezout l r (setModulus m lb) (setModulus m rb) with
      | none => none
      | some (newLb, newRb) =>
        if liftChecks left.product right.product l r newLb newRb newProduct then
          match left.henselStep m l, right.henselStep m r with
          | some tl, some tr => some (node tl tr (tl.degree + tr.degree) newProduct newLb newRb)
          | _, _ => none
        else none

end FTree

namespace Poly

/-! ## Factoring a square-free polynomial with integer coefficients -/

/-- the choice of the prime: /repo/src/polynomial/factorization_over_integers.rs lines 412-436. The
primes increase and are below `2^31`, so `2^31` turns are enough. -/
def selectPrime (f : Poly ℤ) : ℕ → ℤ → Option ℕ
  | 0, _ => none
  | k + 1, prime =>
    match nextPrimeI32 prime with
    | some (some prime) =>
      if f.highestPowerCoefficient % prime = 0 then selectPrime f k prime
      else
        match (modPoly prime.toNat f).isSquareFree with
        | none => none
        | some true => some prime.toNat
        | some false => selectPrime f k prime
    | _ => none

/-- `factor_limit_squared * 4`: /repo/src/polynomial/factorization_over_integers.rs lines 509-519. -/
def factorLimit (f : Poly ℤ) : ℤ :=
  let maxNorm := f.maxNorm
  let highest := f.highestPowerCoefficient
  let degree := f.degree.getD 0
  shl (maxNorm * maxNorm * (highest * highest)) (degree * 2) * (degree + 1) * 4

/-- `modulus < needed_modulus` with `needed_modulus = sqrt(limit) + 1`: `ExactInexactInt`,
/repo/src/polynomial/factorization_over_integers.rs lines 299-389, 519, 524. -/
def needsLift (limit : ℕ) (modulus : ℕ) : Bool :=
  let sqrt := Nat.sqrt limit
  if sqrt * sqrt = limit then decide (modulus < sqrt + 1) else decide (modulus ≤ sqrt + 1)

/-- the lifting loop: /repo/src/polynomial/factorization_over_integers.rs lines 524-535. -/
def liftLoop (f : Poly ℤ) (limit : ℕ) : ℕ → (n : ℕ) → FTree n → Option ((n : ℕ) × FTree n)
  | 0, _, _ => none
  | fuel + 1, n, t =>
    if needsLift limit n then
      match t.henselStep (n * n) (modPoly (n * n) f) with
      | none => none
      | some t => liftLoop f limit fuel (n * n) t
    else some ⟨n, t⟩

/-- the representative in `(-M/2, M/2]`: lines 599-603. -/
def symmetric {M : ℕ} (c : ZMod M) : ℤ := if M / 2 < c.val then (c.val : ℤ) - M else c.val

/-- the product of the chosen modular factors, in the order of the subset (lines 589-591); `none`
is an index out of range. -/
def subsetProduct {M : ℕ} (factors : List (Poly (ZMod M))) :
    List ℕ → Poly (ZMod M) → Option (Poly (ZMod M))
  | [], acc => some acc
  | i :: is, acc =>
    match factors[i]? with
    | none => none
    | some g => subsetProduct factors is (acc * g)

/-- the candidate for a subset: /repo/src/polynomial/factorization_over_integers.rs lines 585-607. -/
def candidate {M : ℕ} (input : Poly ℤ) (factors : List (Poly (ZMod M))) (subset : List ℕ) :
    Option (Poly ℤ) :=
  match subsetProduct factors subset (ofCoeffs [(input.highestPowerCoefficient : ZMod M)]) with
  | none => none
  | some p => (ofCoeffs (p.coeffs.map symmetric)).primitivePart intGcd

/-- what the closure of the subset search captures. -/
structure Search (M : ℕ) where
  input : Poly ℤ
  modular : List (Poly (ZMod M))
  factors : List (Poly ℤ)
  found : Bool

/-- the closure: /repo/src/polynomial/factorization_over_integers.rs lines 583-627. `some true` is
`Break`, `some false` a panic, `none` is `Continue`. -/
def searchStep {M : ℕ} (subset : List ℕ) (s : Search M) : Search M × Option Bool :=
  match candidate s.input s.modular subset with
  | none => (s, some false)
  | some c =>
    match s.input.exactPseudoDiv c with
    | none => (s, none)
    | some (quotient, _) =>
      match quotient.primitivePart intGcd with
      | none => (s, some false)
      | some q =>
        (⟨q, subset.reverse.foldl (fun l i => l.eraseIdx i) s.modular, s.factors ++ [c], true⟩,
          some true)

/-- the subset search: /repo/src/polynomial/factorization_over_integers.rs lines 570-631. Each turn
increases `size` or removes a modular factor. -/
def searchLoop {M : ℕ} : ℕ → ℕ → Search M → Option (Search M)
  | 0, _, _ => none
  | fuel + 1, size, s =>
    let size := if s.found then size else size + 1
    if size * 2 > s.modular.length then some s
    else
      match forSubsetsOfSize searchStep size 0 s.modular.length { s with found := false } with
      | (_, some false) => none
      | (s, _) => searchLoop fuel size s

/-- the part of `factor_square_free_polynomial_with_rng` after the lifting:
/repo/src/polynomial/factorization_over_integers.rs lines 540-633. -/
def recombine {M : ℕ} (f : Poly ℤ) (t : FTree M) : Option (List (Poly ℤ)) :=
  let content := f.content intGcd
  let modular := t.leaves.filter fun g => !decide (g.degree = some 0)
  let factors : List (Poly ℤ) := if content = 1 then [] else [ofCoeffs [content]]
  match searchLoop (2 * modular.length + 2) 0 ⟨f, modular, factors, false⟩ with
  | none => none
  | some s => some (s.factors ++ [s.input])

/-- the part of `factor_square_free_polynomial_with_rng` after the modular factorization:
/repo/src/polynomial/factorization_over_integers.rs lines 464-633. -/
def liftAndRecombine (choose : ℕ → List ℕ → ℕ) (f : Poly ℤ) {p : ℕ} (l : List (Poly (ZMod p))) :
    Option (List (Poly ℤ)) :=
  match FTree.build choose (l.length + 1) 0 (l.map FTree.leaf) with
  | none => none
  | some none =>
    if f.content intGcd = 1 then some [] else some [ofCoeffs [f.content intGcd]]
  | some (some t) =>
    let limit := f.factorLimit.toNat
    match liftLoop f limit (limit + 2) p t with
    | none => none
    | some ⟨_, t⟩ => recombine f t

/-- `factor_square_free_polynomial_with_rng`
(/repo/src/polynomial/factorization_over_integers.rs lines 403-634). -/
def factorSquareFree (choose : ℕ → List ℕ → ℕ) (rng : ℕ → ℕ) (fuel pos : ℕ) (f : Poly ℤ) :
    Except Stop (List (Poly ℤ) × ℕ) :=
  if f.degree.getD 0 ≤ 1 then .ok ([f], pos)
  else
    match selectPrime f (2 ^ 31) 2 with
    | none => .error .panic
    | some p =>
      match modularFactors rng fuel pos (modPoly p f) with
      | .error e => .error e
      | .ok (l, pos) =>
        match liftAndRecombine choose f l with
        | none => .error .panic
        | some r => .ok (r, pos)

/-- the elements of a polynomial with rational coefficients, with the common denominator dropped:
`split_out_divisor().0` (/repo/src/polynomial.rs lines 1191-1194). -/
def ratElements (p : Poly ℚ) : List ℤ := p.raw.elements

/-- `factor_with_rng`, the loop over the square-free factors
(/repo/src/polynomial/factorization_over_integers.rs lines 644-654). -/
def factorLoop (choose : ℕ → List ℕ → ℕ) (rng : ℕ → ℕ) (fuel : ℕ) : ℕ → List (Poly ℚ) → ℕ →
    Except Stop (List (Poly ℤ × ℕ) × ℕ)
  | _, [], pos => .ok ([], pos)
  | index, g :: gs, pos =>
    match factorSquareFree choose rng fuel pos (ofCoeffs (ratElements g)) with
    | .error e => .error e
    | .ok (l, pos) =>
      match factorLoop choose rng fuel (index + 1) gs pos with
      | .error e => .error e
      | .ok (r, pos) =>
        .ok ((l.filter fun q => !q.isOne).map (fun q => (q, index + 1)) ++ r, pos)

/-- `PolynomialFactors` (/repo/src/polynomial.rs): the constant factor, and the factors with their
powers. -/
structure Factors where
  constant : ℤ
  factors : List (Poly ℤ × ℕ)
deriving DecidableEq

/-- `factor_with_rng` (/repo/src/polynomial/factorization_over_integers.rs lines 635-659); `factor`
(660-663) is the same with a generator of fixed seed. -/
def factor (choose : ℕ → List ℕ → ℕ) (rng : ℕ → ℕ) (fuel pos : ℕ) (f : Poly ℤ) :
    Except Stop (Factors × ℕ) :=
  let content := f.content intGcd
  match f.coeffs.mapM (fun v => checkedExactDivInt v content) with
  | none => .error .panic
  | some l =>
    let rational : Poly ℚ := ofCoeffs (l.map fun v : ℤ => (v : ℚ))
    match rational.yun ratGcd with
    | none => .error .panic
    | some (_, gs) =>
      match factorLoop choose rng fuel 0 gs pos with
      | .error e => .error e
      | .ok (r, pos) => .ok (⟨content, r⟩, pos)

end Poly

end Algebraics
