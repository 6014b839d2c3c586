import Verif.Model.Poly
import Verif.Model.ModInt

/-!
# Model of polynomials whose coefficients are machine integers

`Polynomial<i8>`, `<i16>`, `<i32>`, `<i64>`, `<i128>`, `<isize>` (`src/polynomial.rs:577-700`).  Such a polynomial is
the list of its elements, lowest power first; the divisor carries no information (`DivisorIsOne`), and the multipliers
that `divisor_to_element` makes of it are `1`.  What a `+`, `-` or `*` of two machine integers does when the result
does not fit depends on how the program was compiled: with overflow checks it panics (`none` here), without it wraps.
(Simplification: the exponents of `checked_pow` and the lengths, which are `usize`, are unbounded; lists never have
as many as `2^64` elements.)
-/

namespace Algebraics

/-- the two ways in which the compiler translates the arithmetic operators of machine integers: `overflow-checks` on
and off (not in /repo, it is a setting of the compiler) -/
inductive Overflow
  | panics
  | wraps
  deriving DecidableEq, Repr

/-- what an arithmetic operator on the signed type with `w` bits makes of the exact result `v` -/
def Overflow.fit (w : ℕ) : Overflow → ℤ → Option ℤ
  | .panics, v => (IntTy.signed w).check v
  | .wraps, v => some (v.bmod (2 ^ w))

namespace MachinePoly

variable (w : ℕ) (m : Overflow)

/-- `src/polynomial.rs:1208-1220` `normalize`, and `src/polynomial.rs:849-872` `From<Cow<[T]>>`; there is no divisor to
reduce (`src/polynomial.rs:651-652`). -/
def normalize (es : List ℤ) : List ℤ := stripZeros es

/-- the element loop of `src/polynomial/add_sub.rs:35-44`, with the zeros that are appended to `lhs` on the way; `f`
is the addition or the subtraction. -/
def addSubElems (f : ℤ → ℤ → ℤ) : List ℤ → List ℤ → Option (List ℤ)
  | [], [] => some []
  | [], b :: bs => do
    let l ← m.fit w (0 * 1)
    let r ← m.fit w (b * 1)
    let c ← m.fit w (f l r)
    let cs ← addSubElems f [] bs
    return c :: cs
  | a :: as, [] => do
    let c ← m.fit w (a * 1)
    let cs ← addSubElems f as []
    return c :: cs
  | a :: as, b :: bs => do
    let l ← m.fit w (a * 1)
    let r ← m.fit w (b * 1)
    let c ← m.fit w (f l r)
    let cs ← addSubElems f as bs
    return c :: cs

/-- `src/polynomial/add_sub.rs:16-46, 76-86, 104-135` `p + q`. -/
def add (l r : List ℤ) : Option (List ℤ) := (addSubElems w m (· + ·) l r).map normalize

/-- `src/polynomial/add_sub.rs:16-46, 190-200, 218-250` `p - q`. -/
def sub (l r : List ℤ) : Option (List ℤ) := (addSubElems w m (· - ·) l r).map normalize

/-- `src/polynomial/add_sub.rs:48-74` `add_sub_assign_single`: the first element only. -/
def addSubSingle (f : ℤ → ℤ → ℤ) (l : List ℤ) (r : ℤ) : Option (List ℤ) := do
  let (first, rest) := match l with
    | [] => ((0 : ℤ), [])
    | a :: as => (a, as)
  let a ← m.fit w (first * 1)
  let b ← m.fit w (r * 1)
  let c ← m.fit w (f a b)
  return normalize (c :: rest)

/-- `p + c`: `src/polynomial/add_sub.rs:88-102, 137-169`. -/
def addCoeff (l : List ℤ) (r : ℤ) : Option (List ℤ) := addSubSingle w m (· + ·) l r

/-- `p - c`: `src/polynomial/add_sub.rs:202-216, 252-284`. -/
def subCoeff (l : List ℤ) (r : ℤ) : Option (List ℤ) := addSubSingle w m (· - ·) l r

/-- `src/polynomial/add_sub.rs:292-304` `-p`. -/
def neg (p : List ℤ) : Option (List ℤ) := (p.mapM fun c => m.fit w (-c)).map normalize

/-- `src/polynomial/add_sub.rs:171-175` `checked_add`: the outer `none` is a panic, the inner one the result `None`. -/
def checkedAdd (l r : List ℤ) : Option (Option (List ℤ)) := (add w m l r).map some

/-- `src/polynomial/add_sub.rs:286-290` `checked_sub`. -/
def checkedSub (l r : List ℤ) : Option (Option (List ℤ)) := (sub w m l r).map some

/-- body of the inner loop `src/polynomial/mul.rs:24-31`: push or add at `index`. -/
def mulStep (acc : List ℤ) (index : ℕ) (v : ℤ) : Option (List ℤ) :=
  if index = acc.length then some (acc ++ [v])
  else do
    let s ← m.fit w (acc.getD index 0 + v)
    return acc.set index s

/-- inner loop `for r_index in 0..rhs.len()`, `src/polynomial/mul.rs:22-32`. -/
def mulRow (a : ℤ) : ℕ → List ℤ → List ℤ → Option (List ℤ)
  | _, [], acc => some acc
  | i, b :: bs, acc => do
    let v ← m.fit w (a * b)
    let acc ← mulStep w m acc i v
    mulRow a (i + 1) bs acc

/-- outer loop `for l_index in 0..self.len()`, `src/polynomial/mul.rs:21-33`. -/
def mulRows (r : List ℤ) : ℕ → List ℤ → List ℤ → Option (List ℤ)
  | _, [], acc => some acc
  | i, a :: as, acc => do
    let acc ← mulRow w m a i r acc
    mulRows r (i + 1) as acc

/-- `src/polynomial/mul.rs:12-36` `p * q`. -/
def mul (l r : List ℤ) : Option (List ℤ) :=
  if l.isEmpty || r.isEmpty then some [] else (mulRows w m r 0 l []).map normalize

/-- `src/polynomial/mul.rs:71-75` `checked_mul`. -/
def checkedMul (l r : List ℤ) : Option (Option (List ℤ)) := (mul w m l r).map some

/-- `src/polynomial/mul.rs:77-148` `p * c`. -/
def mulCoeff (l : List ℤ) (r : ℤ) : Option (List ℤ) := (l.mapM fun a => m.fit w (a * r)).map normalize

/-- `src/polynomial/mul.rs:187-230` `checked_pow` for `p`, and `pow`, which panics for the result `None`: the outer
`none` is a panic, the inner one the result `None`. -/
def checkedPow (p : List ℤ) (e : ℤ) : Option (Option (List ℤ)) :=
  if e < 0 then some none
  else if e = 0 then some (if p.isEmpty then none else some [1])
  else if e = 1 then some (some p)
  else Poly.powLoop (mul w m) (e.toNat + 1) p e.toNat none

/-- the loop of `src/polynomial.rs:1435-1441`: `index + 1` is converted to the type of the elements
(`mul_element_by_usize`, `src/polynomial.rs:630-636`), which panics if it does not fit, however the program was
compiled. -/
def derivElems : ℕ → List ℤ → Option (List ℤ)
  | _, [] => some []
  | index, e :: es => do
    let multiplier ← (IntTy.signed w).check (index + 1)
    let c ← m.fit w (e * multiplier)
    let cs ← derivElems (index + 1) es
    return c :: cs

/-- `src/polynomial.rs:1417-1447` `derivative`, `into_derivative`. -/
def derivative (p : List ℤ) : Option (List ℤ) :=
  match p with
  | [] => some []
  | _ :: es => (derivElems w m 0 es).map normalize

/-- `src/polynomial.rs:1448-1488` `eval`: the coefficients from the highest down. -/
def eval (p : List ℤ) (pt : ℤ) : Option ℤ :=
  p.reverse.foldlM (fun acc c => do
    let v ← m.fit w (acc * pt)
    m.fit w (v + c)) 0

/-- the loop of `src/polynomial/div_rem.rs:50-55` over `denominator_index`, at index 0. -/
def subRow (qc : ℤ) : List ℤ → List ℤ → Option (List ℤ)
  | d :: ds, r :: rs => do
    let v ← m.fit w (qc * d)
    let c ← m.fit w (r - v)
    let cs ← subRow qc ds rs
    return c :: cs
  | _, rs => some rs

/-- the same at offset `quotient_index`. -/
def subAt (qc : ℤ) (ds : List ℤ) : ℕ → List ℤ → Option (List ℤ)
  | 0, rs => subRow w m qc ds rs
  | k + 1, r :: rs => do
    let cs ← subAt qc ds k rs
    return r :: cs
  | _ + 1, [] => some []

/-- the main loop `src/polynomial/div_rem.rs:44-57`; the first argument is one more than the current
`quotient_index`; the last argument accumulates the quotient (already reversed). -/
def pdrLoop (dl : ℤ) (den : List ℤ) : ℕ → List ℤ → List ℤ → Option (List ℤ × List ℤ)
  | 0, rem, q => some (q, rem)
  | k + 1, rem, q => do
    let qc := rem.getLastD 0
    let rem ← rem.dropLast.mapM fun e => m.fit w (e * dl)
    let rem ← subAt w m qc den.dropLast k rem
    pdrLoop dl den k rem (qc :: q)

/-- `src/polynomial/div_rem.rs:60-64`: scale `quotient[i]` by `dl^i` for `i ≥ 1`; returns the final `factor`. -/
def scaleTail (dl : ℤ) : ℤ → List ℤ → Option (List ℤ × ℤ)
  | f, [] => some ([], f)
  | f, q :: qs => do
    let c ← m.fit w (q * f)
    let f ← m.fit w (f * dl)
    let r ← scaleTail dl f qs
    return (c :: r.1, r.2)

/-- `src/polynomial/div_rem.rs:36-70` `element_pseudo_div_rem`: (quotient, remainder, factor). -/
def elementPseudoDivRem (num den : List ℤ) (ql : ℕ) : Option (List ℤ × List ℤ × ℤ) := do
  let dl := den.getLastD 0
  let qr ← pdrLoop w m dl den ql num []
  match qr.1 with
  | [] => return ([], qr.2, dl)
  | q0 :: qs =>
    let s ← scaleTail w m dl dl qs
    return (q0 :: s.1, qr.2, s.2)

/-- `src/polynomial/div_rem.rs:73-113` `checked_pseudo_div_rem`: (quotient, remainder, factor); the outer `none` is a
panic, the inner one the result `None`. -/
def checkedPseudoDivRem (p q : List ℤ) : Option (Option (List ℤ × List ℤ × ℤ)) :=
  if q.isEmpty then some none
  else
    match Poly.quotientLen p.length q.length with
    | none => some (some ([], p, 1))
    | some ql => do
      let r ← elementPseudoDivRem w m p q ql
      return some (normalize r.1, normalize r.2.1, r.2.2)

end MachinePoly

end Algebraics
