import Verif.Model.ModInt
import Verif.Model.Factor

/-!
# Model of polynomials whose coefficients are `ModularInteger`s, as they are stored

`Polynomial<ModularInteger<V, M>>`: a list of pairs (value, modulus), lowest power first, for every integer type `V`
that the crate instantiates (`IntTy`).  Every operation on coefficients is the one of `Model/ModInt.lean`, which panics
on overflow and on different moduli.  The divisor carries no information (`DivisorIsOne`), and the multipliers that
`divisor_to_element` makes of it are `1` with the modulus of the other element.  `none` is a panic, or the `None` of a
function whose name starts with `checked_`.  `ext` is the extended gcd of `V` (num-integer).
-/

namespace Algebraics

namespace ModPoly

variable (t : IntTy) (ext : ℤ → ℤ → ModInt.ExtGcd)

/-- `src/mod_int.rs:1166-1172` `make_zero_element`. -/
def zeroLike (c : ModInt) : Option ModInt := ModInt.new t 0 c.modulus

/-- `src/mod_int.rs:1173-1179` `make_one_element`, and `divisor_to_element` (1209-1214). -/
def oneLike (c : ModInt) : Option ModInt := ModInt.new t 1 c.modulus

/-- `src/polynomial.rs:1208-1220` `normalize`, and `src/polynomial.rs:849-872` `From<Cow<[T]>>`; `is_element_zero` is
`src/mod_int.rs:1145-1147`. -/
def normalize (es : List ModInt) : List ModInt := es.rdropWhile fun c => decide (c.value = 0)

/-- `src/polynomial.rs:1146-1156` `make_monomial`. -/
def makeMonomial (c : ModInt) (n : ℕ) : Option (List ModInt) :=
  if c.value = 0 then some []
  else do
    let z ← zeroLike t c
    return List.replicate n z ++ [c]

/-! ### `src/polynomial/add_sub.rs` -/

/-- the loop of `src/polynomial/add_sub.rs:31-34`, which appends zeros to `lhs`. -/
def pad (l r : List ModInt) : Option (List ModInt) :=
  if l.length < r.length then do
    let b ← r.head?
    let z ← zeroLike t b
    return l ++ List.replicate (r.length - l.length) z
  else some l

/-- the element loop of `src/polynomial/add_sub.rs:35-44`; `f` is the addition or the subtraction. -/
def addSubElems (f : ModInt → ModInt → Option ModInt) (lm rm : ModInt) :
    List ModInt → List ModInt → Option (List ModInt)
  | [], _ => some []
  | a :: as, [] => do
    let c ← ModInt.mul t a lm
    let cs ← addSubElems f lm rm as []
    return c :: cs
  | a :: as, b :: bs => do
    let l ← ModInt.mul t a lm
    let r ← ModInt.mul t b rm
    let c ← f l r
    let cs ← addSubElems f lm rm as bs
    return c :: cs

/-- `src/polynomial/add_sub.rs:16-46` `add_sub_assign`. -/
def addSub (f : ModInt → ModInt → Option ModInt) (l r : List ModInt) : Option (List ModInt) :=
  match l.head?.or r.head? with
  | none => some l
  | some source => do
    let lm ← oneLike t source
    let rm ← oneLike t source
    let l ← pad t l r
    let es ← addSubElems t f lm rm l r
    return normalize es

/-- `p + q`: `src/polynomial/add_sub.rs:76-86, 104-135`. -/
def add (l r : List ModInt) : Option (List ModInt) := addSub t (ModInt.add t) l r

/-- `p - q`: `src/polynomial/add_sub.rs:190-200, 218-250`. -/
def sub (l r : List ModInt) : Option (List ModInt) := addSub t (ModInt.sub t) l r

/-- `src/polynomial/add_sub.rs:48-74` `add_sub_assign_single`. -/
def addSubSingle (f : ModInt → ModInt → Option ModInt) (l : List ModInt) (r : ModInt) : Option (List ModInt) := do
  let lm ← oneLike t r
  let rm ← oneLike t r
  let l ← if l.isEmpty then (zeroLike t r).map fun z => [z] else some l
  match l with
  | [] => none
  | a :: as =>
    let a ← ModInt.mul t a lm
    let b ← ModInt.mul t r rm
    let c ← f a b
    return normalize (c :: as)

/-- `p + c`: `src/polynomial/add_sub.rs:88-102, 137-169`. -/
def addCoeff (l : List ModInt) (r : ModInt) : Option (List ModInt) := addSubSingle t (ModInt.add t) l r

/-- `p - c`: `src/polynomial/add_sub.rs:202-216, 252-284`. -/
def subCoeff (l : List ModInt) (r : ModInt) : Option (List ModInt) := addSubSingle t (ModInt.sub t) l r

/-- `src/polynomial/add_sub.rs:292-304` `-p`. -/
def neg (p : List ModInt) : Option (List ModInt) := (p.mapM fun c => ModInt.neg t c).map normalize

/-! ### `src/polynomial/mul.rs` -/

/-- body of the inner loop `src/polynomial/mul.rs:24-31`: push or add at `index`. -/
def mulStep (acc : List ModInt) (index : ℕ) (v : ModInt) : Option (List ModInt) :=
  if index = acc.length then some (acc ++ [v])
  else do
    let e ← acc[index]?
    let s ← ModInt.add t e v
    return acc.set index s

/-- inner loop `for r_index in 0..rhs.len()`, `src/polynomial/mul.rs:22-32`. -/
def mulRow (a : ModInt) : ℕ → List ModInt → List ModInt → Option (List ModInt)
  | _, [], acc => some acc
  | i, b :: bs, acc => do
    let v ← ModInt.mul t a b
    let acc ← mulStep t acc i v
    mulRow a (i + 1) bs acc

/-- outer loop `for l_index in 0..self.len()`, `src/polynomial/mul.rs:21-33`. -/
def mulRows (r : List ModInt) : ℕ → List ModInt → List ModInt → Option (List ModInt)
  | _, [], acc => some acc
  | i, a :: as, acc => do
    let acc ← mulRow t a i r acc
    mulRows r (i + 1) as acc

/-- `src/polynomial/mul.rs:12-36` `p * q`. -/
def mul (l r : List ModInt) : Option (List ModInt) :=
  if l.isEmpty || r.isEmpty then some [] else (mulRows t r 0 l []).map normalize

/-- `src/polynomial/mul.rs:77-148` `p * c`. -/
def mulCoeff (l : List ModInt) (r : ModInt) : Option (List ModInt) := (l.mapM fun a => ModInt.mul t a r).map normalize

/-- `src/polynomial.rs:1506-1512` `to_one_if_nonzero`. -/
def toOneIfNonzero (p : List ModInt) : Option (List ModInt) := do
  let first ← p.head?
  let one ← oneLike t first
  return [one]

/-- `src/polynomial/mul.rs:187-230` `checked_pow`, `pow`. -/
def checkedPow (p : List ModInt) (e : ℤ) : Option (List ModInt) :=
  if e < 0 then none
  else if e = 0 then toOneIfNonzero t p
  else if e = 1 then some p
  else do
    let r ← Poly.powLoop (mul t) (e.toNat + 1) p e.toNat none
    r

/-! ### `src/polynomial/div_rem.rs` -/

/-- the loop of `src/polynomial/div_rem.rs:50-55` over `denominator_index`, at index 0; an index out of range panics. -/
def subRow (qc : ModInt) : List ModInt → List ModInt → Option (List ModInt)
  | [], rs => some rs
  | _ :: _, [] => none
  | d :: ds, r :: rs => do
    let v ← ModInt.mul t qc d
    let c ← ModInt.sub t r v
    let cs ← subRow qc ds rs
    return c :: cs

/-- the same at offset `quotient_index`. -/
def subAt (qc : ModInt) (ds : List ModInt) : ℕ → List ModInt → Option (List ModInt)
  | 0, rs => subRow t qc ds rs
  | k + 1, r :: rs => do
    let cs ← subAt qc ds k rs
    return r :: cs
  | _ + 1, [] => if ds.isEmpty then some [] else none

/-- the main loop `src/polynomial/div_rem.rs:44-57`; the first argument is one more than the current
`quotient_index`; the last argument accumulates the quotient (already reversed). -/
def pdrLoop (dl : ModInt) (den : List ModInt) :
    ℕ → List ModInt → List ModInt → Option (List ModInt × List ModInt)
  | 0, rem, q => some (q, rem)
  | k + 1, rem, q => do
    let qc ← rem.getLast?
    let rem ← rem.dropLast.mapM fun e => ModInt.mul t e dl
    let rem ← subAt t qc den.dropLast k rem
    pdrLoop dl den k rem (qc :: q)

/-- `src/polynomial/div_rem.rs:60-64`: scale `quotient[i]` by `dl^i` for `i ≥ 1`; returns the final `factor`. -/
def scaleTail (dl : ModInt) : ModInt → List ModInt → Option (List ModInt × ModInt)
  | f, [] => some ([], f)
  | f, q :: qs => do
    let c ← ModInt.mul t q f
    let f ← ModInt.mul t f dl
    let r ← scaleTail dl f qs
    return (c :: r.1, r.2)

/-- `src/polynomial/div_rem.rs:36-70` `element_pseudo_div_rem`: (quotient, remainder, factor). -/
def elementPseudoDivRem (num den : List ModInt) (ql : ℕ) : Option (List ModInt × List ModInt × ModInt) := do
  let dl ← den.getLast?
  let qr ← pdrLoop t dl den ql num []
  match qr.1 with
  | [] => none
  | q0 :: qs =>
    let s ← scaleTail t dl dl qs
    return (q0 :: s.1, qr.2, s.2)

/-- `src/polynomial/div_rem.rs:73-117` `checked_pseudo_div_rem`, `pseudo_div_rem`: (quotient, remainder, factor). -/
def pseudoDivRem (p q : List ModInt) : Option (List ModInt × List ModInt × ModInt) := do
  let first ← q.head?
  match Poly.quotientLen p.length q.length with
  | none =>
    let one ← oneLike t first
    return ([], p, one)
  | some ql =>
    let r ← elementPseudoDivRem t p q ql
    return (normalize r.1, normalize r.2.1, r.2.2)

/-- `src/polynomial/div_rem.rs:118-138` `exact_pseudo_div` and `checked_exact_pseudo_div`. -/
def exactPseudoDiv (p q : List ModInt) : Option (List ModInt × ModInt) := do
  let r ← pseudoDivRem t p q
  if r.2.1.isEmpty then return (r.1, r.2.2) else none

/-- `src/polynomial/div_rem.rs:294-343` `div_single`, `checked_div_single`. -/
def divCoeff (p : List ModInt) (c : ModInt) : Option (List ModInt) :=
  (p.mapM fun a => ModInt.div t ext a c).map normalize

/-- `src/polynomial/div_rem.rs:141-161` `checked_div_rem`, `div_rem`. -/
def divRem (p q : List ModInt) : Option (List ModInt × List ModInt) := do
  let r ← pseudoDivRem t p q
  let a ← divCoeff t ext r.1 r.2.2
  let b ← divCoeff t ext r.2.1 r.2.2
  return (a, b)

/-- `src/polynomial/div_rem.rs:163-170, 183-191, 222-230` `p / q`, `checked_div`. -/
def div (p q : List ModInt) : Option (List ModInt) := do
  let r ← pseudoDivRem t p q
  divCoeff t ext r.1 r.2.2

/-- `src/polynomial/div_rem.rs:172-179, 193-201, 232-240` `p % q`, `checked_rem`. -/
def rem (p q : List ModInt) : Option (List ModInt) := do
  let r ← pseudoDivRem t p q
  divCoeff t ext r.2.1 r.2.2

/-- `src/polynomial/div_rem.rs:203-214, 242-254` `ExactDiv` of polynomials. -/
def exactDiv (p q : List ModInt) : Option (List ModInt) := do
  let r ← exactPseudoDiv t p q
  divCoeff t ext r.1 r.2

/-- `src/polynomial/div_rem.rs:472-508` `checked_powmod`, `powmod`. -/
def powmod (p : List ModInt) (e : ℤ) (modulus : List ModInt) : Option (List ModInt) :=
  if e < 0 then none
  else if e = 0 then toOneIfNonzero t p
  else do
    let base ← rem t ext p modulus
    if e = 1 then return base
    else
      let r ← Poly.powLoop (fun a b => do
        let c ← mul t a b
        rem t ext c modulus) (e.toNat + 1) base e.toNat none
      r

/-! ### further functions of `src/polynomial.rs` -/

/-- the element loop of `src/polynomial.rs:1417-1447`. -/
def derivElems : ℕ → List ModInt → Option (List ModInt)
  | _, [] => some []
  | i, e :: es => do
    let c ← ModInt.mulByUsize t e (i + 1)
    let cs ← derivElems (i + 1) es
    return c :: cs

/-- `src/polynomial.rs:1417-1447` `derivative`, `into_derivative`. -/
def derivative (p : List ModInt) : Option (List ModInt) :=
  match p with
  | [] => some []
  | _ :: es => (derivElems t 0 es).map normalize

/-- `src/polynomial.rs:1448-1488` `eval`: from the highest coefficient down, starting from the zero with the modulus of
the point. -/
def eval (p : List ModInt) (pt : ModInt) : Option ModInt := do
  let zero ← zeroLike t pt
  p.reverse.foldlM (fun acc c => do
    let v ← ModInt.mul t acc pt
    ModInt.add t v c) zero

/-- `src/polynomial.rs:1279-1293` `monic_assign`/`into_monic`, and `src/polynomial.rs:1310-1332` `into_reduced` with
`get_nonzero_reducing_factor` (`src/mod_int.rs:1246-1257`). -/
def toReduced (p : List ModInt) : Option (List ModInt) :=
  match p.getLast? with
  | none => some p
  | some c => divCoeff t ext p c

/-! ### `src/polynomial/gcd.rs` -/

/-- `src/polynomial.rs:204-223` `coefficient_pow_usize`. -/
def coeffPow (base : ModInt) (exponent : ℕ) : Option ModInt :=
  if exponent = 0 then oneLike t base
  else do
    let r ← Poly.powLoop (ModInt.mul t) (exponent + 1) base exponent none
    r

/-- `src/polynomial/gcd.rs:16-31` `exact_mul_by_signed_power`. -/
def exactMulBySignedPower (factor base : ModInt) (pos neg : ℕ) : Option ModInt :=
  if neg ≤ pos then do
    let b ← coeffPow t base (pos - neg)
    ModInt.mul t factor b
  else do
    let b ← coeffPow t base (neg - pos)
    ModInt.div t ext factor b

/-- the loop of `src/polynomial/gcd.rs:63-94`; `usize` subtraction below zero panics. -/
def subresultantLoop : ℕ → List ModInt → ℕ → ModInt → ModInt → List ModInt → ℕ → Option (List ModInt)
  | 0, _, _, _, _, _, _ => none
  | fuel + 1, f2, n2, a2, c2, f1, n1 =>
    if n2 < n1 then none
    else do
      let pr ← pseudoDivRem t f2 f1
      let a2 ← ModInt.neg t a2
      let nc ← ModInt.neg t c2
      let nc ← coeffPow t nc (n2 - n1)
      let divisor ← ModInt.mul t a2 nc
      let f ← divCoeff t ext pr.2.1 divisor
      if f.isEmpty then return f1
      else
        let a1 ← f1.getLast?
        let e ← coeffPow t a1 (n2 - n1)
        let c1 ← exactMulBySignedPower t ext e c2 (n1 + 1) n2
        subresultantLoop fuel f1 n1 a1 c1 f (f.length - 1)

/-- the part of `src/polynomial/gcd.rs:45-99` after the operands are ordered by length. -/
def subresultantGcdOrdered (l r : List ModInt) (needNegate : Bool) : Option (List ModInt) :=
  if r.isEmpty then some l
  else do
    let first ← l.head?
    let one ← oneLike t first
    let f ← subresultantLoop t ext (r.length + 1) l (l.length - 1) one one r (r.length - 1)
    if needNegate then neg t f else return f

/-- `src/polynomial/gcd.rs:37-100` `subresultant_gcd`. -/
def subresultantGcd (l r : List ModInt) : Option (List ModInt) :=
  if l.length < r.length then
    subresultantGcdOrdered t ext r l ((r.length - 1) % 2 == 1 && (l.length - 1) % 2 == 1)
  else subresultantGcdOrdered t ext l r false

/-- `src/polynomial/gcd.rs:193-197` `GCD::gcd`. -/
def gcd (l r : List ModInt) : Option (List ModInt) := do
  let l ← toReduced t ext l
  let r ← toReduced t ext r
  let g ← subresultantGcd t ext l r
  toReduced t ext g

/-- `src/polynomial/gcd.rs:198-206` `gcd_lcm`. -/
def gcdLcm (l r : List ModInt) : Option (List ModInt × List ModInt) := do
  let g ← gcd t ext l r
  if g.isEmpty then return (g, [])
  else
    let q ← exactDiv t ext r g
    let m ← mul t l q
    return (g, m)

/-- `src/polynomial/gcd.rs:233-237` `struct StateSet`, also used for `ExtendedGCDResult`. -/
structure ExtState where
  v : List ModInt
  x : List ModInt
  y : List ModInt

/-- the loop of `src/polynomial/gcd.rs:264-278`. -/
def extGcdLoop : ℕ → ExtState → ExtState → Option ExtState
  | 0, _, _ => none
  | fuel + 1, l, r =>
    if r.v.isEmpty then some l
    else do
      let qr ← divRem t ext l.v r.v
      let rx ← mul t r.x qr.1
      let x ← sub t l.x rx
      let ry ← mul t r.y qr.1
      let y ← sub t l.y ry
      match qr.2.getLast? with
      | none => extGcdLoop fuel r ⟨qr.2, x, y⟩
      | some c =>
        let v ← divCoeff t ext qr.2 c
        let x ← divCoeff t ext x c
        let y ← divCoeff t ext y c
        extGcdLoop fuel r ⟨v, x, y⟩

/-- `src/polynomial/gcd.rs:213-284` `extended_gcd`. -/
def extendedGcd (l r : List ModInt) : Option ExtState :=
  match l.getLast?, r.getLast? with
  | none, none => some ⟨[], [], []⟩
  | none, some rf => do
    let g ← divCoeff t ext r rf
    let one ← toOneIfNonzero t r
    let y ← divCoeff t ext one rf
    return ⟨g, [], y⟩
  | some lf, rf => do
    let v ← divCoeff t ext l lf
    let one ← toOneIfNonzero t l
    let x ← divCoeff t ext one lf
    match rf with
    | none => return ⟨v, x, []⟩
    | some rf =>
      let rv ← divCoeff t ext r rf
      let one ← toOneIfNonzero t r
      let ry ← divCoeff t ext one rf
      extGcdLoop t ext (r.length + 2) ⟨v, x, []⟩ ⟨rv, [], ry⟩

/-! ### factorization modulo a prime -/

/-- the loop of `src/polynomial/distinct_degree_factorization.rs:32-41`; running out of turns is the `unreachable!`. -/
def ddfLoop (characteristic : ℤ) (x : List ModInt) :
    ℕ → List ModInt → List ModInt → Option (List (List ModInt))
  | 0, _, _ => none
  | k + 1, self, power =>
    if self.length ≤ 1 then some []
    else do
      let d ← sub t power x
      let nextFactor ← gcd t ext d self
      let self ← div t ext self nextFactor
      let power ← powmod t ext power characteristic self
      let rest ← ddfLoop characteristic x k self power
      return nextFactor :: rest

/-- `src/polynomial/distinct_degree_factorization.rs:18-42` `distinct_degree_factorization`; the constant polynomial is
`From<T>` (`src/polynomial.rs:1024-1036`). -/
def ddf (f : List ModInt) : Option (List (List ModInt)) :=
  match f.getLast? with
  | none => some [[]]
  | some c => do
    let one ← oneLike t c
    let x ← makeMonomial t one 1
    let self ← divCoeff t ext f c
    let power ← powmod t ext x c.modulus self
    let rest ← ddfLoop t ext c.modulus x self.length self power
    return normalize [c] :: rest

/-- the random polynomial of `src/polynomial/same_degree_factorization.rs:65-70`; `rng` is the stream of samples, see
`Model/Factor.lean`. -/
def randomPoly (modulus : ℤ) (rng : ℕ → ℕ) (pos d : ℕ) : Option (List ModInt) := do
  let l ← ((List.range (2 * d - 1)).map (fun i => ((rng (pos + i) : ℕ) : ℤ) % modulus) ++ [1]).mapM
    fun v => ModInt.new t v modulus
  return normalize l

/-- one turn of the inner `loop` of `src/polynomial/same_degree_factorization.rs:63-80`: `none` is a panic, `some none`
the next turn. -/
def sdfSplit (one : ModInt) (d : ℕ) (random f : List ModInt) : Option (Option (List ModInt × List ModInt)) := do
  let r ← powmod t ext random ((one.modulus ^ d - 1) / 2) f
  let r ← subCoeff t r one
  let g ← gcd t ext f r
  if 0 < g.length - 1 ∧ g.length < f.length then
    let q ← exactDiv t ext f g
    return some (g, q)
  else return none

/-- the outer loop of `src/polynomial/same_degree_factorization.rs:54-84`, as in `Model/Factor.lean`. -/
def sdfLoop (one : ModInt) (rng : ℕ → ℕ) (d : ℕ) : ℕ → ℕ → List (List ModInt) → List (List ModInt) →
    Except Stop (List (List ModInt) × ℕ)
  | 0, _, _, _ => .error .fuel
  | _ + 1, pos, [], retval => .ok (retval, pos)
  | fuel + 1, pos, f :: stack, retval =>
    if f.length - 1 < d then .error .panic
    else if f.length = d + 1 then sdfLoop one rng d fuel pos stack (retval ++ [f])
    else
      match (do
        let random ← randomPoly t one.modulus rng pos d
        sdfSplit t ext one d random f) with
      | none => .error .panic
      | some none => sdfLoop one rng d fuel (pos + (2 * d - 1)) (f :: stack) retval
      | some (some (g, q)) => sdfLoop one rng d fuel (pos + (2 * d - 1)) (q :: g :: stack) retval

/-- `src/polynomial/same_degree_factorization.rs:30-86` `same_degree_factorization`. -/
def sdf (rng : ℕ → ℕ) (fuel d pos : ℕ) (f : List ModInt) : Except Stop (List (List ModInt) × ℕ) :=
  if d < 1 ∨ f.length ≤ 1 then .error .panic
  else if f.length = d + 1 then .ok ([f], pos)
  else
    match f.getLast? with
    | none => .ok ([], pos)
    | some c =>
      if c.value = 1 then
        match oneLike t c with
        | none => .error .panic
        | some one => sdfLoop t ext one rng d fuel pos [f] []
      else .error .panic

end ModPoly

end Algebraics
