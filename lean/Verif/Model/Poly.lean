import Verif.Model.PolyCoeff
import Verif.Model.Traits
import Mathlib.Algebra.Field.ZMod

/-!
# Model of `src/polynomial.rs` and `src/polynomial/{add_sub,mul,div_rem}.rs`

`Polynomial<T>` is `Poly T`: a list of elements (constant term first) and a divisor, together with
a proof of the canonical-form invariant.  Every operation of the code ends either in `normalize`
or in `Polynomial::from(Vec<T>)`; the model's smart constructors `Poly.normalize` and
`Poly.ofCoeffs` perform exactly these steps and carry the proof that the result is canonical, so
no operation can return a non-canonical value by fiat.  A panic is `none`.
-/

namespace Algebraics

open PolyCoeff

/-- `src/polynomial.rs:829-832` fields of `struct Polynomial`. -/
structure RawPoly (T : Type) [CommRing T] [PolyCoeff T] where
  elements : List (Elem T)
  divisor : Dv T

instance {T : Type} [CommRing T] [PolyCoeff T] : DecidableEq (RawPoly T) := fun a b =>
  decidable_of_iff (a.elements = b.elements ∧ a.divisor = b.divisor) (by
    cases a; cases b; simp)

/-- The canonical form: the last element is nonzero and the common divisor is reduced. -/
def RawPoly.Canonical {T : Type} [CommRing T] [PolyCoeff T] (p : RawPoly T) : Prop :=
  (∀ h : p.elements ≠ [], p.elements.getLast h ≠ 0) ∧
    reduce p.elements p.divisor = (p.elements, p.divisor)

/-- `src/polynomial.rs:829-832` `struct Polynomial` with its invariant. -/
structure Poly (T : Type) [CommRing T] [PolyCoeff T] where
  raw : RawPoly T
  canonical : raw.Canonical

instance {T : Type} [CommRing T] [PolyCoeff T] : DecidableEq (Poly T) :=
  fun a b => decidable_of_iff (a.raw = b.raw) (by cases a; cases b; simp)

/-- the `while let Some(last)` loops of `src/polynomial.rs:851-868, 1209-1214`: drop trailing
zeros. -/
def stripZeros {R : Type} [Zero R] [DecidableEq R] (l : List R) : List R :=
  l.rdropWhile (fun e => decide (e = 0))

theorem stripZeros_last {R : Type} [Zero R] [DecidableEq R] (l : List R)
    (h : stripZeros l ≠ []) : (stripZeros l).getLast h ≠ 0 := by
  have := List.rdropWhile_last_not (p := fun e => decide (e = 0)) l h
  simpa [stripZeros] using this

variable {T : Type} [CommRing T] [PolyCoeff T]

theorem mkc_zero (d : Dv T) : mkc (T := T) 0 d = 0 := (mkc_eq_zero 0 d).mpr rfl

theorem reduce_length (es : List (Elem T)) (d : Dv T) :
    (reduce (T := T) es d).1.length = es.length := by
  simpa using congrArg List.length (reduce_val (T := T) es d)

theorem reduce_last (es : List (Elem T)) (d : Dv T)
    (h : (reduce (T := T) es d).1 ≠ []) (h' : es ≠ []) :
    (reduce (T := T) es d).1.getLast h ≠ 0 ↔ es.getLast h' ≠ 0 := by
  have hv := reduce_val (T := T) es d
  have hlast := congrArg List.getLast? hv
  rw [List.getLast?_map, List.getLast?_map, List.getLast?_eq_getLast_of_ne_nil h,
    List.getLast?_eq_getLast_of_ne_nil h'] at hlast
  simp only [Option.map_some, Option.some.injEq] at hlast
  rw [not_iff_not, ← mkc_eq_zero (T := T) _ (reduce es d).2, hlast, mkc_eq_zero]

theorem reduce_idem (es : List (Elem T)) (d : Dv T) :
    reduce (T := T) (reduce (T := T) es d).1 (reduce (T := T) es d).2 = reduce (T := T) es d :=
  reduce_congr _ _ _ _ (reduce_val es d)

namespace Poly

/-- the coefficient vector: `src/polynomial.rs:1183-1189` `into_coefficients`, and what
`iter`/`into_iter` produce (`1052-1131, 1193-1198`). -/
def coeffs (p : Poly T) : List T := p.raw.elements.map (mkc · p.raw.divisor)

/-- `src/polynomial.rs:1199-1201` `len`. -/
def len (p : Poly T) : Nat := p.raw.elements.length

theorem reduce_strip_canonical (es : List (Elem T)) (d : Dv T) :
    RawPoly.Canonical (T := T)
      ⟨(reduce (T := T) (stripZeros es) d).1, (reduce (T := T) (stripZeros es) d).2⟩ := by
  refine ⟨fun h => ?_, reduce_idem _ _⟩
  have h' : stripZeros es ≠ [] := by
    intro hc
    apply h
    apply List.eq_nil_of_length_eq_zero
    show (reduce (T := T) (stripZeros es) d).1.length = 0
    rw [reduce_length, hc]; rfl
  exact (reduce_last _ _ h h').mpr (stripZeros_last _ _)

/-- `src/polynomial.rs:1208-1220` `normalize`/`into_normalized` applied to raw fields
(`1133-1137` `From<(Vec<Element>, Divisor)>`). -/
def normalize (es : List (Elem T)) (d : Dv T) : Poly T :=
  ⟨⟨(reduce (T := T) (stripZeros es) d).1, (reduce (T := T) (stripZeros es) d).2⟩,
    reduce_strip_canonical es d⟩

variable [DecidableEq T]

omit [DecidableEq T] in
theorem monomial_canonical (c : T) (h : c ≠ 0) (n : Nat) :
    RawPoly.Canonical ⟨List.replicate n 0 ++ [(toElem c).1], (toElem c).2⟩ := by
  refine ⟨fun _ => ?_, toElem_reduced c n⟩
  simp only [List.getLast_append_singleton]
  intro hz
  apply h
  have := toElem_val c
  rw [← this, hz, mkc_zero]

theorem split_strip_canonical (cs : List T) :
    RawPoly.Canonical ⟨(split (stripZeros cs)).1, (split (stripZeros cs)).2⟩ := by
  refine ⟨fun h => ?_, split_reduced _⟩
  have hv := split_val (stripZeros cs)
  have h' : stripZeros cs ≠ [] := by
    intro hc
    apply h
    apply List.eq_nil_of_length_eq_zero
    have := congrArg List.length hv
    rw [List.length_map, hc] at this
    rw [hc]; exact this
  have hlast := congrArg List.getLast? hv
  rw [List.getLast?_map, List.getLast?_eq_getLast_of_ne_nil h,
    List.getLast?_eq_getLast_of_ne_nil h'] at hlast
  simp only [Option.map_some, Option.some.injEq] at hlast
  intro hz
  have := stripZeros_last _ h'
  rw [← hlast] at this
  exact this ((mkc_eq_zero _ _).mpr hz)

/-- `src/polynomial.rs:849-872` `From<Cow<[T]>>` (and `From<Vec<T>>`, arrays, `FromIterator`):
strip trailing zero coefficients, then `coefficients_to_elements`. -/
def ofCoeffs (cs : List T) : Poly T :=
  ⟨⟨(split (stripZeros cs)).1, (split (stripZeros cs)).2⟩, split_strip_canonical cs⟩

/-- `src/polynomial.rs:840-847` `Default`, `Zero::zero`. -/
instance : Zero (Poly T) := ⟨ofCoeffs []⟩

/-- `src/polynomial/mul.rs:158-184` `One::one`, `src/polynomial.rs:1506-1512` `to_one_if_nonzero`.
The code stores `[1]` with divisor 1 directly; going through `ofCoeffs` gives the same fields
unless `1 = 0` in the coefficient ring. -/
instance : One (Poly T) := ⟨ofCoeffs [1]⟩

/-- `is_zero`/`is_empty`: `src/polynomial.rs:1202-1204`. -/
def isZero (p : Poly T) : Bool := p.raw.elements.isEmpty

/-- `src/polynomial.rs:1205-1207` `degree`. -/
def degree (p : Poly T) : Option Nat := if p.len = 0 then none else some (p.len - 1)

/-- `src/polynomial.rs:1157-1162` `nonzero_coefficient`. -/
def nonzeroCoefficient (p : Poly T) (i : Nat) : Option T :=
  (p.raw.elements[i]?).map (mkc · p.raw.divisor)

/-- `src/polynomial.rs:1163-1168` `coefficient`. -/
def coefficient (p : Poly T) (i : Nat) : T := (p.nonzeroCoefficient i).getD 0

/-- `src/polynomial.rs:1169-1175` `nonzero_highest_power_coefficient`. -/
def nonzeroHighestPowerCoefficient (p : Poly T) : Option T :=
  if p.len = 0 then none else p.nonzeroCoefficient (p.len - 1)

/-- `src/polynomial.rs:1176-1182` `highest_power_coefficient`. -/
def highestPowerCoefficient (p : Poly T) : T := p.nonzeroHighestPowerCoefficient.getD 0

/-- `src/polynomial.rs:1146-1156` `make_monomial`. -/
def makeMonomial (c : T) (n : Nat) : Poly T :=
  if h : c = 0 then 0
  else
    ⟨⟨List.replicate n 0 ++ [(toElem c).1], (toElem c).2⟩, monomial_canonical c h n⟩

/-! ### `src/polynomial/add_sub.rs` -/

/-- the element loop of `src/polynomial/add_sub.rs:35-44`, after padding `lhs` with zeros. -/
def addSubElems (f : Elem T → Elem T → Elem T) (lm rm : Elem T) :
    List (Elem T) → List (Elem T) → List (Elem T)
  | [], bs => bs.map (fun b => f (0 * lm) (b * rm))
  | a :: as, [] => a * lm :: addSubElems f lm rm as []
  | a :: as, b :: bs => f (a * lm) (b * rm) :: addSubElems f lm rm as bs

/-- `src/polynomial/add_sub.rs:16-46` `add_sub_assign`. -/
def addSub (f : Elem T → Elem T → Elem T) (l r : Poly T) : Poly T :=
  if l.isZero && r.isZero then l
  else
    let gl := gcdLcm (T := T) l.raw.divisor r.raw.divisor
    let lm := d2e (T := T) (dvDiv (T := T) r.raw.divisor gl.1)
    let rm := d2e (T := T) (dvDiv (T := T) l.raw.divisor gl.1)
    normalize (addSubElems f lm rm l.raw.elements r.raw.elements) gl.2

instance : Add (Poly T) := ⟨addSub (· + ·)⟩
instance : Sub (Poly T) := ⟨addSub (· - ·)⟩

/-- `src/polynomial/add_sub.rs:48-74` `add_sub_assign_single` (`Polynomial + T`). -/
def addSubSingle (f : Elem T → Elem T → Elem T) (l : Poly T) (r : T) : Poly T :=
  let ne := toElem r
  let gl := gcdLcm (T := T) l.raw.divisor ne.2
  let lm := d2e (T := T) (l.raw.divisor * gl.1)
  let rm := d2e (T := T) (gl.1 * ne.2)
  match l.raw.elements with
  | [] => normalize [f (0 * lm) (ne.1 * rm)] gl.2
  | a :: as => normalize (f (a * lm) (ne.1 * rm) :: as) gl.2

/-- `Polynomial + T`: `src/polynomial/add_sub.rs:88-102, 137-169`. -/
def addCoeff (l : Poly T) (r : T) : Poly T := addSubSingle (· + ·) l r

/-- `Polynomial - T`: `src/polynomial/add_sub.rs:202-216, 252-284`. -/
def subCoeff (l : Poly T) (r : T) : Poly T := addSubSingle (· - ·) l r

/-- `src/polynomial/add_sub.rs:292-304` `Neg`. -/
instance : Neg (Poly T) := ⟨fun p => ofCoeffs (p.coeffs.map (- ·))⟩

/-! ### `src/polynomial/mul.rs` -/

/-- body of the inner loop `src/polynomial/mul.rs:24-31`: push or add at `index`. -/
def mulStep (acc : List (Elem T)) (index : Nat) (v : Elem T) : List (Elem T) :=
  if index = acc.length then acc ++ [v]
  else acc.set index (acc.getD index 0 + v)

/-- inner loop `for r_index in 0..rhs.len()`, `src/polynomial/mul.rs:22-32`. -/
def mulRow (a : Elem T) : Nat → List (Elem T) → List (Elem T) → List (Elem T)
  | _, [], acc => acc
  | i, b :: bs, acc => mulRow a (i + 1) bs (mulStep acc i (a * b))

/-- outer loop `for l_index in 0..self.len()`, `src/polynomial/mul.rs:21-33`. -/
def mulRows (r : List (Elem T)) : Nat → List (Elem T) → List (Elem T) → List (Elem T)
  | _, [], acc => acc
  | i, a :: as, acc => mulRows r (i + 1) as (mulRow a i r acc)

/-- `src/polynomial/mul.rs:12-36` `Mul`. -/
def mul (l r : Poly T) : Poly T :=
  if l.isZero || r.isZero then 0
  else normalize (mulRows r.raw.elements 0 l.raw.elements []) (l.raw.divisor * r.raw.divisor)

instance : Mul (Poly T) := ⟨mul⟩

/-- `src/polynomial/mul.rs:77-109` `mul_single`/`mul_assign_single`. -/
def mulCoeff (l : Poly T) (r : T) : Poly T :=
  let ne := toElem r
  normalize (l.raw.elements.map (· * ne.1)) (l.raw.divisor * ne.2)

/-- `src/polynomial.rs:1506-1512` `to_one_if_nonzero`. -/
def toOneIfNonzero (p : Poly T) : Option (Poly T) := if p.isZero then none else some 1

/-- the body `if exponent.is_odd() { … }` of the loop below: the running result is absent until the
first odd digit. -/
def powStep {α : Type} (mulOp : α → α → Option α) (odd : Bool) (base : α) (r : Option α) :
    Option (Option α) :=
  if odd then
    match r with
    | none => some (some base)
    | some v => (mulOp v base).map some
  else some r

/-- the square-and-multiply loop shared by `src/polynomial/mul.rs:199-212`,
`src/polynomial.rs:164-223` (`*_pow_usize`), `src/polynomial/div_rem.rs:487-502` and
`src/mod_int.rs`; `mulOp` may fail, `fuel` bounds the number of halvings. -/
def powLoop {α : Type} (mulOp : α → α → Option α) : Nat → α → Nat → Option α → Option (Option α)
  | 0, _, _, r => some r
  | fuel + 1, base, e, r =>
    match powStep mulOp (e % 2 == 1) base r with
    | none => none
    | some r =>
      if e / 2 = 0 then some r
      else
        match mulOp base base with
        | none => none
        | some base => powLoop mulOp fuel base (e / 2) r

/-- `src/polynomial/mul.rs:187-214` `checked_pow`. -/
def checkedPow (p : Poly T) (e : Int) : Option (Poly T) :=
  if e < 0 then none
  else if e = 0 then p.toOneIfNonzero
  else if e = 1 then some p
  else
    match powLoop (fun a b => some (a * b)) (e.toNat + 1) p e.toNat none with
    | some (some r) => some r
    | _ => none

/-! ### `src/polynomial/div_rem.rs` -/

/-- `src/polynomial/div_rem.rs:20-27`. -/
def quotientLen (n d : Nat) : Option Nat := if n < d then none else some (1 + n - d)

/-- the loop of `src/polynomial/div_rem.rs:50-55` over `denominator_index`, at index 0. -/
def subRow (qc : Elem T) : List (Elem T) → List (Elem T) → List (Elem T)
  | d :: ds, r :: rs => (r - qc * d) :: subRow qc ds rs
  | _, rs => rs

/-- the same at offset `quotient_index`. -/
def subAt (qc : Elem T) (ds : List (Elem T)) : Nat → List (Elem T) → List (Elem T)
  | 0, rs => subRow qc ds rs
  | k + 1, r :: rs => r :: subAt qc ds k rs
  | _ + 1, [] => []

/-- the main loop `src/polynomial/div_rem.rs:44-57`; the first argument is one more than the
current `quotient_index`; the last argument accumulates the quotient (already reversed). -/
def pdrLoop (dl : Elem T) (den : List (Elem T)) :
    Nat → List (Elem T) → List (Elem T) → List (Elem T) × List (Elem T)
  | 0, rem, q => (q, rem)
  | k + 1, rem, q =>
    let qc := rem.getLastD 0
    let rem := rem.dropLast.map (· * dl)
    pdrLoop dl den k (subAt qc den.dropLast k rem) (qc :: q)

/-- `src/polynomial/div_rem.rs:60-64`: scale `quotient[i]` by `dl^i` for `i ≥ 1`; returns the final
`factor`. -/
def scaleTail (dl : Elem T) : Elem T → List (Elem T) → List (Elem T) × Elem T
  | f, [] => ([], f)
  | f, q :: qs =>
    let r := scaleTail dl (f * dl) qs
    (q * f :: r.1, r.2)

/-- `src/polynomial/div_rem.rs:36-70` `element_pseudo_div_rem`: (quotient, remainder, factor). -/
def elementPseudoDivRem (num den : List (Elem T)) (ql : Nat) :
    List (Elem T) × List (Elem T) × Elem T :=
  let dl := den.getLastD 0
  let qr := pdrLoop dl den ql num []
  match qr.1 with
  | [] => ([], qr.2, dl)
  | q0 :: qs =>
    let s := scaleTail dl dl qs
    (q0 :: s.1, qr.2, s.2)

/-- `src/polynomial.rs:815-819` `struct PseudoDivRem`. -/
structure PseudoDivRem (T : Type) [CommRing T] [PolyCoeff T] where
  quotient : Poly T
  remainder : Poly T
  factor : T

/-- `src/polynomial/div_rem.rs:73-113` `checked_pseudo_div_rem`; `pseudo_div_rem` (114-117) panics
exactly when this is `none`. `divisor_pow_usize` is the monoid power. -/
def pseudoDivRem (p q : Poly T) : Option (PseudoDivRem T) :=
  if q.isZero then none
  else
    match quotientLen p.len q.len with
    | none => some ⟨0, p, 1⟩
    | some ql =>
      let r := elementPseudoDivRem p.raw.elements q.raw.elements ql
      let dpow1 := q.raw.divisor ^ (ql - 1)
      let dpow := dpow1 * q.raw.divisor
      some ⟨normalize r.1 (dpow1 * p.raw.divisor), normalize r.2.1 (dpow * p.raw.divisor),
        mkc r.2.2 dpow⟩

/-- `src/polynomial/div_rem.rs:118-138` `exact_pseudo_div` and `checked_exact_pseudo_div`. -/
def exactPseudoDiv (p q : Poly T) : Option (Poly T × T) :=
  match p.pseudoDivRem q with
  | none => none
  | some r => if r.remainder.isZero then some (r.quotient, r.factor) else none

end Poly

/-- `src/traits.rs:543-551` trait `ExactDiv` on a coefficient type: `none` stands for the panic of
`exact_div` and the `None` of `checked_exact_div`.  Soundness is proved for every instance. -/
class ExactDivCoeff (T : Type) [CommRing T] where
  exactDiv : T → T → Option T
  exactDiv_sound : ∀ a b q, exactDiv a b = some q → q * b = a

namespace Poly

variable [ExactDivCoeff T] [DecidableEq T]

open ExactDivCoeff

/-- `src/polynomial/div_rem.rs:294-343` `div_single`, `checked_div_single`. -/
def divCoeff (p : Poly T) (c : T) : Option (Poly T) :=
  (p.coeffs.mapM (fun a => exactDiv a c)).map ofCoeffs

/-- `src/polynomial/div_rem.rs:141-161` `checked_div_rem`, `div_rem`. -/
def divRem (p q : Poly T) : Option (Poly T × Poly T) :=
  match p.pseudoDivRem q with
  | none => none
  | some r =>
    match r.quotient.divCoeff r.factor, r.remainder.divCoeff r.factor with
    | some a, some b => some (a, b)
    | _, _ => none

/-- `src/polynomial/div_rem.rs:163-170, 183-191, 222-230` `Div`/`checked_div` of polynomials over a field. -/
def div (p q : Poly T) : Option (Poly T) :=
  match p.pseudoDivRem q with
  | none => none
  | some r => r.quotient.divCoeff r.factor

/-- `src/polynomial/div_rem.rs:172-179, 193-201, 232-240` `Rem`/`checked_rem` over a field. -/
def rem (p q : Poly T) : Option (Poly T) :=
  match p.pseudoDivRem q with
  | none => none
  | some r => r.remainder.divCoeff r.factor

/-- `src/polynomial/div_rem.rs:203-214, 242-254` `ExactDiv` of polynomials. -/
def exactDivPoly (p q : Poly T) : Option (Poly T) :=
  match p.exactPseudoDiv q with
  | none => none
  | some r => r.1.divCoeff r.2

/-- `src/polynomial/div_rem.rs:472-503` `checked_powmod`. -/
def powmod (p : Poly T) (e : Int) (m : Poly T) : Option (Poly T) :=
  if e < 0 then none
  else if e = 0 then p.toOneIfNonzero
  else
    match p.rem m with
    | none => none
    | some base =>
      if e = 1 then some base
      else
        match powLoop (fun a b => (a * b).rem m) (e.toNat + 1) base e.toNat none with
        | some (some r) => some r
        | _ => none

/-! ### further functions of `src/polynomial.rs` -/

/-- the element loop of `src/polynomial.rs:1417-1447`: multiply by `index + 1`. -/
def derivElems : Nat → List (Elem T) → List (Elem T)
  | _, [] => []
  | i, e :: es => e * (((i + 1 : Nat)) : Elem T) :: derivElems (i + 1) es

/-- `src/polynomial.rs:1417-1447` `derivative`, `into_derivative`. -/
def derivative (p : Poly T) : Poly T :=
  match p.raw.elements with
  | [] => p
  | _ :: es => normalize (derivElems 0 es) p.raw.divisor

/-- `src/polynomial.rs:1448-1476` `eval_helper`/`eval_generic`: `V` is any type with the two
operations `V * V` and `V + T` that the code uses. -/
def evalGeneric {V : Type} (mulV : V → V → V) (addT : V → T → V) (p : Poly T) (pt : V) (zero : V) :
    V :=
  p.coeffs.reverse.foldl (fun acc c => addT (mulV acc pt) c) zero

/-- `src/polynomial.rs:1477-1488` `eval`. -/
def eval (p : Poly T) (pt : T) : T := evalGeneric (· * ·) (· + ·) p pt 0

/-- `src/polynomial.rs:1513-1526` `nonzero_max_norm`/`max_norm`; `abs` is `coefficient_abs`. -/
def maxNorm [LinearOrder T] (p : Poly T) : T :=
  match (p.coeffs.map (fun c => |c|)) with
  | [] => 0
  | a :: as => as.foldl max a

/-- `src/polynomial.rs:1527-1543` `nonzero_manhattan_norm`/`manhattan_norm`. -/
def manhattanNorm [LinearOrder T] (p : Poly T) : T :=
  match p.coeffs.foldl (fun sum c => match sum with
    | none => some |c|
    | some s => some (s + |c|)) none with
  | none => 0
  | some s => s

/-- `src/polynomial.rs:1279-1293` `monic_assign`/`into_monic`. -/
def monic (p : Poly T) : Option (Poly T) :=
  match p.nonzeroHighestPowerCoefficient with
  | none => some p
  | some v => p.divCoeff v

/-- the `GCD` implementation of the integers: `src/traits.rs:78-94` (num-integer's gcd, which is
never negative). -/
def intGcd (a b : ℤ) : ℤ := (Int.gcd a b : ℤ)

/-- `src/polynomial.rs:1225-1244` `nonzero_content`; `gcd` is the `GCD` implementation of `T`. -/
def nonzeroContent [LinearOrder T] (gcd : T → T → T) (p : Poly T) : Option T :=
  match p.coeffs with
  | [] => none
  | a :: as =>
    let retval := as.foldl gcd a
    let c := p.highestPowerCoefficient
    if decide (c < 0) != decide (retval < 0) then some (0 - retval) else some retval

/-- `src/polynomial.rs:1245-1251` `content`. -/
def content [LinearOrder T] (gcd : T → T → T) (p : Poly T) : T := (p.nonzeroContent gcd).getD 0

/-- `src/polynomial.rs:1252-1278` `primitive_part_assign` etc. -/
def primitivePart [LinearOrder T] (gcd : T → T → T) (p : Poly T) : Option (Poly T) :=
  match p.nonzeroContent gcd with
  | none => some p
  | some c => p.divCoeff c

end Poly

/-- coefficients of type `ModularInteger` with a fixed modulus `n`: the element is the coefficient
itself (`src/mod_int.rs:1137-1239`). The arithmetic of `ModularInteger` itself is modelled in
`Verif.Model.ModInt`; `ZMod n` is the ring that model is proved to implement. -/
instance (n : ℕ) : PolyCoeff (ZMod n) := PolyCoeff.selfCoeff (ZMod n)

/-- `src/mod_int.rs:1001-1130` `checked_inverse`, `ExactDiv` for `ModularInteger`: the divisor must
be nonzero and coprime to the modulus. That `checked_inverse` computes this inverse is proved for the
model of the modular integers (`C32`). -/
instance (n : ℕ) : ExactDivCoeff (ZMod n) where
  exactDiv a b := if b = 0 then none else if Nat.gcd b.val n = 1 then some (a * b⁻¹) else none
  exactDiv_sound a b q h := by
    split_ifs at h with h1 h2
    cases h
    rw [mul_assoc, mul_comm b⁻¹, ZMod.mul_inv_eq_gcd, h2, Nat.cast_one, mul_one]

end Algebraics
