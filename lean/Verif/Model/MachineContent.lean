import Verif.Model.MachinePoly
import Verif.Model.OpForms

/-!
# Model of content, primitive part and norms of polynomials over machine integers

`Polynomial<i8>`, ..., `<i128>`, `<isize>`, as in `Model/MachinePoly.lean`.

The greatest common divisor is num-integer's `Integer::gcd` (not in /repo).  It works on the absolute values and ends
in a call of `abs`, so that it is the exact greatest common divisor, treated as the result of any other operator when
it does not fit.  (It does not fit only when it is `2^(w-1)`.)  This is an assumption.
-/

namespace Algebraics

namespace MachinePoly

variable (w : ℕ) (m : Overflow)

/-- num-integer's `Integer::gcd` for signed machine integers (see above), called at `src/traits.rs:82-84`. -/
def gcd (a b : ℤ) : Option ℤ := m.fit w (Int.gcd a b)

/-- `src/polynomial.rs:1225-1244` `nonzero_content`, and `src/polynomial.rs:659-676`
`get_nonzero_reducing_factor`: the outer `none` is a panic, the inner one the result `None`. -/
def nonzeroContent (p : List ℤ) : Option (Option ℤ) :=
  match p with
  | [] => some none
  | a :: as => do
    let retval ← as.foldlM (gcd w m) a
    let c := p.getLastD 0
    if (c < 0) ≠ (retval < 0) then
      let r ← m.fit w (0 - retval)
      return some r
    else return some retval

/-- `src/polynomial.rs:1245-1251` `content`, and `src/polynomial.rs:1301-1308` `reducing_factor`. -/
def content (p : List ℤ) : Option ℤ := do
  let c ← nonzeroContent w m p
  return c.getD 0

/-- `src/polynomial.rs:1252-1278` `primitive_part`, `src/polynomial.rs:1309-1330` `reduce`: every coefficient is
divided (`src/polynomial/div_rem.rs:294-321`, `src/traits.rs:657-661`).  Left out: the debug assertion that the highest
coefficient is not negative then, which C84 proves. -/
def primitivePart (p : List ℤ) : Option (List ℤ) := do
  let c ← nonzeroContent w m p
  match c with
  | none => return p
  | some c =>
    let q ← p.mapM fun e => exactDivPrim (.signed w) e c
    return normalize q

/-- `src/polynomial.rs:680-684` `coefficient_abs`: `abs` of a machine integer overflows like an operator. -/
def abs (c : ℤ) : Option ℤ := m.fit w |c|

/-- `src/polynomial.rs:1514-1526` `nonzero_max_norm`, `max_norm`. -/
def maxNorm (p : List ℤ) : Option ℤ := do
  let l ← p.mapM (abs w m)
  match l with
  | [] => return 0
  | a :: as => return as.foldl max a

/-- `src/polynomial.rs:1527-1543` `nonzero_manhattan_norm`, `manhattan_norm`. -/
def manhattanNorm (p : List ℤ) : Option ℤ :=
  match p with
  | [] => some 0
  | a :: as => do
    let s ← abs w m a
    as.foldlM (fun sum c => do
      let v ← abs w m c
      m.fit w (sum + v)) s

end MachinePoly

end Algebraics
