import Verif.Model.AlgNum

/-!
# The Python class `algebraics.RealAlgebraicNumber`: `src/python.rs`

A Python object is an instance of the class, an integer (anything from which a `BigInt` can be extracted),
`None`, or something else. What the interpreter and PyO3 do around the methods is modelled as documented: an operator
first calls the method of the left operand; if the argument cannot be extracted that is `NotImplemented`, and
the reflected method of the right operand is called; a comparison is reflected to the mirrored one; if all
of that fails it is a `TypeError`, except for `==` and `!=`, which then compare identities. Not modelled: the
texts of the messages of the interpreter itself, `__repr__`, and the release of the interpreter lock
(`allow_threads`), which has no effect on values because numbers are shared and never changed.
-/

namespace Algebraics

namespace Python

/-- a Python object -/
inductive PyVal where
  | number (a : RealAlg)
  | int (n : ℤ)
  | pyNone
  | other

/-- why a call delivers no value: an exception, or the Rust code behind it stops -/
inductive Raised where
  | typeError
  | zeroDivisionError (message : String)
  | valueError (message : String)
  | stop (s : Stop)
  deriving DecidableEq

/-- a Rust call whose result goes to Python: a panic is passed on. -/
def run {α : Type} : Except Stop α → Except Raised α
  | .ok v => .ok v
  | .error s => .error (.stop s)

/-- `src/python.rs:48-56` `extract`; `none` is the exception. -/
def extract : PyVal → Option RealAlg
  | .number a => some a
  | .int n => some (RealAlg.ofInt n)
  | .pyNone => none
  | .other => none

/-- `src/python.rs:71-75` the constructor, with an optional argument; PyO3 reads the object `None` as an argument that
is left out. -/
def pynew : Option PyVal → Except Raised RealAlg
  | none => .ok RealAlg.zero
  | some .pyNone => .ok RealAlg.zero
  | some v => match extract v with
    | some a => .ok a
    | none => .error .typeError

/-- `src/python.rs:210-212` -/
def divByZeroError : Raised := .zeroDivisionError "can't divide RealAlgebraicNumber by zero"

/-- `src/python.rs:214-216` -/
def log2Error : Raised :=
  .valueError "can't extract base-2 logarithm of zero or negative RealAlgebraicNumber"

/-! ## Methods without an operand -/

/-- `src/python.rs:76-78` `__trunc__` -/
def trunc (fuel : ℕ) (self : RealAlg) : Except Raised ℤ := run (self.integerTrunc fuel)

/-- `src/python.rs:79-81` `__floor__` -/
def floor (fuel : ℕ) (self : RealAlg) : Except Raised ℤ := run (self.integerFloor fuel)

/-- `src/python.rs:82-84` `__ceil__` -/
def ceil (fuel : ℕ) (self : RealAlg) : Except Raised ℤ := run (self.integerCeil fuel)

/-- `src/python.rs:85-87` `to_integer` -/
def toInteger (self : RealAlg) : Except Raised (Option ℤ) := run self.toInteger

/-- `src/python.rs:88-90` `to_rational`: the pair of numerator and denominator -/
def toRational (self : RealAlg) : Except Raised (Option (ℤ × ℤ)) := run self.toRationalRaw

/-- `src/python.rs:91-94` `minimal_polynomial`: the list of coefficients -/
def minimalPolynomial (self : RealAlg) : List ℤ := self.poly.coeffs

/-- `src/python.rs:95-98` `degree` -/
def degree (self : RealAlg) : Except Raised ℕ := run self.degree

/-- `src/python.rs:99-101` `is_rational` -/
def isRational (self : RealAlg) : Except Raised Bool := run self.isRational

/-- `src/python.rs:102-104` `is_integer` -/
def isInteger (self : RealAlg) : Except Raised Bool := run self.isInteger

/-- `src/python.rs:105-108` `recip` -/
def recip (fuel : ℕ) (self : RealAlg) : Except Raised RealAlg := do
  match ← run (self.checkedRecip fuel) with
  | some r => return r
  | none => .error divByZeroError

/-- `src/python.rs:109-113` `floor_log2` -/
def floorLog2 (fuel : ℕ) (self : RealAlg) : Except Raised ℤ := do
  match ← run (self.checkedFloorLog2 fuel) with
  | some r => return r
  | none => .error log2Error

/-- `src/python.rs:114-118` `ceil_log2` -/
def ceilLog2 (fuel : ℕ) (self : RealAlg) : Except Raised ℤ := do
  match ← run (self.checkedCeilLog2 fuel) with
  | some r => return r
  | none => .error log2Error

/-- `src/python.rs:202-204` `__neg__` -/
def neg (self : RealAlg) : Except Raised RealAlg := run self.neg

/-- `src/python.rs:205-207` `__abs__` -/
def abs (self : RealAlg) : Except Raised RealAlg := run self.abs

/-! ## Arithmetic -/

/-- `src/python.rs:218-231` `try_arithmetic_helper` -/
def tryArithmetic {E : Type} (lhs rhs : RealAlg) (f : RealAlg → RealAlg → Except Stop (Except E RealAlg))
    (mapErr : E → Raised) : Except Raised RealAlg := do
  match ← run (f lhs rhs) with
  | .ok c => return c
  | .error e => .error (mapErr e)

/-- `src/python.rs:233-249` `arithmetic_helper` -/
def arithmetic (lhs rhs : RealAlg) (f : RealAlg → RealAlg → Except Stop RealAlg) : Except Raised RealAlg :=
  tryArithmetic (E := Empty) lhs rhs (fun lhs rhs => do let c ← f lhs rhs; return .ok c) nofun

/-- `src/python.rs:136-138` `__add__` -/
def dunderAdd (F : RealAlg.FactorCall) (fuel : ℕ) (lhs rhs : RealAlg) : Except Raised RealAlg :=
  arithmetic lhs rhs fun lhs rhs => lhs.add F fuel rhs

/-- `src/python.rs:139-141` `__radd__` -/
def dunderRadd (F : RealAlg.FactorCall) (fuel : ℕ) (rhs lhs : RealAlg) : Except Raised RealAlg :=
  dunderAdd F fuel lhs rhs

/-- `src/python.rs:142-144` `__sub__` -/
def dunderSub (F : RealAlg.FactorCall) (fuel : ℕ) (lhs rhs : RealAlg) : Except Raised RealAlg :=
  arithmetic lhs rhs fun lhs rhs => lhs.sub F fuel rhs

/-- `src/python.rs:145-147` `__rsub__` -/
def dunderRsub (F : RealAlg.FactorCall) (fuel : ℕ) (rhs lhs : RealAlg) : Except Raised RealAlg :=
  dunderSub F fuel lhs rhs

/-- `src/python.rs:148-150` `__mul__` -/
def dunderMul (F : RealAlg.FactorCall) (fuel : ℕ) (lhs rhs : RealAlg) : Except Raised RealAlg :=
  arithmetic lhs rhs fun lhs rhs => lhs.mul F fuel rhs

/-- `src/python.rs:151-153` `__rmul__` -/
def dunderRmul (F : RealAlg.FactorCall) (fuel : ℕ) (rhs lhs : RealAlg) : Except Raised RealAlg :=
  dunderMul F fuel lhs rhs

/-- `src/python.rs:154-162` `__truediv__` -/
def dunderTruediv (F : RealAlg.FactorCall) (fuel : ℕ) (lhs rhs : RealAlg) : Except Raised RealAlg :=
  tryArithmetic (E := Unit) lhs rhs
    (fun lhs rhs => do
      match ← lhs.checkedExactDiv F fuel rhs with
      | some c => return .ok c
      | none => return .error ())
    fun _ => divByZeroError

/-- `src/python.rs:163-165` `__rtruediv__` -/
def dunderRtruediv (F : RealAlg.FactorCall) (fuel : ℕ) (rhs lhs : RealAlg) : Except Raised RealAlg :=
  dunderTruediv F fuel lhs rhs

/-- `src/python.rs:166-191` `__pow__`; `hasModulus` says that the third argument is not `None`. -/
def dunderPow (ln2 : ℕ → ℕ → DFI) (F : RealAlg.FactorCall) (fuel : ℕ) (hasModulus : Bool) (lhs rhs : RealAlg) :
    Except Raised RealAlg :=
  if hasModulus then .error .typeError
  else tryArithmetic (E := String) lhs rhs
    (fun lhs rhs => do
      match ← rhs.toRational with
      | some e =>
        match ← lhs.checkedPow ln2 F fuel e with
        | some c => return .ok c
        | none => return .error "pow() failed for RealAlgebraicNumber"
      | none => return .error "exponent must be rational for RealAlgebraicNumber")
    .valueError

/-- `src/python.rs:192-199` `__rpow__` -/
def dunderRpow (ln2 : ℕ → ℕ → DFI) (F : RealAlg.FactorCall) (fuel : ℕ) (hasModulus : Bool) (rhs lhs : RealAlg) :
    Except Raised RealAlg :=
  dunderPow ln2 F fuel hasModulus lhs rhs

/-- what the interpreter makes of an operator with a method and a reflected method; see the head of the
file. The first argument of both is `self`. -/
def operator (method reflected : RealAlg → RealAlg → Except Raised RealAlg) (v w : PyVal) :
    Except Raised RealAlg :=
  match v with
  | .number a => match extract w with
    | some b => method a b
    | none => .error .typeError
  | _ => match w with
    | .number b => match extract v with
      | some a => reflected b a
      | none => .error .typeError
    | _ => .error .typeError

/-- `v + w` -/
def add (F : RealAlg.FactorCall) (fuel : ℕ) : PyVal → PyVal → Except Raised RealAlg :=
  operator (dunderAdd F fuel) (dunderRadd F fuel)

/-- `v - w` -/
def sub (F : RealAlg.FactorCall) (fuel : ℕ) : PyVal → PyVal → Except Raised RealAlg :=
  operator (dunderSub F fuel) (dunderRsub F fuel)

/-- `v * w` -/
def mul (F : RealAlg.FactorCall) (fuel : ℕ) : PyVal → PyVal → Except Raised RealAlg :=
  operator (dunderMul F fuel) (dunderRmul F fuel)

/-- `v / w` -/
def truediv (F : RealAlg.FactorCall) (fuel : ℕ) : PyVal → PyVal → Except Raised RealAlg :=
  operator (dunderTruediv F fuel) (dunderRtruediv F fuel)

/-- `pow(v, w)`, `v ** w`, or `pow(v, w, m)` -/
def pow (ln2 : ℕ → ℕ → DFI) (F : RealAlg.FactorCall) (fuel : ℕ) (hasModulus : Bool) :
    PyVal → PyVal → Except Raised RealAlg :=
  operator (dunderPow ln2 F fuel hasModulus) (dunderRpow ln2 F fuel hasModulus)

/-! ## Comparison -/

/-- `pyo3::basic::CompareOp` -/
inductive CompareOp where
  | lt | le | eq | ne | gt | ge
  deriving DecidableEq

/-- the comparison that the interpreter asks the right operand for -/
def CompareOp.mirror : CompareOp → CompareOp
  | .lt => .gt
  | .le => .ge
  | .eq => .eq
  | .ne => .ne
  | .gt => .lt
  | .ge => .le

/-- `src/python.rs:124-133` `__richcmp__`; `<`, `<=`, `>`, `>=` are the provided methods of `PartialOrd`,
`!=` that of `PartialEq`. -/
def richcmp (F : RealAlg.FactorCall) (fuel : ℕ) (op : CompareOp) (self other : RealAlg) :
    Except Raised Bool :=
  match op with
  | .lt => do let o ← run (self.cmp F fuel other); return decide (o = .lt)
  | .le => do let o ← run (self.cmp F fuel other); return decide (o = .lt ∨ o = .eq)
  | .eq => run (self.eq F fuel other)
  | .ne => do let e ← run (self.eq F fuel other); return !e
  | .gt => do let o ← run (self.cmp F fuel other); return decide (o = .gt)
  | .ge => do let o ← run (self.cmp F fuel other); return decide (o = .gt ∨ o = .eq)

/-- what is left when both operands decline: `==` and `!=` compare identities (the operands are objects of
different types), the others raise. -/
def declined : CompareOp → Except Raised Bool
  | .eq => .ok false
  | .ne => .ok true
  | _ => .error .typeError

/-- `v op w`, at least one of them an instance of the class -/
def compare (F : RealAlg.FactorCall) (fuel : ℕ) (op : CompareOp) (v w : PyVal) : Except Raised Bool :=
  match v with
  | .number a => match extract w with
    | some b => richcmp F fuel op a b
    | none => declined op
  | _ => match w with
    | .number b => match extract v with
      | some a => richcmp F fuel op.mirror b a
      | none => declined op
    | _ => declined op

end Python

end Algebraics
