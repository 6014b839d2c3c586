import Verif.Model.Poly

/-!
# Model of the iterators of `src/polynomial.rs`

`slice::Iter` and `vec::IntoIter` of the standard library are lists of the elements that have not
been produced yet; `next` takes the head, `next_back` the last one.  Whether a value is borrowed or
owned is not modelled, except for the divisor of `IntoIter`: the code moves it out with the last
element, so it is an `Option`.
-/

namespace Algebraics

open PolyCoeff

variable {T : Type} [CommRing T] [PolyCoeff T]

/-- `slice::Iter::next_back` / `vec::IntoIter::next_back` of the standard library: the last element
and the others. -/
def popBack {α : Type} (l : List α) : Option (α × List α) :=
  match l.reverse with
  | [] => none
  | e :: es => some (e, es.reverse)

/-- `slice::Iter::next` / `vec::IntoIter::next` of the standard library. -/
def popFront {α : Type} : List α → Option (α × List α)
  | [] => none
  | e :: es => some (e, es)

/-- `src/polynomial.rs:1052-1056` `struct Iter`. -/
structure PolyIter (T : Type) [CommRing T] [PolyCoeff T] where
  elements : List (Elem T)
  divisor : Dv T

/-- `src/polynomial.rs:1082-1086` `struct IntoIter`. -/
structure PolyIntoIter (T : Type) [CommRing T] [PolyCoeff T] where
  elements : List (Elem T)
  divisor : Option (Dv T)

namespace PolyIter

/-- `src/polynomial.rs:1060-1065` `Iter::next`: the result and the iterator afterwards. -/
def next (it : PolyIter T) : Option T × PolyIter T :=
  match popFront it.elements with
  | none => (none, it)
  | some (e, es) => (some (mkc e it.divisor), { it with elements := es })

/-- `src/polynomial.rs:1072-1077` `Iter::next_back`. -/
def nextBack (it : PolyIter T) : Option T × PolyIter T :=
  match popBack it.elements with
  | none => (none, it)
  | some (e, es) => (some (mkc e it.divisor), { it with elements := es })

/-- `src/polynomial.rs:1066-1068` `Iter::size_hint`; the lower bound and the upper bound. -/
def sizeHint (it : PolyIter T) : ℕ × Option ℕ := (it.elements.length, some it.elements.length)

end PolyIter

namespace PolyIntoIter

/-- `src/polynomial.rs:1091-1095, 1108-1112`: the divisor for the next coefficient, and the one
that stays behind.  `none`: the `?` returns early; nothing is taken then. -/
def takeDivisor (it : PolyIntoIter T) : Option (Dv T × Option (Dv T)) :=
  if it.elements.length = 1 then
    match it.divisor with
    | none => none
    | some d => some (d, none)
  else
    match it.divisor with
    | none => none
    | some d => some (d, some d)

/-- `src/polynomial.rs:1090-1100` `IntoIter::next`. -/
def next (it : PolyIntoIter T) : Option T × PolyIntoIter T :=
  match it.takeDivisor with
  | none => (none, it)
  | some (d, d') =>
    match popFront it.elements with
    | none => (none, { it with divisor := d' })
    | some (e, es) => (some (mkc e d), ⟨es, d'⟩)

/-- `src/polynomial.rs:1107-1117` `IntoIter::next_back`. -/
def nextBack (it : PolyIntoIter T) : Option T × PolyIntoIter T :=
  match it.takeDivisor with
  | none => (none, it)
  | some (d, d') =>
    match popBack it.elements with
    | none => (none, { it with divisor := d' })
    | some (e, es) => (some (mkc e d), ⟨es, d'⟩)

/-- `src/polynomial.rs:1101-1103` `IntoIter::size_hint`. -/
def sizeHint (it : PolyIntoIter T) : ℕ × Option ℕ := (it.elements.length, some it.elements.length)

end PolyIntoIter

namespace Poly

/-- `src/polynomial.rs:1194-1199` `iter`; `1625-1631` `IntoIterator for &Polynomial`. -/
def iter (p : Poly T) : PolyIter T := ⟨p.raw.elements, p.raw.divisor⟩

/-- `src/polynomial.rs:1122-1131` `IntoIterator for Polynomial`. -/
def intoIter (p : Poly T) : PolyIntoIter T := ⟨p.raw.elements, some p.raw.divisor⟩

/-- `src/polynomial.rs:224-226` `from_iterator`, `834-838` `FromIterator`, with the iterator given
by the coefficients it produces. -/
def fromIterator (cs : List T) : Poly T := normalize (split cs).1 (split cs).2

end Poly

/-- one call of the double-ended iterator: which end it takes from. -/
inductive IterCall where
  | next
  | nextBack
  deriving DecidableEq

/-- a whole history of calls on `iter()`: for each call its result and the size hint afterwards. -/
def PolyIter.run (it : PolyIter T) : List IterCall → List (Option T × ℕ × Option ℕ)
  | [] => []
  | c :: cs =>
    let s := match c with
      | .next => it.next
      | .nextBack => it.nextBack
    (s.1, s.2.sizeHint) :: s.2.run cs

/-- a whole history of calls on `into_iter()`. -/
def PolyIntoIter.run (it : PolyIntoIter T) : List IterCall → List (Option T × ℕ × Option ℕ)
  | [] => []
  | c :: cs =>
    let s := match c with
      | .next => it.next
      | .nextBack => it.nextBack
    (s.1, s.2.sizeHint) :: s.2.run cs

/-- the values that a `for` loop over the iterator sees: `next` until it returns `None`.  The fuel
is an upper bound on the number of calls. -/
def PolyIntoIter.drain (it : PolyIntoIter T) : ℕ → List T
  | 0 => []
  | fuel + 1 =>
    match it.next with
    | (none, _) => []
    | (some c, it') => c :: it'.drain fuel

end Algebraics
