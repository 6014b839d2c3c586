import Verif.Model.Poly
import Verif.Model.AlgNum

/-!
# Model of the hashing of polynomials, intervals and the data of algebraic numbers

A `Hasher` is a state and a function that takes in one more word; nothing else is known about it.  How a `BigInt`
or a coefficient is fed to it is a parameter.
-/

namespace Algebraics

variable {σ : Type}

/-- `#[derive(Hash)]` on `struct Polynomial`, `src/polynomial.rs:828-832`: the `Vec` with its length first, then the
divisor. `word` feeds a length, `elem` an element, `dv` a divisor. -/
def Poly.hash {T : Type} [CommRing T] [PolyCoeff T] (word : σ → ℕ → σ) (elem : σ → PolyCoeff.Elem T → σ)
    (dv : σ → PolyCoeff.Dv T → σ) (s : σ) (p : Poly T) : σ :=
  dv (p.raw.elements.foldl elem (word s p.raw.elements.length)) p.raw.divisor

/-- `#[derive(Hash)]` on `struct DyadicFractionInterval`, `src/interval_arithmetic.rs:124-129`. -/
def DFI.hash (word : σ → ℕ → σ) (int : σ → ℤ → σ) (s : σ) (a : DFI) : σ :=
  word (int (int s a.lo) a.hi) a.log2Denom

/-- `src/algebraic_numbers.rs:48-57` `Hash for RealAlgebraicNumberData`. -/
def RealAlg.dataHash (word : σ → ℕ → σ) (int : σ → ℤ → σ) (dv : σ → PolyCoeff.Dv ℤ → σ) (elem : σ → PolyCoeff.Elem ℤ → σ)
    (s : σ) (a : RealAlg) : σ :=
  a.interval.hash word int (a.poly.hash word elem dv s)

/-- `src/algebraic_numbers.rs:59-67` `PartialEq for RealAlgebraicNumberData`: the equality of polynomials is derived
(field by field). -/
def RealAlg.dataEq (a b : RealAlg) : Bool := decide (a.poly = b.poly) && a.interval.isSame b.interval

end Algebraics
