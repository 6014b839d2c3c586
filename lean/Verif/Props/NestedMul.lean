import Verif.Model.NestedMul
import Verif.Props.Poly

/-!
# Property C23 for polynomials whose coefficients are polynomials

The derivative multiplies the coefficients by positive integers. When the coefficients are polynomials this
is done in place and without normalizing; the theorems say that the result is nevertheless the product, in
canonical form, at every depth of nesting.
-/

namespace Algebraics

open PolyCoeff Polynomial

variable {T : Type} [CommRing T] [PolyCoeff T] [DecidableEq T]

omit [DecidableEq T] in
theorem mkc_natCast (n : ℕ) : mkc (T := T) (n : Elem T) 1 = n := by
  induction n with
  | zero => simpa using mkc_zero (T := T) 1
  | succ n ih => rw [Nat.cast_succ, mkc_add, ih, mkc_one, Nat.cast_succ]

/-- One level: if multiplying an element in place by `n` is the multiplication of its ring, and `n` is no
zero divisor there, then multiplying the elements of a polynomial in place gives the polynomial times `n`. -/
theorem nestedMulByUsize_eq (hred : ∀ (es : List (Elem T)) (d : Dv T), reduce (T := T) es d = (es, d))
    (mulElem : Elem T → ℕ → Elem T) (n : ℕ) (hmul : ∀ e, mulElem e n = e * n)
    (hn : ∀ e : Elem T, e ≠ 0 → e * (n : Elem T) ≠ 0) (p : Poly T) :
    p.nestedMulByUsize mulElem n = (p * (n : Poly T)).raw := by
  have hc : (p.nestedMulByUsize mulElem n).Canonical := by
    refine ⟨fun h => ?_, hred _ _⟩
    have h' : p.raw.elements ≠ [] := by
      intro he
      apply h
      simp [Poly.nestedMulByUsize, he]
    have h1 := p.canonical.1 h'
    have h2 : (p.nestedMulByUsize mulElem n).elements.getLast h =
        p.raw.elements.getLast h' * (n : Elem T) := by
      simp only [Poly.nestedMulByUsize]
      rw [List.getLast_map, hmul]
    rw [h2]
    exact hn _ h1
  have h3 : (⟨p.nestedMulByUsize mulElem n, hc⟩ : Poly T) = p * (n : Poly T) := by
    apply Poly.toPoly_injective
    rw [Poly.toPoly_mul, Poly.toPoly_natCast, Poly.toPoly_eq, Poly.toPoly_eq]
    simp only [Poly.nestedMulByUsize, elemPoly, List.map_map]
    have h4 : (p.raw.elements.map ((mkc (T := T) · p.raw.divisor) ∘ (mulElem · n))) =
        (p.raw.elements.map (mkc (T := T) · p.raw.divisor)).map (· * (n : T)) := by
      rw [List.map_map]
      apply List.map_congr_left
      intro e _
      simp only [Function.comp]
      rw [hmul]
      have := mkc_mul (T := T) e (n : Elem T) p.raw.divisor 1
      rw [mul_one] at this
      rw [this, mkc_natCast]
    rw [h4]
    generalize p.raw.elements.map (mkc (T := T) · p.raw.divisor) = l
    induction l with
    | nil => simp
    | cons a l ih =>
      simp only [List.map_cons, listPoly_cons, ih]
      simp only [C_mul, map_natCast]
      ring
  rw [← h3]

/-- C23: multiplying an integer polynomial in place by a positive `usize`, as the derivative of a polynomial
with polynomial coefficients does, gives the product, normalized. -/
theorem C23_nested_multiply (p : Poly ℤ) (n : ℕ) (hn : n ≠ 0) :
    p.nestedMulByUsize (fun e n => e * (n : Elem ℤ)) n = (p * (n : Poly ℤ)).raw := by
  refine nestedMulByUsize_eq (fun _ _ => rfl) _ n (fun _ => rfl) (fun e he => ?_) p
  exact mul_ne_zero (M₀ := ℤ) he (Int.natCast_ne_zero.mpr hn)

/-- C23: the same at the next depth, and at every depth: `T` is any coefficient type without zero divisors
of characteristic zero in which multiplying in place by `n` is already known to be the product; the elements
of `p` are polynomials with coefficients in `T`. -/
theorem C23_nested_multiply_deeper {T : Type} [CommRing T] [PolyCoeff T] [DecidableEq T] [IsDomain T]
    [CharZero T] (mulElem : Poly T → ℕ → Poly T) (n : ℕ) (hn : n ≠ 0)
    (hmul : ∀ e, mulElem e n = e * (n : Poly T)) (p : Poly (Poly T)) :
    p.nestedMulByUsize (T := Poly T) mulElem n = (p * (n : Poly (Poly T))).raw := by
  refine nestedMulByUsize_eq (T := Poly T) (fun _ _ => rfl) mulElem n hmul (fun e he => ?_) p
  refine mul_ne_zero (M₀ := Poly T) he ?_
  intro h0
  have h1 := congrArg Poly.toPoly h0
  rw [Poly.toPoly_natCast, Poly.toPoly_zero] at h1
  exact hn (by exact_mod_cast h1)

/-- The restriction to positive multipliers is needed: in place multiplication by zero leaves zeros behind
that a normalized polynomial does not have. -/
theorem C23_nested_multiply_zero (p : Poly ℤ) (hp : p.raw.elements ≠ []) :
    ¬ (p.nestedMulByUsize (fun e n => e * (n : Elem ℤ)) 0).Canonical := by
  intro h
  refine h.1 (by simpa [Poly.nestedMulByUsize] using hp) ?_
  simp [Poly.nestedMulByUsize]

example : ((Poly.ofCoeffs [1, 2] : Poly ℤ).nestedMulByUsize (fun e n => e * (n : Elem ℤ)) 3).elements = [3, 6] := by
  decide +kernel

end Algebraics
