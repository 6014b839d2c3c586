import Verif.Model.Convert
import Verif.Lemmas.PolyMore

/-!
# C66: conversions of polynomials
-/

namespace Algebraics

open Polynomial PolyCoeff

section
variable {T : Type} [CommRing T] [PolyCoeff T] [DecidableEq T]

/-- C66: the polynomial made from a coefficient is the constant. -/
theorem C66_from_coefficient (c : T) : (Poly.ofConst c).toPoly = C c := by
  unfold Poly.ofConst
  by_cases h : (toElem c).1 = 0
  · rw [dif_pos h, Poly.toPoly_zero]
    rw [← toElem_val c, h, mkc_zero, C_0]
  · rw [dif_neg h]
    show listPoly [mkc (toElem c).1 (toElem c).2] = C c
    rw [toElem_val]
    simp [listPoly]

/-- C66: the polynomial made from elements and a divisor has these elements over the divisor as coefficients,
whatever they are (trailing zeros, common factors), and taking a polynomial apart and putting it together
again gives the same polynomial. -/
theorem C66_parts (es : List (Elem T)) (d : Dv T) (k : ℕ) (p : Poly T) :
    (Poly.ofParts (T := T) (es, d)).toPoly.coeff k = mkc (es.getD k 0) d ∧
    Poly.ofParts p.intoParts = p := by
  constructor
  · show (Poly.normalize (T := T) es d).toPoly.coeff k = _
    rw [Poly.toPoly_normalize, Poly.elemPoly_coeff]
  · apply Poly.toPoly_injective
    show (Poly.normalize (T := T) p.raw.elements p.raw.divisor).toPoly = _
    rw [Poly.toPoly_normalize, Poly.toPoly_eq]

/-- C66: for a coefficient type whose zero converts to 0, a polynomial converts to the machine integer `z`
exactly if it is a constant that converts to `z`; in particular no polynomial of positive degree converts. -/
theorem C66_to_primitive [ToPrim T] (t : IntTy) (h0 : ToPrim.toPrim t (0 : T) = some 0) (p : Poly T) (z : ℤ) :
    ToPrim.toPrim t p = some z ↔ ∃ c : T, p.toPoly = C c ∧ ToPrim.toPrim t c = some z := by
  show (if p.len > 1 then none else match p.nonzeroCoefficient 0 with
    | some c => ToPrim.toPrim t c
    | none => some 0) = some z ↔ _
  by_cases hz : p.toPoly = 0
  · have hl := (Poly.len_eq_zero_iff p).mpr hz
    have hc : p.nonzeroCoefficient 0 = none := by
      rw [Poly.nonzeroCoefficient_eq, (Poly.coeffs_eq_nil_iff p).mpr hz]; rfl
    rw [if_neg (by omega), hc, hz]
    constructor
    · intro h; exact ⟨0, C_0.symm, by rw [h0]; exact h⟩
    · rintro ⟨c, h1, h2⟩
      rw [eq_comm, C_eq_zero] at h1
      rw [h1, h0] at h2; exact h2
  · have hl := Poly.len_of_ne p hz
    have hn : p.nonzeroCoefficient 0 = some (p.toPoly.coeff 0) := by
      have : p.coeffs ≠ [] := by rwa [Ne, Poly.coeffs_eq_nil_iff]
      obtain ⟨a, l, e⟩ := List.exists_cons_of_ne_nil this
      rw [Poly.nonzeroCoefficient_eq, Poly.toPoly, e]; simp [listPoly]
    rw [hn]
    by_cases hd : p.toPoly.natDegree = 0
    · rw [if_neg (by omega)]
      constructor
      · intro h; exact ⟨_, eq_C_of_natDegree_eq_zero hd, h⟩
      · rintro ⟨c, h1, h2⟩
        rw [h1, coeff_C_zero]; exact h2
    · rw [if_pos (by omega)]
      constructor
      · intro h; cases h
      · rintro ⟨c, h1, -⟩
        rw [h1, natDegree_C] at hd; exact absurd rfl hd

/-- A coefficient type converts machine integers faithfully: what `from_…` makes of `v` converts back to
every machine type that holds `v` and to no other; zero converts from 0. -/
structure FaithfulPrim (T : Type) [CommRing T] [FromPrim T] [ToPrim T] : Prop where
  back : ∀ t u v (c : T), FromPrim.fromPrim t v = some c → ToPrim.toPrim u c = u.check v
  zero : ∀ u, ToPrim.toPrim u (0 : T) = some 0

theorem IntTy.check_zero (u : IntTy) : u.check 0 = some 0 := by
  unfold IntTy.check
  rw [if_pos]
  cases u with
  | signed n => exact ⟨by have : (0:ℤ) < 2 ^ (n - 1) := by positivity
                          linarith, by positivity⟩
  | unsigned n => exact ⟨le_refl _, by positivity⟩
  | bigInt => trivial
  | bigUint => exact le_refl _

theorem faithful_int : FaithfulPrim ℤ where
  back t u v c h := by
    cases h; rfl
  zero u := u.check_zero

theorem faithful_rat : FaithfulPrim ℚ where
  back t u v c h := by
    cases h
    show u.check (Int.tdiv _ _) = _
    rw [Rat.num_intCast, Rat.den_intCast]
    simp
  zero u := by
    show u.check (Int.tdiv _ _) = _
    rw [Rat.num_zero, Int.zero_tdiv]; exact u.check_zero

/-- C66: if the coefficients convert faithfully, so do polynomials, and so do polynomials of polynomials to
every depth: a machine integer becomes the constant polynomial, which converts back to the same number in
every machine type that holds it and to `None` in the others. -/
theorem C66_round_trip [FromPrim T] [ToPrim T] (hT : FaithfulPrim T) :
    FaithfulPrim (Poly T) ∧
    ∀ t v (c : T), FromPrim.fromPrim t v = some c →
      ∃ p : Poly T, FromPrim.fromPrim t v = some p ∧ p.toPoly = C c ∧
        ∀ u, ToPrim.toPrim u p = u.check v := by
  have hback : ∀ t u v (c : T), FromPrim.fromPrim t v = some c →
      ToPrim.toPrim u (Poly.ofConst c) = u.check v := by
    intro t u v c h
    have h1 := hT.back t u v c h
    cases hc : u.check v with
    | some z =>
      rw [C66_to_primitive u (hT.zero u)]
      exact ⟨c, C66_from_coefficient c, by rw [h1, hc]⟩
    | none =>
      cases hp : ToPrim.toPrim u (Poly.ofConst c) with
      | none => rfl
      | some z =>
        obtain ⟨c', e1, e2⟩ := (C66_to_primitive u (hT.zero u) _ _).mp hp
        rw [C66_from_coefficient, C_inj] at e1
        rw [← e1, h1, hc] at e2
        cases e2
  refine ⟨⟨fun t u v p h => ?_, fun u => ?_⟩, fun t v c h => ⟨Poly.ofConst c, ?_, C66_from_coefficient c, ?_⟩⟩
  · obtain ⟨c, hc, rfl⟩ := Option.map_eq_some_iff.mp h
    exact hback t u v c hc
  · rw [C66_to_primitive u (hT.zero u)]
    exact ⟨0, by simp, hT.zero u⟩
  · show (FromPrim.fromPrim t v).map Poly.ofConst = _
    rw [h]; rfl
  · intro u; exact hback t u v c h

end

/-- C66: the integer and the rational coefficients do convert faithfully. A machine integer becomes the number
it denotes, a rational converts back by dropping its fractional part. -/
theorem C66_base :
    FaithfulPrim ℤ ∧ FaithfulPrim ℚ ∧
    (∀ t v, FromPrim.fromPrim t v = some v) ∧ (∀ t (v : ℤ), FromPrim.fromPrim t v = some (v : ℚ)) ∧
    (∀ u (v : ℤ), ToPrim.toPrim u v = u.check v) ∧
    ∀ u (q : ℚ), ToPrim.toPrim u q = u.check (if 0 ≤ q then ⌊q⌋ else ⌈q⌉) := by
  refine ⟨faithful_int, faithful_rat, fun _ _ => rfl, fun _ _ => rfl, fun _ _ => rfl, fun u q => ?_⟩
  show u.check (Int.tdiv _ _) = _
  congr 1
  by_cases h : 0 ≤ q
  · rw [if_pos h, Int.tdiv_eq_ediv_of_nonneg (Rat.num_nonneg.mpr h), Rat.floor_def']
  · rw [if_neg h, ← neg_neg q, Int.ceil_neg, neg_neg, Rat.floor_def']
    push Not at h
    have hn : q.num < 0 := Rat.num_neg.mpr h
    rw [show q.num = -(-q.num) by ring, Int.neg_tdiv, Int.tdiv_eq_ediv_of_nonneg (by omega)]
    simp

/-- C66: both directions for polynomials over the integers and the rationals, nested to any depth. -/
theorem C66_base_poly :
    FaithfulPrim (Poly ℤ) ∧ FaithfulPrim (Poly ℚ) ∧ FaithfulPrim (Poly (Poly ℤ)) ∧
      FaithfulPrim (Poly (Poly ℚ)) :=
  ⟨(C66_round_trip faithful_int).1, (C66_round_trip faithful_rat).1,
    (C66_round_trip (C66_round_trip faithful_int).1).1, (C66_round_trip (C66_round_trip faithful_rat).1).1⟩

/-- Integer polynomials in two variables: 300 converts, and back to `i16` but not to `u8`. -/
example : FaithfulPrim (Poly (Poly ℤ)) ∧ FaithfulPrim (Poly ℚ) :=
  ⟨(C66_round_trip (C66_round_trip faithful_int).1).1, (C66_round_trip faithful_rat).1⟩

example : ToPrim.toPrim (.signed 16) (Poly.ofConst (300 : ℤ)) = some 300 ∧
    ToPrim.toPrim (.unsigned 8) (Poly.ofConst (300 : ℤ)) = none ∧
    ToPrim.toPrim (.signed 16) (Poly.ofCoeffs [1, 2] : Poly ℤ) = none := by decide +kernel

end Algebraics
