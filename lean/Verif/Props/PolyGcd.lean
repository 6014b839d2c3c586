import Verif.Lemmas.PolyGcd
import Mathlib.FieldTheory.IsAlgClosed.Basic

/-!
# C20–C22: greatest common divisors, extended gcd, resultants

`K` is any field of coefficients with exact division (instances: `ℚ`, `ZMod p`), `T` any integral
domain with exact division (instances: `ℤ`, `ℚ`, `ZMod p`, `Poly T`).
-/

set_option linter.unusedSectionVars false

namespace Algebraics

open Polynomial PolyCoeff

section
variable {K : Type} [Field K] [PolyCoeff K] [DecidableEq K] [ExactDivCoeff K] [LawfulExactDiv K]

/-! ## C20 gcd and lcm -/

/-- `gcd` never panics; its result is divided by exactly the common divisors of the inputs, and it
is monic, or zero when both inputs are. -/
theorem C20_gcd (l r : Poly K) :
    ∃ g, Poly.gcd l r = some g ∧
      g.toPoly ∣ l.toPoly ∧ g.toPoly ∣ r.toPoly ∧
      (∀ d : K[X], d ∣ l.toPoly → d ∣ r.toPoly → d ∣ g.toPoly) ∧
      (g.toPoly.Monic ∨ (g.toPoly = 0 ∧ l.toPoly = 0 ∧ r.toPoly = 0)) := by
  obtain ⟨g, h1, h2, h3⟩ := Poly.gcd_spec l r
  obtain ⟨h4, h5⟩ := (h2 g.toPoly).mp dvd_rfl
  refine ⟨g, h1, h4, h5, fun d hl hr => (h2 d).mpr ⟨hl, hr⟩, ?_⟩
  rcases h3 with h | h
  · rw [h, zero_dvd_iff] at h4 h5
    exact Or.inr ⟨h, h4, h5⟩
  · exact Or.inl h

/-- the result is unique: any monic polynomial with the divisor property is the one returned. -/
theorem C20_gcd_unique (l r : Poly K) (g : K[X]) (hm : g.Monic)
    (hg : ∀ d : K[X], d ∣ g ↔ d ∣ l.toPoly ∧ d ∣ r.toPoly) :
    ∃ g', Poly.gcd l r = some g' ∧ g'.toPoly = g := by
  obtain ⟨g', h1, h2, h3⟩ := Poly.gcd_spec l r
  refine ⟨g', h1, ?_⟩
  have h4 : g'.toPoly ∣ g := by rw [hg]; exact (h2 _).mp dvd_rfl
  have h5 : g ∣ g'.toPoly := by rw [h2]; exact (hg _).mp dvd_rfl
  rcases h3 with h | h
  · rw [h, zero_dvd_iff] at h4
    exact absurd h4 hm.ne_zero
  · exact eq_of_monic_of_associated h hm (associated_of_dvd_dvd h4 h5)

/-- `gcd_lcm` returns the gcd together with a least common multiple, and their product is exactly
the product of the inputs. -/
theorem C20_gcd_lcm (l r : Poly K) :
    ∃ g m, Poly.gcdLcmPoly l r = some (g, m) ∧ Poly.gcd l r = some g ∧
      l.toPoly ∣ m.toPoly ∧ r.toPoly ∣ m.toPoly ∧
      (∀ d : K[X], l.toPoly ∣ d → r.toPoly ∣ d → m.toPoly ∣ d) ∧
      g.toPoly * m.toPoly = l.toPoly * r.toPoly := by
  obtain ⟨g, m, h1, h2, h3, h4⟩ := Poly.gcdLcm_spec l r
  obtain ⟨h5, h6⟩ := (h3 m.toPoly).mp dvd_rfl
  exact ⟨g, m, h1, h2, h5, h6, fun d hl hr => (h3 d).mpr ⟨hl, hr⟩, h4⟩

end

section
variable {T : Type} [CommRing T] [PolyCoeff T] [DecidableEq T] [ExactDivCoeff T]
  [LawfulExactDiv T] [IsDomain T]

/-- `subresultant_gcd` over an integral domain never fails an exact division, and over every field
containing the coefficients its result is a greatest common divisor of the inputs. -/
theorem C20_subresultant_gcd (l r : Poly T) :
    ∃ f, Poly.subresultantGcd l r = some f ∧
      ∀ (K : Type) [Field K] (φ : T →+* K), Function.Injective φ → ∀ d : K[X],
        d ∣ f.toPoly.map φ ↔ d ∣ l.toPoly.map φ ∧ d ∣ r.toPoly.map φ := by
  obtain ⟨f, h1, h2⟩ := Poly.subresultantGcd_spec l r
  exact ⟨f, h1, fun K _ φ hφ d => (h2 K φ hφ d).symm⟩

/-- in particular its roots in any extension field are exactly the common roots. -/
theorem C20_subresultant_roots (l r : Poly T) :
    ∃ f, Poly.subresultantGcd l r = some f ∧
      ∀ (K : Type) [Field K] (φ : T →+* K), Function.Injective φ → ∀ x : K,
        f.toPoly.eval₂ φ x = 0 ↔ l.toPoly.eval₂ φ x = 0 ∧ r.toPoly.eval₂ φ x = 0 := by
  obtain ⟨f, h1, h2⟩ := C20_subresultant_gcd l r
  refine ⟨f, h1, fun K _ φ hφ x => ?_⟩
  have := h2 K φ hφ (X - C x)
  simpa only [dvd_iff_isRoot, IsRoot.def, eval_map] using this

end

/-- `gcd(x² - 1, 2x + 2) = x + 1` -/
example : (Poly.gcd (Poly.ofCoeffs [-1, 0, 1] : Poly ℚ) (Poly.ofCoeffs [2, 2])).map (·.coeffs) =
    some [1, 1] := by decide +kernel

/-- a sequence with several steps, over the integers -/
example : ((Poly.subresultantGcd (Poly.ofCoeffs [-6, 5, 2, -3, 0, 2] : Poly ℤ)
    (Poly.ofCoeffs [-2, 1, 1])).map (·.coeffs)) ≠ none := by decide +kernel

example : (Poly.subresultantGcd (Poly.ofCoeffs [-2, 1, 1] : Poly ℤ)
    (Poly.ofCoeffs [-4, 0, 1])).map (·.len) = some 2 := by decide +kernel

/-! ## C21 extended gcd -/

section
variable {K : Type} [Field K] [PolyCoeff K] [DecidableEq K] [ExactDivCoeff K] [LawfulExactDiv K]

/-- `extended_gcd` never panics; the gcd it returns is the one of `gcd`, with a Bezout identity. -/
theorem C21_extended_gcd (l r : Poly K) :
    ∃ s, Poly.extendedGcd l r = some s ∧ Poly.gcd l r = some s.v ∧
      s.v.toPoly = l.toPoly * s.x.toPoly + r.toPoly * s.y.toPoly := by
  obtain ⟨s, h1, h2, h3, h4, -⟩ := Poly.extendedGcd_spec l r
  refine ⟨s, h1, ?_, h2⟩
  rcases h3 with h | h
  · obtain ⟨g, h5, h6, h7⟩ := Poly.gcd_spec l r
    have h8 : (0 : K[X]) ∣ g.toPoly := by rw [h6, ← h4, h]
    rw [h5, Poly.toPoly_injective (h.trans (zero_dvd_iff.mp h8).symm)]
  · obtain ⟨g, h5, h6⟩ := C20_gcd_unique l r s.v.toPoly h h4
    rw [h5, Poly.toPoly_injective h6]

/-- the cofactors have small degree: `deg x + deg g ≤ deg r` and `deg y + deg g ≤ deg l`. -/
theorem C21_degree_bounds (l r : Poly K) (hl : l.toPoly ≠ 0) (hr : r.toPoly ≠ 0) :
    ∃ s, Poly.extendedGcd l r = some s ∧
      s.x.toPoly.degree + s.v.toPoly.degree ≤ r.toPoly.degree ∧
      s.y.toPoly.degree + s.v.toPoly.degree ≤ l.toPoly.degree := by
  obtain ⟨s, h1, -, -, -, h5, -⟩ := Poly.extendedGcd_spec l r
  exact ⟨s, h1, h5 hl hr⟩

/-- the bounds are strict as soon as the two polynomials are not multiples of each other. -/
theorem C21_degree_bounds_strict (l r : Poly K) (hl : l.toPoly ≠ 0) (hr : r.toPoly ≠ 0)
    (h : ¬ Associated l.toPoly r.toPoly) :
    ∃ s, Poly.extendedGcd l r = some s ∧
      s.x.toPoly.degree + s.v.toPoly.degree < r.toPoly.degree ∧
      s.y.toPoly.degree + s.v.toPoly.degree < l.toPoly.degree := by
  obtain ⟨s, h1, -, -, -, -, h5⟩ := Poly.extendedGcd_spec l r
  exact ⟨s, h1, h5 hl hr h⟩

end

/-- over the rationals: `gcd(x² + 1, x) = 1 = 1·(x² + 1) + (-x)·x` -/
example : (Poly.extendedGcd (Poly.ofCoeffs [1, 0, 1] : Poly ℚ) (Poly.ofCoeffs [0, 1])).map
    (fun s => (s.v.coeffs, s.x.coeffs, s.y.coeffs)) = some ([1], [1], [0, -1]) := by decide +kernel

example : (Poly.ofCoeffs [1, 0, 1] : Poly ℚ).len = 3 := by decide +kernel

/-! ## C22 resultant -/

section
variable {T : Type} [CommRing T] [PolyCoeff T] [DecidableEq T] [ExactDivCoeff T]
  [LawfulExactDiv T] [IsDomain T]

/-- For nonzero polynomials `resultant` never panics and is the determinant of the Sylvester
matrix. -/
theorem C22_resultant_sylvester (u v : Poly T) (hu : u.toPoly ≠ 0) (hv : v.toPoly ≠ 0) :
    Poly.resultant u v =
      some (Polynomial.sylvester u.toPoly v.toPoly u.toPoly.natDegree v.toPoly.natDegree).det := by
  obtain ⟨x, h1, h2, -⟩ := Poly.nonzeroResultant_spec u v hu hv
  unfold Poly.resultant
  rw [h1, Option.map_some, h2]
  rfl

/-- `nonzero_resultant` reports `None` exactly when the resultant is zero. -/
theorem C22_nonzero_resultant (u v : Poly T) (hu : u.toPoly ≠ 0) (hv : v.toPoly ≠ 0) :
    Poly.nonzeroResultant u v =
      some (if (Polynomial.sylvester u.toPoly v.toPoly u.toPoly.natDegree v.toPoly.natDegree).det = 0
        then none else
          some (Polynomial.sylvester u.toPoly v.toPoly u.toPoly.natDegree v.toPoly.natDegree).det) := by
  obtain ⟨x, h1, h2, h3⟩ := Poly.nonzeroResultant_spec u v hu hv
  rw [h1]
  change x.getD 0 = (Polynomial.sylvester _ _ _ _).det at h2
  rw [← h2]
  cases x with
  | none => simp
  | some y => simp [h3 y rfl]

/-- A zero argument gives zero. -/
theorem C22_zero_argument (u v : Poly T) (h : u.toPoly = 0 ∨ v.toPoly = 0) :
    Poly.resultant u v = some 0 := by
  unfold Poly.resultant Poly.nonzeroResultant
  rw [if_pos (by simp only [Bool.or_eq_true, Poly.isZero_iff]; exact h)]
  rfl

/-- The resultant vanishes exactly when the polynomials have a common root in any algebraically
closed field containing the coefficients. -/
theorem C22_zero_iff_common_root (u v : Poly T) (hu : u.toPoly ≠ 0) (hv : v.toPoly ≠ 0)
    (K : Type) [Field K] [IsAlgClosed K] (φ : T →+* K) (hφ : Function.Injective φ) :
    Poly.resultant u v = some 0 ↔
      ∃ x : K, u.toPoly.eval₂ φ x = 0 ∧ v.toPoly.eval₂ φ x = 0 := by
  rw [C22_resultant_sylvester u v hu hv, Option.some_inj]
  have h1 : (Polynomial.sylvester u.toPoly v.toPoly u.toPoly.natDegree v.toPoly.natDegree).det =
      Polynomial.resultant u.toPoly v.toPoly := rfl
  have hu' : u.toPoly.map φ ≠ 0 := (Polynomial.map_ne_zero_iff hφ).mpr hu
  have h2 : φ (Polynomial.resultant u.toPoly v.toPoly) =
      Polynomial.resultant (u.toPoly.map φ) (v.toPoly.map φ) := by
    rw [natDegree_map_eq_of_injective hφ, natDegree_map_eq_of_injective hφ,
      Polynomial.resultant_map_map]
  classical
  rw [h1, ← map_eq_zero_iff φ hφ, h2, Polynomial.resultant_eq_zero_iff]
  constructor
  · rintro ⟨-, h⟩
    have hg : ¬ IsUnit (EuclideanDomain.gcd (u.toPoly.map φ) (v.toPoly.map φ)) := by
      rwa [EuclideanDomain.gcd_isUnit_iff]
    have hg0 : EuclideanDomain.gcd (u.toPoly.map φ) (v.toPoly.map φ) ≠ 0 := by
      rw [Ne, EuclideanDomain.gcd_eq_zero_iff]; exact fun h => hu' h.1
    obtain ⟨x, hx⟩ := IsAlgClosed.exists_root _ (fun h => hg (isUnit_iff_degree_eq_zero.mpr h))
    refine ⟨x, ?_, ?_⟩
    · rw [← eval_map]
      exact IsRoot.dvd hx (EuclideanDomain.gcd_dvd_left _ _)
    · rw [← eval_map]
      exact IsRoot.dvd hx (EuclideanDomain.gcd_dvd_right _ _)
  · rintro ⟨x, hx, hy⟩
    refine ⟨Or.inl hu', ?_⟩
    rintro ⟨a, b, hab⟩
    have := congrArg (eval x) hab
    rw [eval_add, eval_mul, eval_mul, eval_map, eval_map, hx, hy] at this
    simp at this

/-- The resultant is multiplicative. -/
theorem C22_mul (u₁ u₂ v : Poly T) :
    ∃ r₁ r₂, Poly.resultant u₁ v = some r₁ ∧ Poly.resultant u₂ v = some r₂ ∧
      Poly.resultant (u₁ * u₂) v = some (r₁ * r₂) := by
  by_cases h : u₁.toPoly = 0 ∨ u₂.toPoly = 0 ∨ v.toPoly = 0
  · have h12 : ∃ r₁ r₂, Poly.resultant u₁ v = some r₁ ∧ Poly.resultant u₂ v = some r₂ ∧
        r₁ * r₂ = 0 := by
      have tot : ∀ u : Poly T, ∃ r, Poly.resultant u v = some r := by
        intro u
        by_cases h' : u.toPoly = 0 ∨ v.toPoly = 0
        · exact ⟨_, C22_zero_argument u v h'⟩
        · push Not at h'
          exact ⟨_, C22_resultant_sylvester u v h'.1 h'.2⟩
      obtain ⟨a, ha⟩ := tot u₁
      obtain ⟨b, hb⟩ := tot u₂
      refine ⟨a, b, ha, hb, ?_⟩
      rcases h with h | h | h
      · rw [C22_zero_argument u₁ v (Or.inl h)] at ha
        rw [← Option.some.inj ha, zero_mul]
      · rw [C22_zero_argument u₂ v (Or.inl h)] at hb
        rw [← Option.some.inj hb, mul_zero]
      · rw [C22_zero_argument u₁ v (Or.inr h)] at ha
        rw [← Option.some.inj ha, zero_mul]
    obtain ⟨a, b, ha, hb, hab⟩ := h12
    refine ⟨a, b, ha, hb, ?_⟩
    rw [hab]
    apply C22_zero_argument
    rw [Poly.toPoly_mul, mul_eq_zero]; tauto
  · push Not at h
    obtain ⟨h1, h2, h3⟩ := h
    refine ⟨_, _, C22_resultant_sylvester _ _ h1 h3, C22_resultant_sylvester _ _ h2 h3, ?_⟩
    rw [C22_resultant_sylvester _ _ (by rw [Poly.toPoly_mul]; exact mul_ne_zero h1 h2) h3]
    congr 1
    have := Polynomial.resultant_mul_left u₁.toPoly u₂.toPoly v.toPoly v.toPoly.natDegree le_rfl
    rw [Poly.toPoly_mul, natDegree_mul h1 h2]
    exact this

end

/-- `res(x² - 2, x² - 3) = 1` and `res((x - 1)(x - 2), x - 2) = 0` over the integers -/
example : Poly.resultant (Poly.ofCoeffs [-2, 0, 1] : Poly ℤ) (Poly.ofCoeffs [-3, 0, 1]) = some 1 := by
  decide +kernel
example : Poly.resultant (Poly.ofCoeffs [2, -3, 1] : Poly ℤ) (Poly.ofCoeffs [-2, 1]) = some 0 := by
  decide +kernel

/-- nested coefficients: `res_y(y² - 2, (x - y)² - 3)`, the computation behind `√2 + √3` -/
example : (Poly.resultant (Poly.ofCoeffs [Poly.ofCoeffs [-2], 0, 1] : Poly (Poly ℤ))
    (Poly.ofCoeffs [Poly.ofCoeffs [-3, 0, 1], Poly.ofCoeffs [0, -2], 1])).map (·.coeffs) =
      some [1, 0, -10, 0, 1] := by
  decide +kernel

end Algebraics
