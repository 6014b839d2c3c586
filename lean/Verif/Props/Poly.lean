import Verif.Lemmas.PolyMore
import Verif.Lemmas.Interval
import Verif.Spec.Poly
import Verif.Spec.Interval

/-!
# C13–C19, C23, C34: polynomials

`Poly T` is the model of `Polynomial<T>`, `Poly.toPoly` the mathematical polynomial with the same
coefficients (`Verif.Spec.Poly`).  `T` ranges over every coefficient type with the laws of
`PolyCoeff`; instances: `ℤ` (BigInt), `ℚ` (Ratio<BigInt>), `ZMod n` (ModularInteger), `Poly T`.
-/

set_option linter.unusedSectionVars false

namespace Algebraics

open Polynomial PolyCoeff

section
variable {T : Type} [CommRing T] [PolyCoeff T] [DecidableEq T]

/-! ## C13 canonical form -/

/-- The two stored fields of two polynomials agree (the derived `==`) exactly when all
coefficients agree. -/
theorem C13_eq_iff_coefficients (p q : Poly T) :
    (p.raw.elements = q.raw.elements ∧ p.raw.divisor = q.raw.divisor) ↔
      ∀ i, p.coefficient i = q.coefficient i := by
  constructor
  · rintro ⟨h1, h2⟩ i
    simp only [Poly.coefficient, Poly.nonzeroCoefficient, h1, h2]
  · intro h
    have : p = q := by
      apply Poly.toPoly_injective
      ext i
      simpa using h i
    rw [this]; exact ⟨rfl, rfl⟩

/-- There is no leading zero coefficient. -/
theorem C13_no_leading_zero (p : Poly T) (h : 0 < p.len) : p.coefficient (p.len - 1) ≠ 0 := by
  rw [Poly.coefficient_eq]
  have hz : p.toPoly ≠ 0 := by rw [Ne, ← Poly.len_eq_zero_iff]; omega
  rw [Poly.len_of_ne p hz, Nat.add_sub_cancel]
  exact leadingCoeff_ne_zero.mpr hz

end

/-- For `Ratio` coefficients the stored divisor is positive (it has type `ℕ+` in the model, see
`C13_rational_divisor`), and no integer other than ±1 divides the divisor and all elements. -/
theorem C13_rational_reduced (p : Poly ℚ) (d : ℤ) (h : d ∣ ((p.raw.divisor : ℕ+) : ℕ))
    (he : ∀ e ∈ (p.raw.elements : List ℤ), d ∣ e) : IsUnit d := by
  have hc := p.canonical.2
  change ratReduce p.raw.elements p.raw.divisor = (p.raw.elements, p.raw.divisor) at hc
  cases hes : (p.raw.elements : List ℤ) with
  | nil =>
    rw [hes] at hc
    have : (p.raw.divisor : ℕ+) = 1 := (congrArg Prod.snd hc).symm
    rw [this] at h
    exact isUnit_of_dvd_one (by simpa using h)
  | cons a as =>
    rw [hes] at hc
    rw [ratReduce_eq] at hc
    have h2 : (Nat.toPNat' (((p.raw.divisor : ℕ+) : ℕ) / ratElemsGcd (a :: as) (p.raw.divisor : ℕ+)))
      = (p.raw.divisor : ℕ+) := congrArg Prod.snd hc
    have hg := ratElemsGcd_dvd (a :: as) ((p.raw.divisor : ℕ+) : ℕ)
    have hpos := ratElemsGcd_pos (a :: as) (p.raw.divisor : ℕ+)
    have hq : 0 < ((p.raw.divisor : ℕ+) : ℕ) / ratElemsGcd (a :: as) (p.raw.divisor : ℕ+) :=
      Nat.div_pos (Nat.le_of_dvd (PNat.pos _) hg.1) hpos
    have h3 := congrArg (fun x : ℕ+ => (x : ℕ)) h2
    simp only [toPNat'_coe_of_pos hq] at h3
    have h4 : ratElemsGcd (a :: as) (p.raw.divisor : ℕ+) = 1 := by
      by_contra hne
      have : ((p.raw.divisor : ℕ+) : ℕ) / ratElemsGcd (a :: as) (p.raw.divisor : ℕ+) <
        ((p.raw.divisor : ℕ+) : ℕ) := Nat.div_lt_self (PNat.pos _) (by omega)
      omega
    -- `d` divides the gcd
    have hd : ∀ (l : List ℤ) (g : ℕ), d ∣ g → (∀ e ∈ l, d ∣ e) →
        d ∣ ((l.foldl (fun g e => Int.gcd g e) g : ℕ) : ℤ) := by
      intro l
      induction l with
      | nil => intro g hg _; exact hg
      | cons b l ih =>
        intro g hg hl
        exact ih _ (Int.dvd_coe_gcd hg (hl b (by simp))) (fun e he => hl e (by simp [he]))
    have := hd as (Int.gcd a ((p.raw.divisor : ℕ+) : ℕ))
      (Int.dvd_coe_gcd (he a (by rw [hes]; simp)) h) (fun e hm => he e (by rw [hes]; simp [hm]))
    change d ∣ ((ratElemsGcd (a :: as) (p.raw.divisor : ℕ+) : ℕ) : ℤ) at this
    rw [h4] at this
    exact isUnit_of_dvd_one (by simpa using this)

/-- The stored divisor of a rational polynomial is positive and every coefficient is
element/divisor. -/
theorem C13_rational_divisor (p : Poly ℚ) :
    0 < ((p.raw.divisor : ℕ+) : ℕ) ∧
      ∀ i, p.coefficient i = (((p.raw.elements : List ℤ).getD i 0 : ℤ) : ℚ) / ((p.raw.divisor : ℕ+) : ℕ) := by
  refine ⟨PNat.pos _, fun i => ?_⟩
  rw [Poly.coefficient_eq, Poly.toPoly_eq, Poly.elemPoly_coeff]
  rfl

/-- non-vacuity: `1/2 + 3/4 x` is stored as `(2 + 3 x)/4`, and equal polynomials built differently
have equal fields -/
example : ((Poly.ofCoeffs [1/2, 3/4, 0] : Poly ℚ).raw.elements, (Poly.ofCoeffs [1/2, 3/4, 0] : Poly ℚ).raw.divisor)
    = (([2, 3] : List ℤ), (4 : ℕ+)) := by decide +kernel
example : (Poly.ofCoeffs [1/2, 1/2] : Poly ℚ) + Poly.ofCoeffs [1/2, -1/2] = Poly.ofCoeffs [1] := by
  decide +kernel

section
variable {T : Type} [CommRing T] [PolyCoeff T] [DecidableEq T]

/-! ## C14 ring operations -/

/-- Sum, difference, negation and product are the mathematical ones. -/
theorem C14_ring_ops (p q : Poly T) :
    (p + q).toPoly = p.toPoly + q.toPoly ∧ (p - q).toPoly = p.toPoly - q.toPoly ∧
      (-p).toPoly = -p.toPoly ∧ (p * q).toPoly = p.toPoly * q.toPoly :=
  ⟨Poly.toPoly_add p q, Poly.toPoly_sub p q, Poly.toPoly_neg p, Poly.toPoly_mul p q⟩

/-- Multiplication by a coefficient. -/
theorem C14_mul_scalar (p : Poly T) (c : T) : (p.mulCoeff c).toPoly = p.toPoly * C c :=
  Poly.toPoly_mulCoeff p c

/-- Constructing a polynomial from a coefficient vector, a monomial, zero and one. -/
theorem C14_constructors (cs : List T) (c : T) (n : ℕ) :
    (∀ i, (Poly.ofCoeffs cs).toPoly.coeff i = cs.getD i 0) ∧
      (Poly.makeMonomial c n).toPoly = monomial n c ∧
      (0 : Poly T).toPoly = 0 ∧ (1 : Poly T).toPoly = 1 :=
  ⟨fun i => by rw [Poly.toPoly_ofCoeffs, listPoly_coeff], Poly.toPoly_makeMonomial c n,
    Poly.toPoly_zero, Poly.toPoly_one⟩

/-- Powers: `checked_pow` returns the power for every exponent, except for negative exponents and
for `0^0`, where it returns `None`. -/
theorem C14_pow (p : Poly T) (e : ℤ) :
    (p.checkedPow e = none ↔ e < 0 ∨ (e = 0 ∧ p.toPoly = 0)) ∧
      ∀ r, p.checkedPow e = some r → r.toPoly = p.toPoly ^ e.toNat := by
  rcases lt_trichotomy e 0 with h | h | h
  · have : p.checkedPow e = none := by unfold Poly.checkedPow; rw [if_pos h]
    rw [this]
    exact ⟨⟨fun _ => Or.inl h, fun _ => rfl⟩, fun r hr => by cases hr⟩
  · subst h
    have : p.checkedPow 0 = p.toOneIfNonzero := by
      unfold Poly.checkedPow; rw [if_neg (by omega), if_pos rfl]
    rw [this, Poly.toOneIfNonzero_eq]
    by_cases hz : p.toPoly = 0
    · rw [if_pos hz]; simp [hz]
    · rw [if_neg hz]
      refine ⟨by simp [hz], fun r hr => ?_⟩
      have : r = 1 := (Option.some.inj hr).symm
      rw [this]; simp
  · obtain ⟨r, hr, hr'⟩ := Poly.checkedPow_pos p e.toNat (by omega)
    rw [Int.toNat_of_nonneg h.le] at hr
    rw [hr]
    refine ⟨⟨fun h' => (by cases h'), fun h' => (by omega)⟩, fun s hs => ?_⟩
    cases hs; exact hr'

end

/-- non-vacuity: cancellation of leading terms, all four coefficient types -/
example : (Poly.ofCoeffs [1, 2, 3] : Poly ℤ) + Poly.ofCoeffs [1, 1, -3] = Poly.ofCoeffs [2, 3] := by
  decide +kernel
example : (Poly.ofCoeffs [1/2, 1/3] : Poly ℚ) * Poly.ofCoeffs [1/5, 3] = Poly.ofCoeffs [1/10, 47/30, 1] := by
  decide +kernel
example : (Poly.ofCoeffs [1, 3] : Poly (ZMod 6)) * Poly.ofCoeffs [1, 2] = Poly.ofCoeffs [1, 5] := by
  decide +kernel
example : (Poly.ofCoeffs [Poly.ofCoeffs [0, 1], 1] : Poly (Poly ℤ)) * Poly.ofCoeffs [Poly.ofCoeffs [0, -1], 1] =
    Poly.ofCoeffs [Poly.ofCoeffs [0, 0, -1], 0, 1] := by decide +kernel
example : (Poly.ofCoeffs [1, 1] : Poly ℤ).checkedPow 5 = some (Poly.ofCoeffs [1, 5, 10, 10, 5, 1]) := by
  decide +kernel

/-! ## C15 scalar addition -/

/-- The full property is false for rational coefficients: `(1 + x)/2 + 1/3` is computed as
`(5 + x)/6`. -/
theorem C15_rational_false :
    ¬ ∀ (p : Poly ℚ) (c : ℚ), (p.addCoeff c).toPoly = p.toPoly + C c := by
  intro h
  have h1 := h (Poly.ofCoeffs [1/2, 1/2]) (1/3)
  have h2 : (Poly.ofCoeffs [1/2, 1/2] : Poly ℚ).addCoeff (1/3) = Poly.ofCoeffs [5/6, 1/6] := by
    decide +kernel
  rw [h2] at h1
  have h3 := congrArg (fun f => f.coeff 1) h1
  simp only [Poly.toPoly_ofCoeffs, coeff_add, listPoly_coeff, coeff_C] at h3
  norm_num at h3

/-- Proved part: integer coefficients (the same proof covers every coefficient type without a
common divisor).  Missing: rational coefficients whose divisor or scalar is not an integer, where
the code is wrong. -/
theorem C15_scalar_partial (p : Poly ℤ) (c : ℤ) :
    (p.addCoeff c).toPoly = p.toPoly + C c ∧ (p.subCoeff c).toPoly = p.toPoly - C c :=
  Poly.addCoeff_trivial rfl p c rfl rfl

/-- The same for modular coefficients. -/
theorem C15_scalar_mod_partial (n : ℕ) (p : Poly (ZMod n)) (c : ZMod n) :
    (p.addCoeff c).toPoly = p.toPoly + C c ∧ (p.subCoeff c).toPoly = p.toPoly - C c :=
  Poly.addCoeff_trivial rfl p c rfl rfl

/-- The same for polynomials whose coefficients are polynomials. -/
theorem C15_scalar_nested_partial {T : Type} [CommRing T] [PolyCoeff T] [DecidableEq T]
    (p : Poly (Poly T)) (c : Poly T) :
    (p.addCoeff c).toPoly = p.toPoly + C c ∧ (p.subCoeff c).toPoly = p.toPoly - C c :=
  Poly.addCoeff_trivial rfl p c rfl rfl

/-- What the code computes for every rational polynomial and scalar: with `d` the common divisor of the
polynomial and `q` the denominator of the scalar, the coefficients of positive powers come out multiplied by
`d / lcm d q` and the constant one is `(p(0) d^2 ± c q^2) gcd(d, q) / lcm(d, q)`, where `p(0) ± c` is due.
(The multipliers should have been `lcm / d` and `lcm / q`.) -/
theorem C15_rational_result_partial (p : Poly ℚ) (c : ℚ) (k : ℕ) :
    let d : ℕ := (p.raw.divisor : ℕ+)
    ((p.addCoeff c).toPoly.coeff k = if k = 0
      then (p.toPoly.coeff 0 * d ^ 2 + c * c.den ^ 2) * Nat.gcd d c.den / Nat.lcm d c.den
      else p.toPoly.coeff k * d / Nat.lcm d c.den) ∧
    ((p.subCoeff c).toPoly.coeff k = if k = 0
      then (p.toPoly.coeff 0 * d ^ 2 - c * c.den ^ 2) * Nat.gcd d c.den / Nat.lcm d c.den
      else p.toPoly.coeff k * d / Nat.lcm d c.den) := by
  intro d
  have hd : (d : ℚ) ≠ 0 := by exact_mod_cast (p.raw.divisor : ℕ+).ne_zero
  have hq : ((Nat.toPNat' c.den : ℕ+) : ℕ) = c.den := toPNat'_coe_of_pos c.den_pos
  have hc : (c.num : ℚ) = c * c.den := (Rat.mul_den_eq_num c).symm
  have hcoeff : ∀ k, p.toPoly.coeff k = ((p.raw.elements.getD k 0 : ℤ) : ℚ) / d := fun k => by
    rw [Poly.toPoly_eq, Poly.elemPoly_coeff]; rfl
  have hcoeff' : ∀ k, ((p.raw.elements.getD k 0 : ℤ) : ℚ) = p.toPoly.coeff k * d := fun k => by
    rw [hcoeff, div_mul_cancel₀ _ hd]
  have hL : ((PNat.lcm (p.raw.divisor : ℕ+) (Nat.toPNat' c.den) : ℕ+) : ℕ) = Nat.lcm d c.den := by
    rw [PNat.lcm_coe, hq]
  have hG : ((PNat.gcd (p.raw.divisor : ℕ+) (Nat.toPNat' c.den) : ℕ+) : ℕ) = Nat.gcd d c.den := by
    rw [PNat.gcd_coe, hq]
  obtain ⟨e, he⟩ : ∃ e : ℕ → ℤ, ∀ k, e k = p.raw.elements.getD k 0 := ⟨fun k => _, fun k => rfl⟩
  have hcoeff'' : ∀ k, ((e k : ℤ) : ℚ) = p.toPoly.coeff k * d := fun k => by
    rw [he]; exact hcoeff' k
  have key : ∀ (f : ℤ → ℤ → ℤ) (k : ℕ), (Poly.addSubSingle (T := ℚ) f p c).toPoly.coeff k =
      ((if k = 0 then f (e 0 * ((d * Nat.gcd d c.den : ℕ) : ℤ))
        (c.num * ((Nat.gcd d c.den * c.den : ℕ) : ℤ)) else e k : ℤ) : ℚ) /
        (Nat.lcm d c.den : ℕ) := by
    intro f k
    rw [Poly.coeff_addSubSingle, ← hL, ← hG, he, he]
    conv_rhs => rw [← hq]
    rfl
  have h1 := key (· + ·) k
  have h2 := key (· - ·) k
  constructor
  · refine h1.trans ?_
    by_cases hk : k = 0
    · rw [if_pos hk, if_pos hk]
      rw [Int.cast_add, Int.cast_mul, hcoeff'']
      push_cast
      rw [hc]
      ring
    · rw [if_neg hk, if_neg hk, hcoeff'']
  · refine h2.trans ?_
    by_cases hk : k = 0
    · rw [if_pos hk, if_pos hk]
      rw [Int.cast_sub, Int.cast_mul, hcoeff'']
      push_cast
      rw [hc]
      ring
    · rw [if_neg hk, if_neg hk, hcoeff'']

/-- `0 + 1/2` is computed as `1`. -/
example : (Poly.ofCoeffs [] : Poly ℚ).addCoeff (1 / 2) = Poly.ofCoeffs [1] := by decide +kernel

/-- And for rational coefficients that are all integers. -/
theorem C15_scalar_rational_partial (p : Poly ℚ) (c : ℚ) (hp : (p.raw.divisor : ℕ+) = 1)
    (hc : c.den = 1) :
    (p.addCoeff c).toPoly = p.toPoly + C c ∧ (p.subCoeff c).toPoly = p.toPoly - C c := by
  refine Poly.addCoeff_trivial (by decide +kernel) p c hp ?_
  show Nat.toPNat' c.den = 1
  rw [hc]; rfl

example : (Poly.ofCoeffs [1, 2] : Poly ℤ).addCoeff 5 = Poly.ofCoeffs [6, 2] := by decide +kernel
example : (Poly.ofCoeffs [1, 2] : Poly ℚ).addCoeff 5 = Poly.ofCoeffs [6, 2] ∧
    ((Poly.ofCoeffs [1, 2] : Poly ℚ).raw.divisor : ℕ+) = 1 := by decide +kernel

section
variable {T : Type} [CommRing T] [PolyCoeff T] [DecidableEq T]

/-! ## C16 pseudo-division -/

/-- Pseudo-division: `None` exactly for a zero divisor; otherwise `f·a = q·b + r` with
`deg r < deg b`, and the factor is a power of the leading coefficient of `b`. -/
theorem C16_pseudo_div_rem (a b : Poly T) :
    (a.pseudoDivRem b = none ↔ b.toPoly = 0) ∧
      ∀ r, a.pseudoDivRem b = some r →
        C r.factor * a.toPoly = r.quotient.toPoly * b.toPoly + r.remainder.toPoly ∧
          r.remainder.toPoly.degree < b.toPoly.degree ∧
          ∃ k, r.factor = b.toPoly.leadingCoeff ^ k := by
  refine ⟨Poly.pseudoDivRem_none a b, fun r hr => ?_⟩
  have hb : b.toPoly ≠ 0 := fun h => by
    rw [(Poly.pseudoDivRem_none a b).mpr h] at hr; cases hr
  obtain ⟨s, h1, h2, h3, h4⟩ := Poly.pseudoDivRem_spec a b hb
  rw [h1] at hr; cases hr
  exact ⟨h2, h3, _, h4⟩

/-- In a domain the factor is not zero. -/
theorem C16_factor_ne_zero [IsDomain T] (a b : Poly T) (r : Poly.PseudoDivRem T)
    (h : a.pseudoDivRem b = some r) : r.factor ≠ 0 := by
  have hb : b.toPoly ≠ 0 := fun hz => by
    rw [(Poly.pseudoDivRem_none a b).mpr hz] at h; cases h
  obtain ⟨s, h1, -, -, h4⟩ := Poly.pseudoDivRem_spec a b hb
  rw [h1] at h; cases h
  rw [h4]; exact pow_ne_zero _ (leadingCoeff_ne_zero.mpr hb)

end

example : ((Poly.ofCoeffs [1, 0, 0, 1] : Poly ℤ).pseudoDivRem (Poly.ofCoeffs [1, 2])).map
    (fun r => (r.quotient, r.remainder, r.factor)) =
    some (Poly.ofCoeffs [1, -2, 4], Poly.ofCoeffs [7], 8) := by decide +kernel
example : ((Poly.ofCoeffs [1, 0, 1/2] : Poly ℚ).pseudoDivRem (Poly.ofCoeffs [1, 1/3])).map
    (fun r => (r.quotient, r.remainder, r.factor)) =
    some (Poly.ofCoeffs [-1/2, 1/6], Poly.ofCoeffs [11/18], 1/9) := by decide +kernel

/-! ## C17 division over a field and exact division -/

/-- Division with remainder over a field (rationals, integers modulo a prime). -/
theorem C17_div_rem {K : Type} [Field K] [PolyCoeff K] [DecidableEq K] [ExactDivCoeff K]
    [LawfulExactDiv K] (a b : Poly K) :
    (b.toPoly = 0 → a.divRem b = none) ∧
    (b.toPoly ≠ 0 → ∃ q r, a.divRem b = some (q, r) ∧ a.div b = some q ∧ a.rem b = some r ∧
      a.toPoly = q.toPoly * b.toPoly + r.toPoly ∧ r.toPoly.degree < b.toPoly.degree) := by
  refine ⟨fun h => ?_, Poly.divRem_field a b⟩
  unfold Poly.divRem
  rw [(Poly.pseudoDivRem_none a b).mpr h]

theorem C17_div_rem_rational (a b : Poly ℚ) (hb : b.toPoly ≠ 0) :
    ∃ q r, a.divRem b = some (q, r) ∧ a.toPoly = q.toPoly * b.toPoly + r.toPoly ∧
      r.toPoly.degree < b.toPoly.degree := by
  obtain ⟨q, r, h1, -, -, h2, h3⟩ := (C17_div_rem a b).2 hb
  exact ⟨q, r, h1, h2, h3⟩

theorem C17_div_rem_mod_prime (p : ℕ) [Fact p.Prime] (a b : Poly (ZMod p)) (hb : b.toPoly ≠ 0) :
    ∃ q r, a.divRem b = some (q, r) ∧ a.toPoly = q.toPoly * b.toPoly + r.toPoly ∧
      r.toPoly.degree < b.toPoly.degree := by
  obtain ⟨q, r, h1, -, -, h2, h3⟩ := (C17_div_rem a b).2 hb
  exact ⟨q, r, h1, h2, h3⟩

/-- Exact division over any coefficient domain with exact division (integers, rationals, modular
integers of prime modulus, polynomials): `Some(q)` exactly when `a = q·b`. -/
theorem C17_exact_div {T : Type} [CommRing T] [IsDomain T] [PolyCoeff T] [DecidableEq T]
    [ExactDivCoeff T] [LawfulExactDiv T] (a b : Poly T) :
    (∀ q, a.exactDivPoly b = some q ↔ b.toPoly ≠ 0 ∧ a.toPoly = q.toPoly * b.toPoly) ∧
      (a.exactDivPoly b = none ↔ b.toPoly = 0 ∨ ¬ b.toPoly ∣ a.toPoly) := by
  refine ⟨Poly.exactDivPoly_eq_some_iff a b, ?_⟩
  constructor
  · intro h
    by_contra hc
    push Not at hc
    obtain ⟨h1, q, hq⟩ := hc
    obtain ⟨q', hq'⟩ := (Poly.toPolyEquiv (T := T)).surjective q
    have hq' : q'.toPoly = q := hq'
    have := (Poly.exactDivPoly_eq_some_iff a b q').mpr ⟨h1, by rw [hq', hq, mul_comm]⟩
    rw [this] at h; cases h
  · intro h
    cases hr : a.exactDivPoly b with
    | none => rfl
    | some q =>
      obtain ⟨h1, h2⟩ := (Poly.exactDivPoly_eq_some_iff a b q).mp hr
      rcases h with h | h
      · exact absurd h h1
      · exact absurd ⟨q.toPoly, by rw [h2, mul_comm]⟩ h

theorem C17_exact_div_int (a b q : Poly ℤ) :
    a.exactDivPoly b = some q ↔ b.toPoly ≠ 0 ∧ a.toPoly = q.toPoly * b.toPoly :=
  (C17_exact_div a b).1 q

/-- Division of a polynomial by a scalar succeeds exactly when the scalar divides. -/
theorem C17_div_scalar {T : Type} [CommRing T] [IsDomain T] [PolyCoeff T] [DecidableEq T]
    [ExactDivCoeff T] [LawfulExactDiv T] (a : Poly T) (c : T) (hc : c ≠ 0) (q : Poly T) :
    a.divCoeff c = some q ↔ a.toPoly = q.toPoly * C c :=
  Poly.divCoeff_eq_some_iff a q c hc

instance : Fact (Nat.Prime 5) := ⟨by norm_num⟩
instance : Fact (Nat.Prime 7) := ⟨by norm_num⟩

example : (Poly.ofCoeffs [1, 0, 1] : Poly ℚ).divRem (Poly.ofCoeffs [1, 2]) =
    some (Poly.ofCoeffs [-1/4, 1/2], Poly.ofCoeffs [5/4]) := by decide +kernel
example : (Poly.ofCoeffs [1, 0, 1] : Poly (ZMod 7)).divRem (Poly.ofCoeffs [1, 2]) =
    some (Poly.ofCoeffs [5, 4], Poly.ofCoeffs [3]) := by decide +kernel
example : (Poly.ofCoeffs [-1, 0, 4] : Poly ℤ).exactDivPoly (Poly.ofCoeffs [1, 2]) =
    some (Poly.ofCoeffs [-1, 2]) ∧
    (Poly.ofCoeffs [1, 0, 4] : Poly ℤ).exactDivPoly (Poly.ofCoeffs [1, 2]) = none := by decide +kernel

/-! ## C18 evaluation -/

/-- `eval` is the value of the polynomial. -/
theorem C18_eval {T : Type} [CommRing T] [PolyCoeff T] [DecidableEq T] (p : Poly T) (x : T) :
    p.eval x = p.toPoly.eval x := Poly.eval_eq p x

/-- `eval_generic` at a rational point of an integer polynomial (the way root intervals are
tested). -/
theorem C18_eval_generic_rational (p : Poly ℤ) (x : ℚ) :
    p.evalGeneric (V := ℚ) (· * ·) (fun v c => v + ((c : ℤ) : ℚ)) x 0 = (p.toPoly.map (Int.castRingHom ℚ)).eval x := by
  unfold Poly.evalGeneric Poly.toPoly
  have h : ∀ (l : List ℤ) (acc : ℚ), l.reverse.foldl (fun acc (c : ℤ) => acc * x + (c : ℚ)) acc =
      acc * x ^ l.length + ((listPoly l).map (Int.castRingHom ℚ)).eval x := by
    intro l
    induction l with
    | nil => intro acc; simp
    | cons a l ih =>
      intro acc
      rw [List.reverse_cons, List.foldl_append, ih]
      simp [pow_succ]; ring
  rw [h]; simp

/-- `eval_generic` at a dyadic interval encloses the value at every point of the interval, for any
precision of the accumulator. -/
theorem C18_eval_generic_interval (p : Poly ℤ) (a : DFI) (x : ℝ) (hx : a.Contains x) (n : ℕ) :
    (p.evalGeneric DFI.mul DFI.addInt a (DFI.zero n)).Contains
      ((p.toPoly.map (Int.castRingHom ℝ)).eval x) := by
  unfold Poly.evalGeneric Poly.toPoly
  have h : ∀ (l : List ℤ) (acc : DFI) (y : ℝ), acc.Contains y →
      (l.reverse.foldl (fun acc c => (acc.mul a).addInt c) acc).Contains
        (y * x ^ l.length + ((listPoly l).map (Int.castRingHom ℝ)).eval x) := by
    intro l
    induction l with
    | nil => intro acc y hy; simpa using hy
    | cons c l ih =>
      intro acc y hy
      rw [List.reverse_cons, List.foldl_append]
      have h1 := ih acc y hy
      have h3 := DFI.contains_addInt (DFI.contains_mul h1 hx) c
      have e : y * x ^ (c :: l).length + ((listPoly (c :: l)).map (Int.castRingHom ℝ)).eval x =
          (y * x ^ l.length + ((listPoly l).map (Int.castRingHom ℝ)).eval x) * x + c := by
        simp only [List.length_cons, listPoly_cons, Polynomial.map_add, Polynomial.map_mul, map_C,
          map_X, eval_add, eval_mul, eval_C, eval_X, pow_succ, Int.coe_castRingHom]
        ring
      rw [e]
      exact h3
  have := h p.coeffs (DFI.zero n) 0 (by simp [DFI.Contains, DFI.zero])
  simpa using this

example : (Poly.ofCoeffs [1, 2, 3] : Poly ℤ).eval 10 = 321 := by decide +kernel
example : ((Poly.ofCoeffs [-2, 0, 1] : Poly ℤ).evalGeneric DFI.mul DFI.addInt ⟨3, 4, 1⟩ (DFI.zero 1)) =
    ⟨0, 4, 1⟩ := by decide +kernel

/-! ## C19 content and primitive part -/

/-- `content(p)` is a greatest common divisor of the coefficients with the sign of the leading
coefficient (so nonzero for nonzero `p`). -/
theorem C19_content (p : Poly ℤ) :
    (∀ d : ℤ, d ∣ p.content Poly.intGcd ↔ ∀ i, d ∣ p.toPoly.coeff i) ∧
      (p.toPoly ≠ 0 → p.content Poly.intGcd ≠ 0 ∧
        (0 < p.content Poly.intGcd ↔ 0 < p.toPoly.leadingCoeff)) := by
  obtain ⟨h1, h2, -⟩ := Poly.content_spec p
  exact ⟨h1, fun h => (h2 h).2⟩

/-- `content(p)·primitive_part(p) = p`; for nonzero `p` the primitive part has no common divisor
other than units and a positive leading coefficient. -/
theorem C19_primitive_part (p : Poly ℤ) :
    ∃ r, p.primitivePart Poly.intGcd = some r ∧
      p.toPoly = C (p.content Poly.intGcd) * r.toPoly ∧
      (p.toPoly ≠ 0 → r.toPoly.IsPrimitive ∧ 0 < r.toPoly.leadingCoeff) := by
  obtain ⟨r, h1, h2⟩ := Poly.primitivePart_spec p
  refine ⟨r, h1, by rw [h2, mul_comm], fun h => ?_⟩
  obtain ⟨c1, c2⟩ := C19_content p
  obtain ⟨c3, c4⟩ := c2 h
  constructor
  · intro d hd
    have : p.content Poly.intGcd * d ∣ p.content Poly.intGcd := by
      rw [c1]
      intro i
      rw [h2, coeff_mul_C, mul_comm]
      exact mul_dvd_mul_right (C_dvd_iff_dvd_coeff d _ |>.mp hd i) _
    obtain ⟨e, he⟩ := this
    have he' : p.content Poly.intGcd * (d * e) = p.content Poly.intGcd * 1 := by
      rw [mul_one, ← mul_assoc]; exact he.symm
    exact IsUnit.of_mul_eq_one _ (mul_left_cancel₀ c3 he')
  · have hl : p.toPoly.leadingCoeff = r.toPoly.leadingCoeff * p.content Poly.intGcd := by
      conv_lhs => rw [h2, leadingCoeff_mul, leadingCoeff_C]
    rcases lt_or_gt_of_ne c3 with hneg | hpos
    · have : ¬ 0 < p.toPoly.leadingCoeff := fun h' => by
        have := c4.mpr h'; omega
      have hne : p.toPoly.leadingCoeff ≠ 0 := leadingCoeff_ne_zero.mpr h
      have hlt : p.toPoly.leadingCoeff < 0 := by omega
      rw [hl] at hlt
      by_contra hc
      have := mul_nonneg_of_nonpos_of_nonpos (not_lt.mp hc) hneg.le
      omega
    · have := c4.mp hpos
      rw [hl] at this
      exact pos_of_mul_pos_left this hpos.le

example : (Poly.ofCoeffs [4, 6, -2] : Poly ℤ).content Poly.intGcd = -2 ∧
    (Poly.ofCoeffs [4, 6, -2] : Poly ℤ).primitivePart Poly.intGcd = some (Poly.ofCoeffs [-2, -3, 1]) := by
  decide +kernel

/-! ## C23 derivative, norms, degree -/

section
variable {T : Type} [CommRing T] [PolyCoeff T] [DecidableEq T]

theorem C23_derivative (p : Poly T) : p.derivative.toPoly = Polynomial.derivative p.toPoly :=
  Poly.toPoly_derivative p

theorem C23_degree_leading (p : Poly T) :
    (p.degree = if p.toPoly = 0 then none else some p.toPoly.natDegree) ∧
      p.highestPowerCoefficient = p.toPoly.leadingCoeff ∧
      (∀ i, p.coefficient i = p.toPoly.coeff i) ∧ (p.isZero = true ↔ p.toPoly = 0) :=
  ⟨Poly.degree_eq p, Poly.highest_eq p, Poly.coefficient_eq p, Poly.isZero_iff p⟩

theorem C23_max_norm [LinearOrder T] [IsStrictOrderedRing T] (p : Poly T) :
    (∀ i, |p.toPoly.coeff i| ≤ p.maxNorm) ∧ ∃ i, |p.toPoly.coeff i| = p.maxNorm :=
  Poly.maxNorm_spec p

theorem C23_manhattan_norm [LinearOrder T] [IsStrictOrderedRing T] (p : Poly T) :
    p.manhattanNorm = ∑ i ∈ Finset.range (p.toPoly.natDegree + 1), |p.toPoly.coeff i| := by
  rw [Poly.manhattanNorm_spec]
  by_cases h : p.toPoly = 0
  · rw [(Poly.len_eq_zero_iff p).mpr h]; simp [h]
  · rw [Poly.len_of_ne p h]

end

/-- `into_monic` over a field gives the associated monic polynomial. -/
theorem C23_monic {K : Type} [Field K] [PolyCoeff K] [DecidableEq K] [ExactDivCoeff K]
    [LawfulExactDiv K] (p : Poly K) :
    ∃ r, p.monic = some r ∧ (p.toPoly = 0 → r.toPoly = 0) ∧
      (p.toPoly ≠ 0 → r.toPoly.Monic ∧ p.toPoly = C p.toPoly.leadingCoeff * r.toPoly) := by
  unfold Poly.monic
  rw [Poly.nonzeroHighest_eq]
  by_cases h : p.toPoly = 0
  · rw [if_pos h]; exact ⟨p, rfl, fun _ => h, fun h' => absurd h h'⟩
  · rw [if_neg h]
    have hl := leadingCoeff_ne_zero.mpr h
    obtain ⟨r, hr, hr'⟩ := Poly.divCoeff_field p _ hl
    refine ⟨r, hr, fun h' => absurd h' h, fun _ => ⟨?_, ?_⟩⟩
    · rw [hr']; exact monic_mul_leadingCoeff_inv h
    · rw [hr', mul_comm, mul_assoc, ← C_mul, inv_mul_cancel₀ hl, C_1, mul_one]

example : (Poly.ofCoeffs [5, 1, -3, 2] : Poly ℤ).derivative = Poly.ofCoeffs [1, -6, 6] ∧
    (Poly.ofCoeffs [5, 1, -7, 2] : Poly ℤ).maxNorm = 7 ∧
    (Poly.ofCoeffs [5, 1, -7, 2] : Poly ℤ).manhattanNorm = 15 ∧
    (Poly.ofCoeffs [1, 0, 0, 0, 0, 1] : Poly (ZMod 5)).derivative = 0 := by decide +kernel

/-! ## C34 powmod -/

/-- For a nonzero modulus and a positive exponent `powmod` returns the remainder of the power
(congruent to it and of smaller degree than the modulus). -/
theorem C34_powmod {K : Type} [Field K] [PolyCoeff K] [DecidableEq K] [ExactDivCoeff K]
    [LawfulExactDiv K] (p m : Poly K) (hm : m.toPoly ≠ 0) (e : ℤ) (he : 0 < e) :
    ∃ r, p.powmod e m = some r ∧ m.toPoly ∣ r.toPoly - p.toPoly ^ e.toNat ∧
      r.toPoly.degree < m.toPoly.degree := by
  obtain ⟨r, h1, h2⟩ := Poly.powmod_field p m hm e.toNat (by omega)
  rw [Int.toNat_of_nonneg he.le] at h1
  refine ⟨r, h1, ?_, by rw [h2]; exact degree_mod_lt _ hm⟩
  rw [h2]
  exact ⟨-(p.toPoly ^ e.toNat / m.toPoly), by
    linear_combination EuclideanDomain.div_add_mod (p.toPoly ^ e.toNat) m.toPoly⟩

/-- The reducedness claim fails for exponent zero and a constant modulus: `x^0 mod 3` over the
rationals is returned as `1` although every remainder modulo a constant is `0`. -/
theorem C34_exponent_zero_not_reduced :
    ¬ ∀ (p m r : Poly ℚ), m.toPoly ≠ 0 → p.powmod 0 m = some r →
      r.toPoly.degree < m.toPoly.degree := by
  intro h
  have h1 := h (Poly.ofCoeffs [0, 1]) (Poly.ofCoeffs [3]) 1 (by
    rw [Poly.toPoly_ofCoeffs]; simp) (by decide +kernel)
  rw [Poly.toPoly_one, Poly.toPoly_ofCoeffs] at h1
  simp only [listPoly_cons, listPoly_nil, mul_zero, add_zero] at h1
  rw [degree_one, degree_C (by norm_num)] at h1
  exact lt_irrefl _ h1

/-- At exponent zero the result is still congruent to the power (or `None` for `p = 0`). -/
theorem C34_powmod_zero_partial {K : Type} [Field K] [PolyCoeff K] [DecidableEq K] [ExactDivCoeff K]
    [LawfulExactDiv K] (p m : Poly K) :
    (p.toPoly = 0 → p.powmod 0 m = none) ∧
      (p.toPoly ≠ 0 → ∃ r, p.powmod 0 m = some r ∧ r.toPoly = p.toPoly ^ 0) := by
  have : p.powmod 0 m = p.toOneIfNonzero := by
    unfold Poly.powmod; rw [if_neg (by omega), if_pos rfl]
  rw [this, Poly.toOneIfNonzero_eq]
  constructor <;> intro h
  · rw [if_pos h]
  · rw [if_neg h]; exact ⟨1, rfl, by simp⟩

example : (Poly.ofCoeffs [0, 1] : Poly (ZMod 5)).powmod 25 (Poly.ofCoeffs [2, 0, 1]) =
    some (Poly.ofCoeffs [0, 1]) := by decide +kernel

end Algebraics
