import Verif.Spec.ModPoly
import Verif.Lemmas.ModPoly
import Verif.Props.Poly
import Verif.Props.PolyGcd
import Verif.Props.FactorMod

/-!
# C88: polynomials over modular integers of every integer type

`t` is any of the integer types the crate implements modular integers for, `m` any positive modulus that the type can
hold.  The operations are the ones on the stored lists of pairs (value, modulus), so "returns" includes that no
intermediate result overflowed the type.
-/

namespace Algebraics

open Polynomial

namespace ModPoly

variable {t : IntTy} {m : ℕ}

/-! ### stored lists and polynomials over `ZMod m` -/

theorem ValidCoeff.lift [NeZero m] {c : ModInt} (hc : ValidCoeff m c) : enc (residue m c) = c := by
  obtain ⟨h1, h2, h3⟩ := hc
  exact enc_intCast (t := .bigInt) ⟨trivial, by rw [h1]; exact_mod_cast Nat.pos_of_ne_zero (NeZero.ne m), h2,
    by rw [h1]; exact h3⟩ h1

theorem validCoeff_enc [NeZero m] (x : ZMod m) : ValidCoeff m (enc x) :=
  ⟨rfl, Int.natCast_nonneg _, Int.ofNat_lt.mpr (ZMod.val_lt x)⟩

theorem residue_enc [NeZero m] (x : ZMod m) : residue m (enc x) = x := enc_cast x

theorem value_encP [NeZero m] (p : Poly (ZMod m)) : value m (encP p) = p.toPoly := by
  unfold value encP Poly.toPoly
  rw [coeffs_eq, List.map_map]
  congr 1
  conv_rhs => rw [← List.map_id p.raw.elements]
  apply List.map_congr_left
  intro x _
  exact residue_enc _

theorem valid_encP [NeZero m] (p : Poly (ZMod m)) : Valid m (encP p) := by
  refine ⟨fun c hc => ?_, fun c hc => ?_⟩
  · obtain ⟨x, -, rfl⟩ := List.mem_map.mp hc
    exact validCoeff_enc x
  · by_cases h : p.raw.elements = []
    · simp [encP, h] at hc
    · unfold encP at hc
      rw [List.getLast?_map, List.getLast?_eq_some_getLast h] at hc
      simp only [Option.map_some, Option.some.injEq] at hc
      subst hc
      intro h0
      exact p.canonical.1 h ((enc_value_eq_zero _).mp h0)

theorem Valid.lift [NeZero m] {p : List ModInt} (hp : Valid m p) : ∃ P : Poly (ZMod m), p = encP P := by
  refine ⟨Poly.ofCoeffs (p.map (residue m)), ?_⟩
  have hl : encL (p.map (residue m)) = p := by
    simp only [encL, List.map_map]
    conv_rhs => rw [← List.map_id p]
    apply List.map_congr_left
    intro c hc
    exact (hp.1 c hc).lift
  have : stripZeros (p.map (residue m)) = p.map (residue m) := by
    unfold stripZeros
    rw [List.rdropWhile_eq_self_iff]
    intro h
    simp only [decide_eq_true_eq]
    intro h0
    have hne : p ≠ [] := by simpa using h
    rw [List.getLast_map] at h0
    have h1 := hp.2 _ (List.getLast?_eq_some_getLast hne)
    apply h1
    rw [← (hp.1 _ (List.getLast_mem hne)).lift, h0]
    exact (enc_value_eq_zero _).mpr rfl
  show p = encL (stripZeros (p.map (residue m)))
  rw [this, hl]

theorem returns_encP [NeZero m] (P : Poly (ZMod m)) : Returns m (some (encP P)) P.toPoly :=
  ⟨_, rfl, valid_encP P, value_encP P⟩

theorem neZero (h0 : 0 < m) : NeZero m := ⟨h0.ne'⟩

/-! ### the representation -/

/-- C88: every polynomial over the integers modulo `m` is stored in exactly one way. -/
theorem C88_unique (m : ℕ) (h0 : 0 < m) (f : (ZMod m)[X]) : ∃! p : List ModInt, Valid m p ∧ value m p = f := by
  have := neZero h0
  obtain ⟨P, rfl⟩ := (Poly.toPolyEquiv (T := ZMod m)).surjective f
  refine ⟨encP P, ⟨valid_encP P, value_encP P⟩, fun q hq => ?_⟩
  obtain ⟨Q, rfl⟩ := hq.1.lift
  rw [value_encP] at hq
  rw [Poly.toPoly_injective (hq.2.trans rfl)]

/-! ### ring operations -/

/-- C88: sum, difference, product, negation, for polynomials with the same modulus: no panic, no overflow, the result
is reduced and has the same modulus. -/
theorem C88_ring (t : IntTy) (ht : t.Instantiated) (m : ℕ) (h0 : 0 < m) (hm : t.fits m) (p q : List ModInt)
    (hp : Valid m p) (hq : Valid m q) :
    Returns m (add t p q) (value m p + value m q) ∧ Returns m (sub t p q) (value m p - value m q) ∧
      Returns m (mul t p q) (value m p * value m q) ∧ Returns m (neg t p) (-value m p) := by
  have := neZero h0
  obtain ⟨P, rfl⟩ := hp.lift
  obtain ⟨Q, rfl⟩ := hq.lift
  rw [add_encP ht hm, sub_encP ht hm, mul_encP ht hm, neg_encP hm, value_encP, value_encP, ← Poly.toPoly_add,
    ← Poly.toPoly_sub, ← Poly.toPoly_mul, ← Poly.toPoly_neg]
  exact ⟨returns_encP _, returns_encP _, returns_encP _, returns_encP _⟩

/-- C88: sum, difference and product with a coefficient of the same modulus. -/
theorem C88_scalar (t : IntTy) (ht : t.Instantiated) (m : ℕ) (h0 : 0 < m) (hm : t.fits m) (p : List ModInt)
    (c : ModInt) (hp : Valid m p) (hc : ValidCoeff m c) :
    Returns m (addCoeff t p c) (value m p + C (residue m c)) ∧
      Returns m (subCoeff t p c) (value m p - C (residue m c)) ∧
      Returns m (mulCoeff t p c) (value m p * C (residue m c)) := by
  have := neZero h0
  obtain ⟨P, rfl⟩ := hp.lift
  rw [← hc.lift, addCoeff_encP ht hm, subCoeff_encP ht hm, mulCoeff_encP ht hm, value_encP, residue_enc]
  obtain ⟨h1, h2⟩ := C15_scalar_mod_partial m P (residue m c)
  rw [← h1, ← h2, ← Poly.toPoly_mulCoeff]
  exact ⟨returns_encP _, returns_encP _, returns_encP _⟩

/-- C88: powers; the only exponents without a result are the negative ones, and `0` for the zero polynomial. -/
theorem C88_pow (t : IntTy) (ht : t.Instantiated) (m : ℕ) (h0 : 0 < m) (hm : t.fits m) (p : List ModInt) (e : ℤ)
    (hp : Valid m p) :
    (checkedPow t p e = none ↔ e < 0 ∨ e = 0 ∧ value m p = 0) ∧
      (checkedPow t p e ≠ none → Returns m (checkedPow t p e) (value m p ^ e.toNat)) := by
  have := neZero h0
  obtain ⟨P, rfl⟩ := hp.lift
  obtain ⟨h1, h2⟩ := C14_pow P e
  rw [checkedPow_encP ht hm, value_encP, Option.map_eq_none_iff]
  refine ⟨h1, fun h => ?_⟩
  obtain ⟨r, hr⟩ := Option.ne_none_iff_exists'.mp h
  obtain ⟨R, hR, rfl⟩ := Option.map_eq_some_iff.mp hr
  rw [hr, ← h2 R hR]
  exact returns_encP R

/-- C88: the derivative, and the value at a point of the same modulus. -/
theorem C88_derivative_eval (t : IntTy) (ht : t.Instantiated) (m : ℕ) (h0 : 0 < m) (hm : t.fits m) (p : List ModInt)
    (x : ModInt) (hp : Valid m p) (hx : ValidCoeff m x) :
    Returns m (derivative t p) (Polynomial.derivative (value m p)) ∧
      ∃ y, eval t p x = some y ∧ ValidCoeff m y ∧ residue m y = (value m p).eval (residue m x) := by
  have := neZero h0
  obtain ⟨P, rfl⟩ := hp.lift
  rw [← hx.lift, derivative_encP ht hm, eval_encP ht hm, value_encP, residue_enc, ← Poly.toPoly_derivative,
    ← Poly.eval_eq]
  exact ⟨returns_encP _, _, rfl, validCoeff_enc _, residue_enc _⟩

/-! ### division -/

/-- C88: pseudo-division, for any modulus: it fails only for the divisor zero, and otherwise returns a quotient, a
remainder of smaller degree and a power of the leading coefficient of the divisor. -/
theorem C88_pseudo_div_rem (t : IntTy) (ht : t.Instantiated) (m : ℕ) (h0 : 0 < m) (hm : t.fits m) (p q : List ModInt)
    (hp : Valid m p) (hq : Valid m q) :
    (pseudoDivRem t p q = none ↔ value m q = 0) ∧
      ∀ a b c, pseudoDivRem t p q = some (a, b, c) → Valid m a ∧ Valid m b ∧ ValidCoeff m c ∧
        C (residue m c) * value m p = value m a * value m q + value m b ∧
        (value m b).degree < (value m q).degree ∧ ∃ k, residue m c = (value m q).leadingCoeff ^ k := by
  have := neZero h0
  obtain ⟨P, rfl⟩ := hp.lift
  obtain ⟨Q, rfl⟩ := hq.lift
  obtain ⟨h1, h2⟩ := C16_pseudo_div_rem P Q
  rw [pseudoDivRem_encP ht hm, value_encP, value_encP, Option.map_eq_none_iff]
  refine ⟨h1, fun a b c h => ?_⟩
  obtain ⟨r, hr, he⟩ := Option.map_eq_some_iff.mp h
  unfold encD at he
  injection he with e1 e2
  injection e2 with e2 e3
  subst e1 e2 e3
  rw [value_encP, value_encP, residue_enc]
  exact ⟨valid_encP _, valid_encP _, validCoeff_enc _, h2 r hr⟩

variable (ext : ℤ → ℤ → ModInt.ExtGcd)

/-- C88: division with remainder for a prime modulus. -/
theorem C88_div_rem (t : IntTy) (ht : t.Instantiated) (hext : ModInt.IsExtGcd ext) (m : ℕ) (hprime : m.Prime)
    (hm : t.fits m) (p q : List ModInt) (hp : Valid m p) (hq : Valid m q) :
    (value m q = 0 → divRem t ext p q = none ∧ div t ext p q = none ∧ rem t ext p q = none) ∧
    (value m q ≠ 0 → ∃ a b, divRem t ext p q = some (a, b) ∧ div t ext p q = some a ∧ rem t ext p q = some b ∧
      Valid m a ∧ Valid m b ∧ value m p = value m a * value m q + value m b ∧
      (value m b).degree < (value m q).degree) := by
  have := neZero hprime.pos
  have := Fact.mk hprime
  obtain ⟨P, rfl⟩ := hp.lift
  obtain ⟨Q, rfl⟩ := hq.lift
  rw [divRem_encP hext ht hm, div_encP hext ht hm, rem_encP hext ht hm, value_encP, value_encP]
  refine ⟨fun h => ?_, fun h => ?_⟩
  · have h1 := (Poly.pseudoDivRem_none P Q).mpr h
    unfold Poly.divRem Poly.div Poly.rem
    rw [h1]
    exact ⟨rfl, rfl, rfl⟩
  · obtain ⟨a, b, h1, h2, h3, h4, h5⟩ := (C17_div_rem P Q).2 h
    rw [h1, h2, h3]
    refine ⟨encP a, encP b, rfl, rfl, rfl, valid_encP _, valid_encP _, ?_⟩
    rw [value_encP, value_encP]
    exact ⟨h4, h5⟩

/-- C88: exact division for a prime modulus: there is a result exactly if the division is exact. -/
theorem C88_exact_div (t : IntTy) (ht : t.Instantiated) (hext : ModInt.IsExtGcd ext) (m : ℕ) (hprime : m.Prime)
    (hm : t.fits m) (p q : List ModInt) (hp : Valid m p) (hq : Valid m q) :
    (exactDiv t ext p q = none ↔ value m q = 0 ∨ ¬ value m q ∣ value m p) ∧
    ∀ a, exactDiv t ext p q = some a ↔ Valid m a ∧ value m q ≠ 0 ∧ value m p = value m a * value m q := by
  have := neZero hprime.pos
  have := Fact.mk hprime
  obtain ⟨P, rfl⟩ := hp.lift
  obtain ⟨Q, rfl⟩ := hq.lift
  obtain ⟨h1, h2⟩ := C17_exact_div P Q
  rw [exactDiv_encP hext ht hm, value_encP, value_encP, Option.map_eq_none_iff]
  refine ⟨h2, fun a => ⟨fun h => ?_, fun h => ?_⟩⟩
  · obtain ⟨A, hA, rfl⟩ := Option.map_eq_some_iff.mp h
    rw [value_encP]
    exact ⟨valid_encP _, (h1 A).mp hA⟩
  · obtain ⟨A, rfl⟩ := h.1.lift
    rw [value_encP] at h
    rw [(h1 A).mpr h.2]
    rfl

/-- C88: division by a coefficient: for every modulus, prime or not, the result is the quotient if the divisor is
coprime to the modulus; if it is not, the call fails for every polynomial but zero. -/
theorem C88_div_scalar (t : IntTy) (ht : t.Instantiated) (hext : ModInt.IsExtGcd ext) (m : ℕ) (h2 : 2 ≤ m)
    (hm : t.fits m) (p : List ModInt) (c : ModInt) (hp : Valid m p) (hc : ValidCoeff m c) :
    (IsUnit (residue m c) → ∃ r, divCoeff t ext p c = some r ∧ Valid m r ∧
      value m r * C (residue m c) = value m p) ∧
    (¬ IsUnit (residue m c) → (divCoeff t ext p c = none ↔ value m p ≠ 0)) := by
  have := neZero (by omega : 0 < m)
  obtain ⟨P, rfl⟩ := hp.lift
  rw [← hc.lift, divCoeff_encP hext ht hm, value_encP, residue_enc]
  generalize residue m c = c
  have hu : IsUnit c ↔ Nat.gcd c.val m = 1 := by
    conv_lhs => rw [← ZMod.natCast_zmod_val c]
    exact ZMod.isUnit_iff_coprime _ _
  have hnt : Fact (1 < m) := ⟨by omega⟩
  constructor
  · intro h
    have h0 : c ≠ 0 := h.ne_zero
    have hd : ∀ a : ZMod m, ExactDivCoeff.exactDiv a c = some (a * c⁻¹) := by
      intro a
      simp only [ExactDivCoeff.exactDiv]
      rw [if_neg h0, if_pos (hu.mp h)]
    refine ⟨encP (Poly.ofCoeffs (P.coeffs.map fun a => a * c⁻¹)), ?_, valid_encP _, ?_⟩
    · unfold Poly.divCoeff
      simp only [hd, mapM_some]
      rfl
    · rw [value_encP, Poly.toPoly_ofCoeffs]
      have hcc : c⁻¹ * c = 1 := by
        rw [mul_comm, ZMod.mul_inv_eq_gcd, hu.mp h, Nat.cast_one]
      unfold Poly.toPoly
      induction P.coeffs with
      | nil => simp
      | cons a l ih =>
        simp only [List.map_cons, listPoly_cons]
        rw [add_mul, mul_assoc, ih, ← C_mul, mul_assoc, hcc, mul_one]
  · intro h
    rw [Option.map_eq_none_iff]
    have hd : ∀ a : ZMod m, ExactDivCoeff.exactDiv a c = none := by
      intro a
      simp only [ExactDivCoeff.exactDiv]
      split_ifs with h1 h3
      · rfl
      · exact absurd (hu.mpr h3) h
      · rfl
    unfold Poly.divCoeff
    simp only [hd]
    have : P.toPoly = 0 ↔ P.coeffs = [] := by
      constructor
      · intro h
        rw [Poly.toPoly_injective (h.trans Poly.toPoly_zero.symm)]
        rfl
      · intro h
        unfold Poly.toPoly
        rw [h]; rfl
    rw [ne_eq, this]
    cases P.coeffs with
    | nil => simp
    | cons a l => simp [List.mapM_cons]

/-- C88: powers modulo a polynomial, for a prime modulus and every positive exponent. -/
theorem C88_powmod (t : IntTy) (ht : t.Instantiated) (hext : ModInt.IsExtGcd ext) (m : ℕ) (hprime : m.Prime)
    (hm : t.fits m) (p q : List ModInt) (hp : Valid m p) (hq : Valid m q) (hq0 : value m q ≠ 0) (e : ℤ) (he : 0 < e) :
    ∃ r, powmod t ext p e q = some r ∧ Valid m r ∧ value m q ∣ value m r - value m p ^ e.toNat ∧
      (value m r).degree < (value m q).degree := by
  have := neZero hprime.pos
  have := Fact.mk hprime
  obtain ⟨P, rfl⟩ := hp.lift
  obtain ⟨Q, rfl⟩ := hq.lift
  rw [value_encP] at hq0
  obtain ⟨r, h1, h2⟩ := C34_powmod P Q hq0 e he
  rw [powmod_encP hext ht hm, h1, value_encP, value_encP]
  exact ⟨encP r, rfl, valid_encP _, by rw [value_encP]; exact h2⟩

/-! ### gcd -/

/-- C88: the gcd for a prime modulus: no panic; the result is divided by exactly the common divisors, and is monic, or
zero when both operands are. -/
theorem C88_gcd (t : IntTy) (ht : t.Instantiated) (hext : ModInt.IsExtGcd ext) (m : ℕ) (hprime : m.Prime)
    (hm : t.fits m) (p q : List ModInt) (hp : Valid m p) (hq : Valid m q) :
    ∃ g, gcd t ext p q = some g ∧ Valid m g ∧
      (∀ d, d ∣ value m g ↔ d ∣ value m p ∧ d ∣ value m q) ∧
      ((value m g).Monic ∨ value m g = 0 ∧ value m p = 0 ∧ value m q = 0) := by
  have := neZero hprime.pos
  have := Fact.mk hprime
  obtain ⟨P, rfl⟩ := hp.lift
  obtain ⟨Q, rfl⟩ := hq.lift
  obtain ⟨g, h1, h2, h3, h4, h5⟩ := C20_gcd P Q
  rw [gcd_encP hext ht hm, h1, value_encP, value_encP]
  refine ⟨encP g, rfl, valid_encP _, ?_⟩
  rw [value_encP]
  exact ⟨fun d => ⟨fun h => ⟨h.trans h2, h.trans h3⟩, fun h => h4 d h.1 h.2⟩, h5⟩

/-- C88: `gcd_lcm` for a prime modulus. -/
theorem C88_gcd_lcm (t : IntTy) (ht : t.Instantiated) (hext : ModInt.IsExtGcd ext) (m : ℕ) (hprime : m.Prime)
    (hm : t.fits m) (p q : List ModInt) (hp : Valid m p) (hq : Valid m q) :
    ∃ g l, gcdLcm t ext p q = some (g, l) ∧ gcd t ext p q = some g ∧ Valid m l ∧
      (∀ d, value m l ∣ d ↔ value m p ∣ d ∧ value m q ∣ d) ∧
      value m g * value m l = value m p * value m q := by
  have := neZero hprime.pos
  have := Fact.mk hprime
  obtain ⟨P, rfl⟩ := hp.lift
  obtain ⟨Q, rfl⟩ := hq.lift
  obtain ⟨g, l, h1, h2, h3, h4, h5, h6⟩ := C20_gcd_lcm P Q
  rw [gcdLcm_encP hext ht hm, gcd_encP hext ht hm, h1, h2, value_encP, value_encP]
  refine ⟨encP g, encP l, rfl, rfl, valid_encP _, ?_⟩
  rw [value_encP, value_encP]
  exact ⟨fun d => ⟨fun h => ⟨h3.trans h, h4.trans h⟩, fun h => h5 d h.1 h.2⟩, h6⟩

/-- C88: the extended gcd for a prime modulus: the gcd of `gcd`, with cofactors. -/
theorem C88_extended_gcd (t : IntTy) (ht : t.Instantiated) (hext : ModInt.IsExtGcd ext) (m : ℕ) (hprime : m.Prime)
    (hm : t.fits m) (p q : List ModInt) (hp : Valid m p) (hq : Valid m q) :
    ∃ s, extendedGcd t ext p q = some s ∧ gcd t ext p q = some s.v ∧ Valid m s.v ∧ Valid m s.x ∧ Valid m s.y ∧
      value m s.v = value m p * value m s.x + value m q * value m s.y := by
  have := neZero hprime.pos
  have := Fact.mk hprime
  obtain ⟨P, rfl⟩ := hp.lift
  obtain ⟨Q, rfl⟩ := hq.lift
  obtain ⟨s, h1, h2, h3⟩ := C21_extended_gcd P Q
  rw [extendedGcd_encP hext ht hm, gcd_encP hext ht hm, h1, h2, value_encP, value_encP]
  refine ⟨encS s, rfl, rfl, valid_encP _, valid_encP _, valid_encP _, ?_⟩
  simp only [encS, value_encP]
  exact h3

/-! ### factorization -/

/-- C88: the distinct degree factorization of a square-free polynomial for a prime modulus, in the integer type: no
panic, the leading coefficient comes first, then monic polynomials; the product of all is the input, and an irreducible
divisor of the entry number `d` has degree `d`. -/
theorem C88_distinct_degree (t : IntTy) (ht : t.Instantiated) (hext : ModInt.IsExtGcd ext) (m : ℕ) (hprime : m.Prime)
    (hm : t.fits m) (f : List ModInt) (hf : Valid m f) (hsq : Squarefree (value m f)) :
    ∃ c l, ddf t ext f = some (c :: l) ∧ (∀ g ∈ c :: l, Valid m g) ∧
      value m c = C (value m f).leadingCoeff ∧ value m c * (l.map (value m)).prod = value m f ∧
      ∀ (d : ℕ) (h : d < l.length), (value m l[d]).Monic ∧
        ∀ q, Irreducible q → q ∣ value m l[d] → q.natDegree = d + 1 := by
  have := neZero hprime.pos
  have := Fact.mk hprime
  obtain ⟨F, rfl⟩ := hf.lift
  rw [value_encP] at hsq
  obtain ⟨l, h1, h2, h3⟩ := C28_distinct_degree m F hsq
  rw [ddf_encP hext ht hm, h1, value_encP]
  refine ⟨encP (Poly.ofCoeffs [F.toPoly.leadingCoeff]), l.map encP, rfl, ?_, ?_, ?_, ?_⟩
  · intro g hg
    rw [← List.map_cons] at hg
    obtain ⟨G, -, rfl⟩ := List.mem_map.mp hg
    exact valid_encP G
  · rw [value_encP, Poly.toPoly_ofCoeffs]; simp
  · rw [value_encP, Poly.toPoly_ofCoeffs, List.map_map]
    have : (value m ∘ encP : Poly (ZMod m) → (ZMod m)[X]) = Poly.toPoly := funext value_encP
    rw [this]
    simpa using h2
  · intro d h
    rw [List.getElem_map, value_encP]
    exact h3 d (by simpa using h)

/-- C88: the same degree factorization modulo an odd prime, in the integer type: whatever the random stream, there is
no panic, and when the loop stops the entries are monic and irreducible of the given degree and multiply back. -/
theorem C88_same_degree (t : IntTy) (ht : t.Instantiated) (hext : ModInt.IsExtGcd ext) (m : ℕ) (hprime : m.Prime)
    (h2 : m ≠ 2) (hm : t.fits m) (rng : ℕ → ℕ) (fuel d pos : ℕ) (hd : 0 < d) (f : List ModInt) (hf : Valid m f)
    (hmonic : (value m f).Monic) (hdeg : (value m f).natDegree ≠ 0)
    (hirr : ∀ q, Irreducible q → q ∣ value m f → q.natDegree = d) :
    sdf t ext rng fuel d pos f = .error .fuel ∨
      ∃ l pos', sdf t ext rng fuel d pos f = .ok (l, pos') ∧ (l.map (value m)).prod = value m f ∧
        ∀ g ∈ l, Valid m g ∧ (value m g).Monic ∧ (value m g).natDegree = d ∧ Irreducible (value m g) := by
  have := neZero hprime.pos
  have := Fact.mk hprime
  obtain ⟨F, rfl⟩ := hf.lift
  rw [value_encP] at hmonic hdeg hirr ⊢
  rw [sdf_encP hext ht hm]
  rcases C29_same_degree m h2 rng fuel d pos hd F hmonic hdeg hirr with h | ⟨l, pos', h3, h4, h5⟩
  · rw [h]; exact Or.inl rfl
  · rw [h3]
    refine Or.inr ⟨l.map encP, pos', rfl, ?_, ?_⟩
    · rw [List.map_map]
      have : (value m ∘ encP : Poly (ZMod m) → (ZMod m)[X]) = Poly.toPoly := funext value_encP
      rw [this, h4]
    · intro g hg
      obtain ⟨G, hG, rfl⟩ := List.mem_map.mp hg
      rw [value_encP]
      exact ⟨valid_encP G, h5 G hG⟩

/-! ### operands with different moduli -/

theorem mul_mismatch {x y : ModInt} (h : x.modulus ≠ y.modulus) : ModInt.mul t x y = none := if_neg h

theorem div_mismatch {x y : ModInt} (h : x.modulus ≠ y.modulus) : ModInt.div t ext x y = none := by
  unfold ModInt.div ModInt.checkedInverse
  split
  · rfl
  · rename_i i hi
    dsimp only at hi
    split_ifs at hi with h1 h2
    · unfold ModInt.new at hi
      obtain ⟨v, -, rfl⟩ := Option.map_eq_some_iff.mp hi
      exact mul_mismatch h

theorem divCoeff_mismatch {p : List ModInt} (hp : p ≠ []) {c : ModInt} (h : ∀ a ∈ p, a.modulus ≠ c.modulus) :
    divCoeff t ext p c = none := by
  cases p with
  | nil => exact absurd rfl hp
  | cons a l =>
    unfold divCoeff
    rw [List.mapM_cons, div_mismatch ext (h a (by simp))]
    rfl

theorem value_ne_zero [NeZero m] {p : List ModInt} (hp : Valid m p) : value m p ≠ 0 ↔ p ≠ [] := by
  obtain ⟨P, rfl⟩ := hp.lift
  rw [value_encP, not_iff_not]
  constructor
  · intro h
    rw [Poly.toPoly_injective (h.trans Poly.toPoly_zero.symm)]
    rfl
  · intro h
    have : P.coeffs = [] := by
      rw [coeffs_eq]
      unfold encP at h
      simpa using h
    unfold Poly.toPoly
    rw [this]; rfl

/-- C88: the zero polynomial carries no modulus: it is a polynomial for every modulus, so the claims above cover a zero
operand together with an operand of any modulus. -/
theorem C88_zero_any_modulus (m : ℕ) : Valid m [] ∧ value m [] = 0 := ⟨⟨by simp, by simp⟩, rfl⟩

/-- C88: two nonzero polynomials with different moduli are never added, subtracted or multiplied: the call panics. -/
theorem C88_mismatch_ring (t : IntTy) (m n : ℕ) (h0 : 0 < m) (k0 : 0 < n) (hmn : m ≠ n) (p q : List ModInt)
    (hp : Valid m p) (hq : Valid n q) (hp0 : value m p ≠ 0) (hq0 : value n q ≠ 0) :
    add t p q = none ∧ sub t p q = none ∧ mul t p q = none := by
  have := neZero h0
  have := neZero k0
  rw [value_ne_zero hp] at hp0
  rw [value_ne_zero hq] at hq0
  cases p with
  | nil => exact absurd rfl hp0
  | cons a p =>
    cases q with
    | nil => exact absurd rfl hq0
    | cons b q =>
      have ha : a.modulus = m := (hp.1 a (by simp)).1
      have hb : b.modulus = n := (hq.1 b (by simp)).1
      have hab : a.modulus ≠ b.modulus := by rw [ha, hb]; exact_mod_cast hmn
      have key : ∀ f, addSub t f (a :: p) (b :: q) = none := by
        intro f
        unfold addSub
        have hor : (a :: p).head?.or (b :: q).head? = some a := rfl
        rw [hor]
        simp only []
        cases ho : oneLike t a with
        | none => rfl
        | some one =>
          have hone : one.modulus = a.modulus := by
            unfold oneLike ModInt.new at ho
            obtain ⟨v, -, rfl⟩ := Option.map_eq_some_iff.mp ho
            rfl
          simp only [bind, Option.bind]
          cases hpad : pad t (a :: p) (b :: q) with
          | none => rfl
          | some l =>
            have hl : ∃ l', l = a :: l' := by
              unfold pad at hpad
              split_ifs at hpad with h
              · simp only [List.head?_cons, bind, Option.bind] at hpad
                cases hz : zeroLike t b with
                | none => rw [hz] at hpad; cases hpad
                | some z =>
                  rw [hz] at hpad
                  injection hpad with hpad
                  exact ⟨_, hpad.symm⟩
              · injection hpad with hpad
                exact ⟨_, hpad.symm⟩
            obtain ⟨l', rfl⟩ := hl
            simp only [addSubElems, bind, Option.bind]
            rw [mul_mismatch (x := b) (y := one) (by rw [hone]; exact hab.symm)]
            cases ModInt.mul t a one <;> rfl
      refine ⟨key _, key _, ?_⟩
      unfold mul
      simp only [List.isEmpty_cons, Bool.or_self, if_false, Bool.false_eq_true, mulRows, mulRow, bind, Option.bind]
      rw [mul_mismatch hab]
      rfl

/-- C88: a coefficient of another modulus is refused by every nonzero polynomial, also when the coefficient is zero:
adding, subtracting, multiplying, evaluating and dividing by it panic. -/
theorem C88_mismatch_scalar (t : IntTy) (m n : ℕ) (h0 : 0 < m) (hmn : m ≠ n) (p : List ModInt) (c : ModInt)
    (hp : Valid m p) (hc : ValidCoeff n c) (hp0 : value m p ≠ 0) :
    addCoeff t p c = none ∧ subCoeff t p c = none ∧ mulCoeff t p c = none ∧ eval t p c = none ∧
      divCoeff t ext p c = none := by
  have := neZero h0
  rw [value_ne_zero hp] at hp0
  have hne : ∀ a ∈ p, a.modulus ≠ c.modulus := by
    intro a ha
    rw [(hp.1 a ha).1, hc.1]
    exact_mod_cast hmn
  refine ⟨?_, ?_, ?_, ?_, divCoeff_mismatch ext hp0 hne⟩
  case refine_4 =>
    obtain ⟨l, a, rfl⟩ := List.eq_nil_or_concat p |>.resolve_left hp0
    have ha := hne a (by simp)
    unfold eval
    cases hz : zeroLike t c with
    | none => rfl
    | some z =>
      simp only [List.concat_eq_append, List.reverse_append, List.reverse_cons, List.reverse_nil, List.nil_append,
        List.singleton_append, List.foldlM_cons, bind, Option.bind]
      cases hm : ModInt.mul t z c with
      | none => rfl
      | some v =>
        have hv : v.modulus = c.modulus := by
          unfold ModInt.mul at hm
          split_ifs at hm with h
          obtain ⟨w, -, rfl⟩ := Option.map_eq_some_iff.mp hm
          exact h
        have : ModInt.add t v a = none := if_neg (by rw [hv]; exact ha.symm)
        simp only [this]
  case refine_3 =>
    cases p with
    | nil => exact absurd rfl hp0
    | cons a l =>
      unfold mulCoeff
      rw [List.mapM_cons, mul_mismatch (hne a (by simp))]
      rfl
  all_goals
    cases p with
    | nil => exact absurd rfl hp0
    | cons a l =>
      simp only [addCoeff, subCoeff]
      unfold addSubSingle
      cases ho : oneLike t c with
      | none => rfl
      | some one =>
        have hone : one.modulus = c.modulus := by
          unfold oneLike ModInt.new at ho
          obtain ⟨v, -, rfl⟩ := Option.map_eq_some_iff.mp ho
          rfl
        simp only [bind, Option.bind, List.isEmpty_cons, if_false, Bool.false_eq_true]
        rw [mul_mismatch (x := a) (y := one) (by rw [hone]; exact hne a (by simp))]

/-- C88: division of nonzero polynomials with different moduli. `div_rem` and `exact_div` always panic. The quotient
is `0`, without a panic, when the degree of the dividend is smaller; the remainder is `0`, without a panic, for two
constants. -/
theorem C88_mismatch_division (t : IntTy) (m n : ℕ) (h0 : 0 < m) (k0 : 0 < n) (hmn : m ≠ n) (kn : t.fits n)
    (p q : List ModInt) (hp : Valid m p) (hq : Valid n q) (hp0 : value m p ≠ 0) (hq0 : value n q ≠ 0) :
    divRem t ext p q = none ∧ exactDiv t ext p q = none ∧
      div t ext p q = (if p.length < q.length then some [] else none) ∧
      rem t ext p q = (if p.length = 1 ∧ q.length = 1 then some [] else none) := by
  have := neZero h0
  have := neZero k0
  rw [value_ne_zero hp] at hp0
  rw [value_ne_zero hq] at hq0
  have hne : ∀ c : ModInt, c.modulus = n → ∀ a ∈ p, a.modulus ≠ c.modulus := by
    intro c hc a ha
    rw [(hp.1 a ha).1, hc]
    exact_mod_cast hmn
  have hpl : 0 < p.length := List.length_pos_of_ne_nil hp0
  have hql : 0 < q.length := List.length_pos_of_ne_nil hq0
  have hnil : ∀ c, divCoeff t ext [] c = some [] := fun _ => rfl
  by_cases hlt : p.length < q.length
  · have hps : ∃ one : ModInt, one.modulus = n ∧ pseudoDivRem t p q = some ([], p, one) := by
      cases q with
      | nil => exact absurd rfl hq0
      | cons b q =>
        have hb := hq.1 b (by simp)
        have := oneLike_enc (t := t) kn (residue n b)
        rw [hb.lift] at this
        refine ⟨enc (1 : ZMod n), rfl, ?_⟩
        unfold pseudoDivRem Poly.quotientLen
        simp only [List.head?_cons, bind, Option.bind, this]
        rw [if_pos (by simpa using hlt)]
        rfl
    obtain ⟨one, hone, hps⟩ := hps
    have hd := divCoeff_mismatch (t := t) ext hp0 (hne one hone)
    rw [if_pos hlt, if_neg (by omega)]
    unfold divRem exactDiv exactPseudoDiv div rem
    rw [hps]
    simp only [bind, Option.bind, hnil, hd]
    refine ⟨trivial, ?_, trivial, trivial⟩
    rw [if_neg (by simpa using hp0)]
  · by_cases h1 : p.length = 1
    · have hq1 : q.length = 1 := by omega
      obtain ⟨a, rfl⟩ := List.length_eq_one_iff.mp h1
      obtain ⟨b, rfl⟩ := List.length_eq_one_iff.mp hq1
      have ha : a.value ≠ 0 := hp.2 a rfl
      have hps : pseudoDivRem t [a] [b] = some ([a], [], b) := by
        have : normalize [a] = [a] := by simp [normalize, List.rdropWhile, ha]
        unfold pseudoDivRem Poly.quotientLen elementPseudoDivRem
        simp only [List.head?_cons, List.getLast?_singleton, bind, Option.bind, pdrLoop, subAt, subRow,
          List.length_singleton, lt_irrefl, if_false, List.dropLast_singleton]
        show some (normalize [a], normalize [], b) = _
        rw [this]; rfl
      have hd := divCoeff_mismatch (t := t) ext hp0 (hne b (hq.1 b (by simp)).1)
      rw [if_neg hlt, if_pos ⟨rfl, rfl⟩]
      unfold divRem exactDiv exactPseudoDiv div rem
      rw [hps]
      simp [bind, Option.bind, hnil, hd]
    · have hps : pseudoDivRem t p q = none := by
        have hl : q.getLast? = some (q.getLast hq0) := List.getLast?_eq_some_getLast hq0
        have hpl : p.getLast? = some (p.getLast hp0) := List.getLast?_eq_some_getLast hp0
        have hdl : (q.getLast hq0).modulus = n := (hq.1 _ (List.getLast_mem hq0)).1
        unfold pseudoDivRem Poly.quotientLen elementPseudoDivRem
        cases q.head? with
        | none => rfl
        | some b =>
          rw [if_neg hlt]
          simp only [bind, Option.bind, hl]
          obtain ⟨k, hk⟩ : ∃ k, 1 + p.length - q.length = k + 1 := ⟨p.length - q.length, by omega⟩
          have hmap : p.dropLast.mapM (fun e => ModInt.mul t e (q.getLast hq0)) = none := by
            cases hpd : p.dropLast with
            | nil =>
              have := congrArg List.length hpd
              rw [List.length_dropLast] at this
              simp only [List.length_nil] at this
              omega
            | cons a l =>
              rw [List.mapM_cons, mul_mismatch (hne _ hdl a (List.mem_of_mem_dropLast (by rw [hpd]; simp)))]
              rfl
          simp only [hk, pdrLoop, hpl, bind, Option.bind, hmap]
      rw [if_neg hlt, if_neg (by omega)]
      unfold divRem exactDiv exactPseudoDiv div rem
      rw [hps]
      exact ⟨rfl, rfl, rfl, rfl⟩

/-! ### the hypotheses are met -/

/-- an extended gcd as num-integer documents it -/
def someExt (a b : ℤ) : ModInt.ExtGcd := ⟨Int.gcd a b, Int.gcdA a b, Int.gcdB a b⟩

theorem someExt_isExtGcd : ModInt.IsExtGcd someExt := fun a b =>
  ⟨rfl, by rw [someExt, Int.gcd_eq_gcd_ab a b]; ring⟩

/-- `126 + 100 x` and `x + 126 x^2` modulo 127, stored in `i8`, where 127 is the largest value -/
def exP : List ModInt := [⟨126, 127⟩, ⟨100, 127⟩]

/-- see `exP` -/
def exQ : List ModInt := [⟨0, 127⟩, ⟨1, 127⟩, ⟨126, 127⟩]

theorem exP_valid : Valid 127 exP := by
  refine ⟨?_, ?_⟩
  · simp only [exP, List.mem_cons, List.not_mem_nil, or_false, forall_eq_or_imp, forall_eq, ValidCoeff]
    decide
  · intro c hc
    simp only [exP, List.getLast?_cons_cons, List.getLast?_singleton, Option.some.injEq] at hc
    subst hc
    decide

theorem exQ_valid : Valid 127 exQ := by
  refine ⟨?_, ?_⟩
  · simp only [exQ, List.mem_cons, List.not_mem_nil, or_false, forall_eq_or_imp, forall_eq, ValidCoeff]
    decide
  · intro c hc
    simp only [exQ, List.getLast?_cons_cons, List.getLast?_singleton, Option.some.injEq] at hc
    subst hc
    decide

theorem exI8 : (IntTy.signed 8).Instantiated ∧ (IntTy.signed 8).fits (127 : ℕ) := ⟨Or.inl rfl, by decide⟩

theorem exP_ne : value 127 exP ≠ 0 := by
  have := neZero (by decide : 0 < 127)
  rw [value_ne_zero exP_valid]
  decide

theorem exQ_ne : value 127 exQ ≠ 0 := by
  have := neZero (by decide : 0 < 127)
  rw [value_ne_zero exQ_valid]
  decide

/-- the sum, product and derivative in `i8`: no intermediate result overflowed -/
example : mul (.signed 8) exP exQ = some [⟨0, 127⟩, ⟨126, 127⟩, ⟨101, 127⟩, ⟨27, 127⟩] ∧
    neg (.signed 8) exQ = some [⟨0, 127⟩, ⟨126, 127⟩, ⟨1, 127⟩] ∧
    derivative (.signed 8) exQ = some [⟨1, 127⟩, ⟨125, 127⟩] ∧
    eval (.signed 8) exP ⟨126, 127⟩ = some ⟨26, 127⟩ := by decide +kernel

example : Returns 127 (add (.signed 8) exP exQ) (value 127 exP + value 127 exQ) :=
  (C88_ring _ exI8.1 127 (by decide) exI8.2 exP exQ exP_valid exQ_valid).1

example : Returns 127 (addCoeff (.signed 8) exP ⟨126, 127⟩) (value 127 exP + C (126 : ZMod 127)) :=
  (C88_scalar _ exI8.1 127 (by decide) exI8.2 exP ⟨126, 127⟩ exP_valid ⟨rfl, by decide, by decide⟩).1

example : checkedPow (.signed 8) exP 40 ≠ none := by
  have h := (C88_pow _ exI8.1 127 (by decide) exI8.2 exP 40 exP_valid).1
  rw [Ne, h]
  have := exP_ne
  simp_all

/-- division in `i8`: a pseudo-division and a division with remainder -/
example : pseudoDivRem (.signed 8) exQ exP = some ([⟨99, 127⟩, ⟨27, 127⟩], [⟨99, 127⟩], ⟨94, 127⟩) ∧
    divRem (.signed 8) someExt exQ exP = some ([⟨124, 127⟩, ⟨80, 127⟩], [⟨124, 127⟩]) ∧
    gcd (.signed 8) someExt exP exQ = some [⟨1, 127⟩] := by decide +kernel

/-- factoring `x - x^2` and `x^3 - x` modulo 127 in `i8`, with the stream 0, 1, 2, … -/
example : ddf (.signed 8) someExt exQ = some [[⟨126, 127⟩], [⟨0, 127⟩, ⟨126, 127⟩, ⟨1, 127⟩]] ∧
    (sdf (.signed 8) someExt id 20 1 0 [⟨0, 127⟩, ⟨126, 127⟩, ⟨0, 127⟩, ⟨1, 127⟩]).toOption =
      some ([[⟨1, 127⟩, ⟨1, 127⟩], [⟨0, 127⟩, ⟨1, 127⟩], [⟨126, 127⟩, ⟨1, 127⟩]], 2) := by decide +kernel

/-- the gcd and the division with remainder in `i8` modulo the prime 127 -/
example : (∃ g, gcd (.signed 8) someExt exP exQ = some g) ∧ ∃ a b, divRem (.signed 8) someExt exQ exP = some (a, b) := by
  have h127 : Nat.Prime 127 := by norm_num
  obtain ⟨g, hg, -⟩ := C88_gcd someExt _ exI8.1 someExt_isExtGcd 127 h127 exI8.2 exP exQ exP_valid exQ_valid
  obtain ⟨a, b, hab, -⟩ :=
    (C88_div_rem someExt _ exI8.1 someExt_isExtGcd 127 h127 exI8.2 exQ exP exQ_valid exP_valid).2 exP_ne
  exact ⟨⟨g, hg⟩, a, b, hab⟩

/-- a square-free polynomial modulo 127: `126 + 100 x` has degree one -/
theorem exP_squarefree : Squarefree (value 127 exP) := by
  have h100 : (100 : ZMod 127) ≠ 0 := by decide
  have : Fact (Nat.Prime 127) := ⟨by norm_num⟩
  have hd : (value 127 exP).degree = 1 := by
    have : value 127 exP = C 100 * X + C 126 := by
      simp only [value, exP, residue, List.map_cons, List.map_nil, listPoly_cons, listPoly_nil]
      push_cast
      simp only [mul_zero, add_zero]
      ring
    rw [this]
    exact degree_linear h100
  exact (irreducible_of_degree_eq_one hd).squarefree

example : ∃ c l, ddf (.signed 8) someExt exP = some (c :: l) := by
  obtain ⟨c, l, h, -⟩ := C88_distinct_degree someExt _ exI8.1 someExt_isExtGcd 127 (by norm_num) exI8.2 exP exP_valid
    exP_squarefree
  exact ⟨c, l, h⟩

/-- `5 + x` modulo 7, for the claims about different moduli -/
theorem ex7_valid : Valid 7 [⟨5, 7⟩, ⟨1, 7⟩] := by
  refine ⟨?_, ?_⟩
  · simp only [List.mem_cons, List.not_mem_nil, or_false, forall_eq_or_imp, forall_eq, ValidCoeff]
    decide
  · intro c hc
    simp only [List.getLast?_cons_cons, List.getLast?_singleton, Option.some.injEq] at hc
    subst hc
    decide

example : add (.signed 8) exP [⟨5, 7⟩, ⟨1, 7⟩] = none ∧ div (.signed 8) someExt [⟨5, 7⟩, ⟨1, 7⟩] exQ = some [] := by
  have h7 : value 7 [⟨5, 7⟩, ⟨1, 7⟩] ≠ 0 := by
    have := neZero (by decide : 0 < 7)
    rw [value_ne_zero ex7_valid]
    decide
  refine ⟨(C88_mismatch_ring _ 127 7 (by decide) (by decide) (by decide) _ _ exP_valid ex7_valid exP_ne h7).1, ?_⟩
  have := (C88_mismatch_division someExt (.signed 8) 7 127 (by decide) (by decide) (by decide) exI8.2 _ _ ex7_valid
    exQ_valid h7 exQ_ne).2.2.1
  rw [this]
  decide

end ModPoly

end Algebraics
