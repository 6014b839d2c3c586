import Verif.Lemmas.ModResultant
import Verif.Props.ModPoly

/-!
# C90: resultants and subresultant gcds over modular integers of every integer type

`t` is any of the integer types the crate implements modular integers for and `m` a modulus the type can hold.  The
operations are the ones on the stored pairs (value, modulus): "returns" includes that nothing overflowed the type.
-/

namespace Algebraics

open Polynomial

namespace ModPoly

variable {t : IntTy} {m : ℕ} (ext : ℤ → ℤ → ModInt.ExtGcd)

/-- C90: for a prime modulus `nonzero_resultant` never panics on nonzero polynomials. It returns `None` if the
determinant of the Sylvester matrix is zero, and otherwise a modular integer that stands for the determinant. -/
theorem C90_nonzero_resultant (t : IntTy) (ht : t.Instantiated) (hext : ModInt.IsExtGcd ext) (m : ℕ)
    (hprime : m.Prime) (hm : t.fits m) (p q : List ModInt) (hp : Valid m p) (hq : Valid m q)
    (hp0 : p ≠ []) (hq0 : q ≠ []) :
    ∃ r, nonzeroResultant t ext p q = some r ∧
      (r = none ↔ (sylvester (value m p) (value m q) (value m p).natDegree (value m q).natDegree).det = 0) ∧
      ∀ c, r = some c → ValidCoeff m c ∧
        residue m c = (sylvester (value m p) (value m q) (value m p).natDegree (value m q).natDegree).det := by
  have := neZero hprime.pos
  have := Fact.mk hprime
  rw [← value_ne_zero hp] at hp0
  rw [← value_ne_zero hq] at hq0
  obtain ⟨P, rfl⟩ := hp.lift
  obtain ⟨Q, rfl⟩ := hq.lift
  rw [value_encP] at hp0 hq0
  rw [nonzeroResultant_encP hext ht hm, C22_nonzero_resultant P Q hp0 hq0, value_encP, value_encP]
  refine ⟨_, rfl, ?_, ?_⟩
  · split_ifs with h <;> simp [h]
  · intro c hc
    split_ifs at hc with h
    · cases hc
    · cases hc
      exact ⟨validCoeff_enc _, residue_enc _⟩

/-- C90: `resultant` (for the moduli known at compile time) is the determinant of the Sylvester matrix of two nonzero
polynomials. -/
theorem C90_resultant (t : IntTy) (ht : t.Instantiated) (hext : ModInt.IsExtGcd ext) (m : ℕ)
    (hprime : m.Prime) (hm : t.fits m) (p q : List ModInt) (hp : Valid m p) (hq : Valid m q)
    (hp0 : p ≠ []) (hq0 : q ≠ []) :
    ∃ c, resultant t ext ⟨0, m⟩ p q = some c ∧ ValidCoeff m c ∧
      residue m c = (sylvester (value m p) (value m q) (value m p).natDegree (value m q).natDegree).det := by
  obtain ⟨r, h1, h2, h3⟩ := C90_nonzero_resultant ext t ht hext m hprime hm p q hp hq hp0 hq0
  unfold resultant
  rw [h1]
  cases r with
  | none =>
    refine ⟨⟨0, m⟩, rfl, ⟨rfl, le_refl _, Int.natCast_pos.mpr hprime.pos⟩, ?_⟩
    rw [h2.mp rfl]; simp [residue]
  | some c => exact ⟨c, rfl, h3 c rfl⟩

/-- C90: a zero argument gives `None` and zero, whatever the modulus. -/
theorem C90_zero_argument (t : IntTy) (zero : ModInt) (p q : List ModInt) (h : p = [] ∨ q = []) :
    nonzeroResultant t ext p q = some none ∧ resultant t ext zero p q = some zero := by
  have h1 : nonzeroResultant t ext p q = some none := by
    unfold nonzeroResultant
    rw [if_pos (by rcases h with rfl | rfl <;> simp)]
  exact ⟨h1, by unfold resultant; rw [h1]; rfl⟩

/-- C90: for a prime modulus `nonzero_resultant` returns `None` exactly if one of the polynomials is zero or they have
a common factor of positive degree. -/
theorem C90_none_iff (t : IntTy) (ht : t.Instantiated) (hext : ModInt.IsExtGcd ext) (m : ℕ)
    (hprime : m.Prime) (hm : t.fits m) (p q : List ModInt) (hp : Valid m p) (hq : Valid m q) :
    nonzeroResultant t ext p q = some none ↔
      value m p = 0 ∨ value m q = 0 ∨ ∃ d, 0 < d.natDegree ∧ d ∣ value m p ∧ d ∣ value m q := by
  have := neZero hprime.pos
  have := Fact.mk hprime
  by_cases h0 : p = [] ∨ q = []
  · rw [(C90_zero_argument ext t ⟨0, m⟩ p q h0).1]
    refine iff_of_true rfl ?_
    rcases h0 with rfl | rfl
    · left; simp [value]
    · right; left; simp [value]
  push Not at h0
  have hp0 := (value_ne_zero hp).mpr h0.1
  have hq0 := (value_ne_zero hq).mpr h0.2
  obtain ⟨r, h1, h2, -⟩ := C90_nonzero_resultant ext t ht hext m hprime hm p q hp hq h0.1 h0.2
  rw [h1, Option.some_inj, h2]
  change Polynomial.resultant _ _ = 0 ↔ _
  rw [Polynomial.resultant_eq_zero_iff]
  constructor
  · rintro ⟨-, hc⟩
    refine Or.inr (Or.inr ?_)
    classical
    refine ⟨EuclideanDomain.gcd (value m p) (value m q), ?_, EuclideanDomain.gcd_dvd_left _ _,
      EuclideanDomain.gcd_dvd_right _ _⟩
    rw [← EuclideanDomain.gcd_isUnit_iff] at hc
    by_contra hd
    have hg0 : EuclideanDomain.gcd (value m p) (value m q) ≠ 0 := by
      rw [Ne, EuclideanDomain.gcd_eq_zero_iff]; exact fun h => hp0 h.1
    apply hc
    rw [isUnit_iff_degree_eq_zero, degree_eq_natDegree hg0]
    simpa using hd
  · rintro (h | h | ⟨d, hd, hdp, hdq⟩)
    · exact absurd h hp0
    · exact absurd h hq0
    · refine ⟨Or.inl hp0, fun hc => ?_⟩
      have := hc.isUnit_of_dvd' hdp hdq
      rw [isUnit_iff_degree_eq_zero] at this
      rw [natDegree_eq_of_degree_eq_some this] at hd
      exact absurd hd (lt_irrefl _)

/-- C90: the resultant is multiplicative: if `p₁ * p₂` is stored as `p`, the residue of its resultant with `q` is the
product of the residues. -/
theorem C90_mul (t : IntTy) (ht : t.Instantiated) (hext : ModInt.IsExtGcd ext) (m : ℕ)
    (hprime : m.Prime) (hm : t.fits m) (p₁ p₂ q : List ModInt) (hp₁ : Valid m p₁) (hp₂ : Valid m p₂)
    (hq : Valid m q) (h₁ : p₁ ≠ []) (h₂ : p₂ ≠ []) (hq0 : q ≠ []) :
    ∃ p c₁ c₂ c, mul t p₁ p₂ = some p ∧ resultant t ext ⟨0, m⟩ p₁ q = some c₁ ∧
      resultant t ext ⟨0, m⟩ p₂ q = some c₂ ∧ resultant t ext ⟨0, m⟩ p q = some c ∧
      residue m c = residue m c₁ * residue m c₂ := by
  have := neZero hprime.pos
  have := Fact.mk hprime
  obtain ⟨p, hmul, hp, hv⟩ := (C88_ring t ht m hprime.pos hm p₁ p₂ hp₁ hp₂).2.2.1
  have hv₁ := (value_ne_zero hp₁).mpr h₁
  have hv₂ := (value_ne_zero hp₂).mpr h₂
  have hp0 : p ≠ [] := by
    rw [← value_ne_zero hp, hv]; exact mul_ne_zero hv₁ hv₂
  obtain ⟨c₁, e1, -, f1⟩ := C90_resultant ext t ht hext m hprime hm p₁ q hp₁ hq h₁ hq0
  obtain ⟨c₂, e2, -, f2⟩ := C90_resultant ext t ht hext m hprime hm p₂ q hp₂ hq h₂ hq0
  obtain ⟨c, e3, -, f3⟩ := C90_resultant ext t ht hext m hprime hm p q hp hq hp0 hq0
  refine ⟨p, c₁, c₂, c, hmul, e1, e2, e3, ?_⟩
  rw [f1, f2, f3, hv]
  change Polynomial.resultant _ _ _ _ = Polynomial.resultant _ _ _ _ * Polynomial.resultant _ _ _ _
  rw [natDegree_mul hv₁ hv₂]
  exact Polynomial.resultant_mul_left _ _ _ _ (le_refl _)

/-- C90: for a prime modulus `subresultant_gcd` never panics, and what divides its result is what divides both
arguments. -/
theorem C90_subresultant_gcd (t : IntTy) (ht : t.Instantiated) (hext : ModInt.IsExtGcd ext) (m : ℕ)
    (hprime : m.Prime) (hm : t.fits m) (p q : List ModInt) (hp : Valid m p) (hq : Valid m q) :
    ∃ g, subresultantGcd t ext p q = some g ∧ Valid m g ∧
      ∀ d, d ∣ value m g ↔ d ∣ value m p ∧ d ∣ value m q := by
  have := neZero hprime.pos
  have := Fact.mk hprime
  obtain ⟨P, rfl⟩ := hp.lift
  obtain ⟨Q, rfl⟩ := hq.lift
  obtain ⟨g, h1, h2⟩ := C20_subresultant_gcd P Q
  rw [subresultantGcd_encP hext ht hm, h1, value_encP, value_encP]
  refine ⟨encP g, rfl, valid_encP _, fun d => ?_⟩
  rw [value_encP]
  simpa using h2 (ZMod m) (RingHom.id _) Function.injective_id d

/-- C90: for every positive modulus, prime or not, the outcome of `nonzero_resultant` (including the panic) is the same
for every two integer types that can hold the modulus, and for every two correct implementations of the extended gcd. -/
theorem C90_type_independent (t t' : IntTy) (ht : t.Instantiated) (ht' : t'.Instantiated)
    (ext' : ℤ → ℤ → ModInt.ExtGcd) (hext : ModInt.IsExtGcd ext) (hext' : ModInt.IsExtGcd ext')
    (m : ℕ) (h0 : 0 < m) (hm : t.fits m) (hm' : t'.fits m) (p q : List ModInt) (hp : Valid m p) (hq : Valid m q) :
    nonzeroResultant t ext p q = nonzeroResultant t' ext' p q ∧
      subresultantGcd t ext p q = subresultantGcd t' ext' p q := by
  have := neZero h0
  obtain ⟨P, rfl⟩ := hp.lift
  obtain ⟨Q, rfl⟩ := hq.lift
  exact ⟨by rw [nonzeroResultant_encP hext ht hm, nonzeroResultant_encP hext' ht' hm'],
    by rw [subresultantGcd_encP hext ht hm, subresultantGcd_encP hext' ht' hm']⟩

/-! ### composite moduli -/

theorem enc_natCast [NeZero m] {a : ℕ} (ha : a < m) : enc (m := m) (a : ZMod m) = ⟨a, m⟩ := by
  unfold enc; rw [ZMod.val_natCast_of_lt ha]

theorem gcd_val_neg_one [NeZero m] : Nat.gcd (-1 : ZMod m).val m = 1 := by
  simpa using ZMod.val_coe_unit_coprime (-1 : (ZMod m)ˣ)

theorem exactDiv_neg_one [NeZero m] (hm1 : 1 < m) (x : ZMod m) :
    ExactDivCoeff.exactDiv x (-1 : ZMod m) = some (-x) := by
  have : Fact (1 < m) := ⟨hm1⟩
  have h1 : (-1 : ZMod m) ≠ 0 := neg_ne_zero.mpr one_ne_zero
  show (if _ then none else if _ then some _ else none) = _
  rw [if_neg h1, if_pos gcd_val_neg_one]
  congr 1
  have h2 := ZMod.mul_inv_eq_gcd (-1 : ZMod m)
  rw [gcd_val_neg_one, Nat.cast_one] at h2
  linear_combination (-x) * h2

theorem normalize_one [NeZero m] {x : ZMod m} (hx : x ≠ 0) : normalize [enc x] = [enc x] := by
  have := (enc_value_eq_zero x).not.mpr hx
  simp [normalize, List.rdropWhile, this]

theorem normalize_two [NeZero m] (y : ZMod m) {x : ZMod m} (hx : x ≠ 0) :
    normalize [enc y, enc x] = [enc y, enc x] := by
  have := (enc_value_eq_zero x).not.mpr hx
  simp [normalize, List.rdropWhile, this]

theorem normalize_three [NeZero m] (z y : ZMod m) {x : ZMod m} (hx : x ≠ 0) :
    normalize [enc z, enc y, enc x] = [enc z, enc y, enc x] := by
  have := (enc_value_eq_zero x).not.mpr hx
  simp [normalize, List.rdropWhile, this]

/-- `x²` modulo `m`, stored -/
def square (m : ℕ) : List ModInt := [⟨0, m⟩, ⟨0, m⟩, ⟨1, m⟩]

/-- `a x² + x + 1` modulo `m`, stored -/
def quadratic (m a : ℕ) : List ModInt := [⟨1, m⟩, ⟨1, m⟩, ⟨a, m⟩]

theorem square_valid {m : ℕ} (hm : 1 < m) : Valid m (square m) := by
  refine ⟨?_, ?_⟩
  · intro c hc
    simp only [square, List.mem_cons, List.not_mem_nil, or_false] at hc
    rcases hc with rfl | rfl | rfl <;> exact ⟨rfl, by simp, by simp; omega⟩
  · intro c hc
    simp only [square, List.getLast?_cons_cons, List.getLast?_singleton, Option.some.injEq] at hc
    subst hc; simp

theorem quadratic_valid {m a : ℕ} (hm : 1 < m) (ha0 : 0 < a) (ham : a < m) : Valid m (quadratic m a) := by
  refine ⟨?_, ?_⟩
  · intro c hc
    simp only [quadratic, List.mem_cons, List.not_mem_nil, or_false] at hc
    rcases hc with rfl | rfl | rfl <;> exact ⟨rfl, by simp, by simp; omega⟩
  · intro c hc
    simp only [quadratic, List.getLast?_cons_cons, List.getLast?_singleton, Option.some.injEq] at hc
    subst hc; simp; omega

/-- C90: for every modulus `m` and every `a` that is not a unit modulo `m` (so for every composite modulus), the
resultant of `x²` and `a x² + x + 1` is 1, but `nonzero_resultant` panics. -/
theorem C90_composite_panics (t : IntTy) (ht : t.Instantiated) (hext : ModInt.IsExtGcd ext) (m a : ℕ)
    (hm : t.fits m) (ha0 : 0 < a) (ham : a < m) (hg : Nat.gcd a m ≠ 1) :
    nonzeroResultant t ext (square m) (quadratic m a) = none ∧
      Polynomial.resultant (value m (square m)) (value m (quadratic m a)) 2 2 = 1 := by
  have hm0 := neZero (ha0.trans ham)
  have hm1 : 1 < m := by omega
  have : Fact (1 < m) := ⟨hm1⟩
  have han : (a : ZMod m) ≠ 0 := by
    intro h
    rw [ZMod.natCast_eq_zero_iff] at h
    exact absurd (Nat.le_of_dvd ha0 h) (by omega)
  have hn1 : (-1 : ZMod m) ≠ 0 := neg_ne_zero.mpr one_ne_zero
  have e0 : (⟨0, m⟩ : ModInt) = enc (0 : ZMod m) := by
    have := enc_natCast (m := m) (a := 0) (by omega); simpa using this.symm
  have e1 : (⟨1, m⟩ : ModInt) = enc (1 : ZMod m) := by
    have := enc_natCast (m := m) (a := 1) hm1; simpa using this.symm
  have ea : (⟨a, m⟩ : ModInt) = enc (a : ZMod m) := (enc_natCast ham).symm
  constructor
  · have d1 : pseudoDivRem t [enc (0 : ZMod m), enc (0 : ZMod m), enc (1 : ZMod m)]
        [enc (1 : ZMod m), enc (1 : ZMod m), enc (a : ZMod m)] =
        some ([enc (1 : ZMod m)], [enc (-1 : ZMod m), enc (-1 : ZMod m)], enc (a : ZMod m)) := by
      simp only [pseudoDivRem, List.head?_cons, bind, Option.bind, List.length_cons, List.length_nil,
        Poly.quotientLen]
      simp [elementPseudoDivRem, pdrLoop, subAt, subRow, scaleTail, mul_enc ht hm, sub_enc ht hm,
        normalize_one (one_ne_zero (α := ZMod m)), normalize_two (-1) hn1]
    have d2 : ∃ q f, pseudoDivRem t [enc (1 : ZMod m), enc (1 : ZMod m), enc (a : ZMod m)]
        [enc (1 : ZMod m), enc (1 : ZMod m)] =
        some (q, [enc (a : ZMod m)], f) := by
      simp only [pseudoDivRem, List.head?_cons, bind, Option.bind, List.length_cons, List.length_nil,
        Poly.quotientLen]
      simp [elementPseudoDivRem, pdrLoop, subAt, subRow, scaleTail, mul_enc ht hm, sub_enc ht hm,
        normalize_one han]
    obtain ⟨q, f, d2⟩ := d2
    have d3 : divCoeff t ext [enc (-1 : ZMod m), enc (-1 : ZMod m)] (enc (-1 : ZMod m)) =
        some [enc (1 : ZMod m), enc (1 : ZMod m)] := by
      simp [divCoeff, div_enc hext ht hm, exactDiv_neg_one hm1, normalize_two (1 : ZMod m) one_ne_zero]
    have d4 : divCoeff t ext [enc (a : ZMod m)] (enc (a : ZMod m)) = none := by
      have : ExactDivCoeff.exactDiv (a : ZMod m) (a : ZMod m) = none := by
        show (if _ then none else if _ then some _ else none) = _
        rw [if_neg han, if_neg (by rwa [ZMod.val_natCast_of_lt ham])]
      simp [divCoeff, div_enc hext ht hm, this]
    have hpow : coeffPow t (enc (-1 : ZMod m)) 1 = some (enc (-1 : ZMod m)) := by
      rw [coeffPow_enc ht hm, Poly.coeffPow_eq, pow_one]
    have b1 : resultantPsiBeta t ext [enc (0 : ZMod m), enc (0 : ZMod m), enc (1 : ZMod m)]
        [enc (1 : ZMod m), enc (1 : ZMod m), enc (a : ZMod m)] 1 1 0 (enc (0 : ZMod m)) =
        some (enc (-1 : ZMod m), enc (-1 : ZMod m)) := by
      simp [resultantPsiBeta, oneLike_enc hm, neg_enc hm]
    have b2 : resultantPsiBeta t ext [enc (1 : ZMod m), enc (1 : ZMod m), enc (a : ZMod m)]
        [enc (1 : ZMod m), enc (1 : ZMod m)] 2 2 1 (enc (-1 : ZMod m)) =
        some (enc (-1 : ZMod m), enc (a : ZMod m)) := by
      simp [resultantPsiBeta, resultantPsi, neg_enc hm, hpow, mul_enc ht hm]
    have l2 : ∀ fuel, resultantLoop t ext (fuel + 1) [enc (1 : ZMod m), enc (1 : ZMod m), enc (a : ZMod m)]
        [enc (1 : ZMod m), enc (1 : ZMod m)] 2 1 (enc (-1 : ZMod m)) = none := by
      intro fuel
      rw [resultantLoop]
      simp [d2, b2, d4]
    unfold nonzeroResultant square quadratic
    rw [e0, e1, ea]
    simp only [List.isEmpty_cons, Bool.or_self, Bool.false_eq_true, if_false, List.head?_cons, bind, Option.bind,
      zeroLike_enc hm, List.length_cons, List.length_nil]
    rw [resultantLoop]
    simp [d1, b1, d3, l2, coeffPow_enc ht hm, negIfOdd]
  · have h1 : value m (square m) = X ^ 2 := by
      simp [value, square, residue, listPoly_cons]; ring
    rw [h1, Polynomial.resultant_X_pow_left]
    · simp [value, quadratic, residue, listPoly_cons]
    · simp only [value, quadratic, residue, List.map_cons, List.map_nil, listPoly_cons, listPoly_nil]
      have h0 : (C (((a : ℤ) : ZMod m)) + X * (0 : (ZMod m)[X])) = C (((a : ℤ) : ZMod m)) := by ring
      rw [h0]
      compute_degree

/-- C90: `nonzero_resultant` returns for all pairs of polynomials exactly if the modulus is prime. -/
theorem C90_total_iff_prime (t : IntTy) (ht : t.Instantiated) (hext : ModInt.IsExtGcd ext) (m : ℕ) (h2 : 2 ≤ m)
    (hm : t.fits m) :
    (∀ p q, Valid m p → Valid m q → nonzeroResultant t ext p q ≠ none) ↔ m.Prime := by
  constructor
  · intro h
    by_contra hp
    obtain ⟨a, ha, ha1, ham⟩ := Nat.exists_dvd_of_not_prime h2 hp
    have ha0 : 0 < a := Nat.pos_of_dvd_of_pos ha (by omega)
    have hlt : a < m := lt_of_le_of_ne (Nat.le_of_dvd (by omega) ha) ham
    refine h _ _ (square_valid (by omega)) (quadratic_valid (by omega) ha0 hlt)
      (C90_composite_panics ext t ht hext m a hm ha0 hlt ?_).1
    rwa [Nat.gcd_eq_left ha]
  · intro hp p q hpv hqv
    by_cases h0 : p = [] ∨ q = []
    · rw [(C90_zero_argument ext t ⟨0, m⟩ p q h0).1]; simp
    · push Not at h0
      obtain ⟨r, hr, -⟩ := C90_nonzero_resultant ext t ht hext m hp hm p q hpv hqv h0.1 h0.2
      rw [hr]; simp

/-- C90: for a composite modulus the answer can also be wrong without a panic. Modulo 4, in every integer type, the
resultant of `x³` and `x³ + 2 x² + 1` is 1, but `nonzero_resultant` returns `None` and `resultant` returns zero. -/
theorem C90_composite_wrong (t : IntTy) (ht : t.Instantiated) (hext : ModInt.IsExtGcd ext) (hm : t.fits 4) :
    nonzeroResultant t ext [⟨0, 4⟩, ⟨0, 4⟩, ⟨0, 4⟩, ⟨1, 4⟩] [⟨1, 4⟩, ⟨0, 4⟩, ⟨2, 4⟩, ⟨1, 4⟩] = some none ∧
      resultant t ext ⟨0, 4⟩ [⟨0, 4⟩, ⟨0, 4⟩, ⟨0, 4⟩, ⟨1, 4⟩] [⟨1, 4⟩, ⟨0, 4⟩, ⟨2, 4⟩, ⟨1, 4⟩] = some ⟨0, 4⟩ ∧
      Polynomial.resultant (value 4 [⟨0, 4⟩, ⟨0, 4⟩, ⟨0, 4⟩, ⟨1, 4⟩])
        (value 4 [⟨1, 4⟩, ⟨0, 4⟩, ⟨2, 4⟩, ⟨1, 4⟩]) 3 3 = 1 := by
  have hv1 : Valid 4 [⟨0, 4⟩, ⟨0, 4⟩, ⟨0, 4⟩, ⟨1, 4⟩] := by
    refine ⟨by unfold ValidCoeff; decide, ?_⟩
    intro c hc; cases hc; decide
  have hv2 : Valid 4 [⟨1, 4⟩, ⟨0, 4⟩, ⟨2, 4⟩, ⟨1, 4⟩] := by
    refine ⟨by unfold ValidCoeff; decide, ?_⟩
    intro c hc; cases hc; decide
  have h1 : nonzeroResultant t ext [⟨0, 4⟩, ⟨0, 4⟩, ⟨0, 4⟩, ⟨1, 4⟩] [⟨1, 4⟩, ⟨0, 4⟩, ⟨2, 4⟩, ⟨1, 4⟩] = some none := by
    rw [(C90_type_independent ext t .bigInt ht (by trivial) someExt hext someExt_isExtGcd 4 (by norm_num) hm
      (by trivial) _ _ hv1 hv2).1]
    decide +kernel
  refine ⟨h1, by unfold resultant; rw [h1]; rfl, ?_⟩
  have h2 : value 4 [⟨0, 4⟩, ⟨0, 4⟩, ⟨0, 4⟩, ⟨1, 4⟩] = X ^ 3 := by
    simp [value, residue, listPoly_cons]; ring
  rw [h2, Polynomial.resultant_X_pow_left]
  · simp [value, residue, listPoly_cons]
  · simp only [value, residue, List.map_cons, List.map_nil, listPoly_cons, listPoly_nil, mul_zero, add_zero]
    compute_degree

/-- C90: `subresultant_gcd`, too, can be wrong without a panic for a composite modulus. Modulo 4, in every integer type,
it gives `3 x + 1` for `x³` and `x³ + 2 x² + x + 1`, which divides neither of them. -/
theorem C90_subresultant_gcd_composite_wrong (t : IntTy) (ht : t.Instantiated) (hext : ModInt.IsExtGcd ext)
    (hm : t.fits 4) :
    subresultantGcd t ext [⟨0, 4⟩, ⟨0, 4⟩, ⟨0, 4⟩, ⟨1, 4⟩] [⟨1, 4⟩, ⟨1, 4⟩, ⟨2, 4⟩, ⟨1, 4⟩] = some [⟨1, 4⟩, ⟨3, 4⟩] ∧
      ¬ value 4 [⟨1, 4⟩, ⟨3, 4⟩] ∣ value 4 [⟨0, 4⟩, ⟨0, 4⟩, ⟨0, 4⟩, ⟨1, 4⟩] ∧
      ¬ value 4 [⟨1, 4⟩, ⟨3, 4⟩] ∣ value 4 [⟨1, 4⟩, ⟨1, 4⟩, ⟨2, 4⟩, ⟨1, 4⟩] := by
  have hv1 : Valid 4 [⟨0, 4⟩, ⟨0, 4⟩, ⟨0, 4⟩, ⟨1, 4⟩] := by
    refine ⟨by unfold ValidCoeff; decide, ?_⟩
    intro c hc; cases hc; decide
  have hv2 : Valid 4 [⟨1, 4⟩, ⟨1, 4⟩, ⟨2, 4⟩, ⟨1, 4⟩] := by
    refine ⟨by unfold ValidCoeff; decide, ?_⟩
    intro c hc; cases hc; decide
  have hg : Polynomial.eval 1 (value 4 [⟨1, 4⟩, ⟨3, 4⟩]) = 0 := by
    simp [value, residue, listPoly_cons]; decide
  refine ⟨?_, ?_, ?_⟩
  · rw [(C90_type_independent ext t .bigInt ht (by trivial) someExt hext someExt_isExtGcd 4 (by norm_num) hm
      (by trivial) _ _ hv1 hv2).2]
    decide +kernel
  · rintro ⟨c, hc⟩
    have := congrArg (Polynomial.eval 1) hc
    rw [Polynomial.eval_mul, hg, zero_mul] at this
    simp [value, residue, listPoly_cons] at this
    exact absurd this (by decide)
  · rintro ⟨c, hc⟩
    have := congrArg (Polynomial.eval 1) hc
    rw [Polynomial.eval_mul, hg, zero_mul] at this
    simp [value, residue, listPoly_cons] at this
    exact absurd this (by decide)

/-! ### the hypotheses are met -/

/-- the resultant of `126 + 100 x` and `x + 126 x²` modulo 127 in `i8`, and the one of polynomials with a common
factor: `x² + 126 = (x + 1) (x + 126)` and `x² + x` -/
example : nonzeroResultant (.signed 8) someExt exP exQ = some (some ⟨99, 127⟩) ∧
    nonzeroResultant (.signed 8) someExt [⟨126, 127⟩, ⟨0, 127⟩, ⟨1, 127⟩] [⟨0, 127⟩, ⟨1, 127⟩, ⟨1, 127⟩] = some none ∧
    subresultantGcd (.signed 8) someExt [⟨126, 127⟩, ⟨0, 127⟩, ⟨1, 127⟩] [⟨0, 127⟩, ⟨1, 127⟩, ⟨1, 127⟩] =
      some [⟨1, 127⟩, ⟨1, 127⟩] := by decide +kernel

example : ∃ r, nonzeroResultant (.signed 8) someExt exP exQ = some r := by
  obtain ⟨r, h, -⟩ := C90_nonzero_resultant someExt _ exI8.1 someExt_isExtGcd 127 (by norm_num) exI8.2 exP exQ exP_valid
    exQ_valid (by decide) (by decide)
  exact ⟨r, h⟩

/-- a longer sequence of remainders: degrees 4 and 3 modulo 7 in `u8` -/
example : nonzeroResultant (.unsigned 8) someExt [⟨3, 7⟩, ⟨1, 7⟩, ⟨0, 7⟩, ⟨5, 7⟩, ⟨2, 7⟩] [⟨5, 7⟩, ⟨4, 7⟩, ⟨1, 7⟩, ⟨3, 7⟩] =
    some (some ⟨3, 7⟩) := by decide +kernel

/-- the moduli 4 and 6 have factors -/
example : Nat.gcd 2 4 ≠ 1 ∧ Nat.gcd 3 6 ≠ 1 ∧
    nonzeroResultant (.signed 8) someExt (square 6) (quadratic 6 3) = none := by decide +kernel

end ModPoly

end Algebraics
