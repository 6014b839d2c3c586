import Verif.Lemmas.PolyGcd
import Verif.Model.PolySturm
import Verif.Props.Traits
import Mathlib.RingTheory.Polynomial.GaussLemma
import Mathlib.RingTheory.UniqueFactorizationDomain.Multiplicity
import Mathlib.Algebra.Squarefree.Basic
import Mathlib.FieldTheory.Perfect

/-!
# Yun's algorithm: square-free factorization over a field of characteristic zero
-/

set_option linter.unusedSectionVars false

namespace Algebraics

open Polynomial

namespace Yun

section
variable {K : Type} [Field K] [CharZero K]

theorem not_dvd_derivative {π : K[X]} (h : Irreducible π) : ¬ π ∣ derivative π := by
  intro hd
  have h0 : π.natDegree ≠ 0 := h.natDegree_pos.ne'
  have hne : derivative π ≠ 0 := by rw [Ne, derivative_eq_zero]; exact h0
  have h1 := natDegree_le_of_dvd hd hne
  have h2 := natDegree_derivative_lt h0
  omega

theorem not_dvd_derivative_of_sq {π b : K[X]} (h : Irreducible π) (hb : π ∣ b) (hsq : ¬ π * π ∣ b) :
    ¬ π ∣ derivative b := by
  obtain ⟨v, rfl⟩ := hb
  intro hd
  rw [derivative_mul] at hd
  have h1 : π ∣ derivative π * v := (dvd_add_left (Dvd.intro _ rfl)).mp hd
  rcases h.prime.dvd_or_dvd h1 with h2 | h2
  · exact not_dvd_derivative h h2
  · exact hsq (mul_dvd_mul_left _ h2)

/-- invariant of the loop at step `k`; `m` is the multiplicity in the input -/
structure Inv (m : K[X] → ℕ) (k : ℕ) (b d : K[X]) : Prop where
  ne : b ≠ 0
  sq : ∀ π, Irreducible π → ¬ π * π ∣ b
  dvd : ∀ π, Irreducible π → (π ∣ b ↔ k ≤ m π)
  cong : ∀ π, Irreducible π → π ∣ b → π ∣ d - C ((m π - k : ℕ) : K) * derivative b

theorem mult_pow {f : K[X]} (hf : f ≠ 0) {π : K[X]} (h : Irreducible π) :
    ∃ u, f = π ^ multiplicity π f * u ∧ ¬ π ∣ u := by
  have hfin : FiniteMultiplicity π f := FiniteMultiplicity.of_not_isUnit h.not_isUnit hf
  exact hfin.exists_eq_pow_mul_and_not_dvd

theorem dvd_iff_mult {f : K[X]} (hf : f ≠ 0) {π : K[X]} (h : Irreducible π) :
    π ∣ f ↔ 1 ≤ multiplicity π f := by
  have hfin : FiniteMultiplicity π f := FiniteMultiplicity.of_not_isUnit h.not_isUnit hf
  rw [← hfin.pow_dvd_iff_le_multiplicity, pow_one]

theorem init {f a b c : K[X]} (hf : f ≠ 0) (ha : ∀ d, d ∣ a ↔ d ∣ f ∧ d ∣ derivative f)
    (hb : f = b * a) (hc : derivative f = c * a) :
    Inv (fun π => multiplicity π f) 1 b (c - derivative b) := by
  have ha0 : a ≠ 0 := by rintro rfl; simp at hb; exact hf hb
  have hb0 : b ≠ 0 := by rintro rfl; simp at hb; exact hf hb
  -- local structure at a prime dividing `f`
  have key : ∀ π, Irreducible π → π ∣ f → ∃ v w, b = π * v ∧ ¬ π ∣ v ∧
      a = π ^ (multiplicity π f - 1) * w ∧ ¬ π ∣ w := by
    intro π hπ hd
    have hm := (dvd_iff_mult hf hπ).mp hd
    obtain ⟨u, hu, hu'⟩ := mult_pow hf hπ
    obtain ⟨n, hn⟩ : ∃ n, multiplicity π f = n + 1 := ⟨multiplicity π f - 1, by omega⟩
    rw [hn] at hu
    have hder : derivative f = π ^ n * (C ((n + 1 : ℕ) : K) * derivative π * u + π * derivative u) := by
      rw [hu, derivative_mul, derivative_pow]
      simp only [Nat.add_sub_cancel]
      ring
    have h1 : π ^ n ∣ a := by
      rw [ha]
      exact ⟨by rw [hu, pow_succ, mul_assoc]; exact Dvd.intro _ rfl, by rw [hder]; exact Dvd.intro _ rfl⟩
    obtain ⟨w, hw⟩ := h1
    have hπ0 : π ≠ 0 := hπ.ne_zero
    have hw' : ¬ π ∣ w := by
      intro hdw
      have : π ^ (n + 1) ∣ a := by rw [hw, pow_succ]; exact mul_dvd_mul_left _ hdw
      have h2 := ((ha _).mp this).2
      rw [hder, pow_succ] at h2
      have h3 := (mul_dvd_mul_iff_left (pow_ne_zero n hπ0)).mp h2
      have h4 := (dvd_add_left (Dvd.intro _ rfl)).mp h3
      rcases hπ.prime.dvd_or_dvd h4 with h5 | h5
      · rcases hπ.prime.dvd_or_dvd h5 with h6 | h6
        · have hu2 : IsUnit (C ((n + 1 : ℕ) : K)) := by
            rw [isUnit_C]; exact (Nat.cast_ne_zero.mpr (by omega)).isUnit
          exact hπ.not_isUnit (isUnit_of_dvd_unit h6 hu2)
        · exact not_dvd_derivative hπ h6
      · exact hu' h5
    have h3 : π * u = b * w := by
      have : π ^ n * (π * u) = π ^ n * (b * w) := by
        rw [← mul_assoc, ← pow_succ, ← hu, hb, hw]; ring
      exact mul_left_cancel₀ (pow_ne_zero n hπ0) this
    have h4 : π ∣ b := by
      rcases hπ.prime.dvd_or_dvd (h3 ▸ Dvd.intro _ rfl : π ∣ b * w) with h | h
      · exact h
      · exact absurd h hw'
    obtain ⟨v, hv⟩ := h4
    refine ⟨v, w, hv, ?_, by rw [hn]; exact hw, hw'⟩
    intro hdv
    apply hu'
    have : u = v * w := by
      rw [hv, mul_assoc] at h3; exact mul_left_cancel₀ hπ0 h3
    rw [this]; exact hdv.mul_right _
  refine ⟨hb0, ?_, ?_, ?_⟩
  · intro π hπ hd
    have hdf : π ∣ f := by rw [hb]; exact ((Dvd.intro _ rfl).trans hd).mul_right _
    obtain ⟨v, w, h1, h2, -, -⟩ := key π hπ hdf
    rw [h1] at hd
    exact h2 ((mul_dvd_mul_iff_left hπ.ne_zero).mp hd)
  · intro π hπ
    rw [← dvd_iff_mult hf hπ]
    constructor
    · intro h; rw [hb]; exact h.mul_right _
    · intro h
      obtain ⟨v, w, h1, -⟩ := key π hπ h
      rw [h1]; exact Dvd.intro _ rfl
  · intro π hπ hdb
    have hdf : π ∣ f := by rw [hb]; exact hdb.mul_right _
    obtain ⟨v, w, h1, h2, h3, h4⟩ := key π hπ hdf
    set n := multiplicity π f - 1 with hn
    have e1 : a * (c - derivative b) = b * derivative a := by
      have : derivative f = derivative b * a + b * derivative a := by rw [hb, derivative_mul]
      rw [mul_sub, mul_comm a c, ← hc, this]; ring
    have e2 : π * derivative a = π ^ n * (C (n : K) * derivative π * w + π * derivative w) := by
      rw [h3, derivative_mul, derivative_pow]
      cases n with
      | zero => simp
      | succ n => simp only [Nat.add_sub_cancel]; ring
    have e3 : w * (c - derivative b) = v * (C (n : K) * derivative π * w + π * derivative w) := by
      have : π ^ n * (w * (c - derivative b)) =
          π ^ n * (v * (C (n : K) * derivative π * w + π * derivative w)) := by
        calc π ^ n * (w * (c - derivative b)) = a * (c - derivative b) := by rw [h3]; ring
          _ = v * (π * derivative a) := by rw [e1, h1]; ring
          _ = _ := by rw [e2]; ring
      exact mul_left_cancel₀ (pow_ne_zero n hπ.ne_zero) this
    have e4 : π ∣ w * (c - derivative b - C (n : K) * derivative b) := by
      refine ⟨v * derivative w - w * (C (n:K) * derivative v), ?_⟩
      rw [mul_sub, e3, h1, derivative_mul]; ring
    rcases hπ.prime.dvd_or_dvd e4 with h | h
    · exact absurd h h4
    · exact h

theorem step {m : K[X] → ℕ} {k : ℕ} {b d g a b1 c1 : K[X]} (hinv : Inv m k b d)
    (hg : ∀ e, e ∣ g ↔ e ∣ b ∧ e ∣ d) (hag : Associated g a) (hb : b = b1 * a) (hd : d = c1 * a) :
    Inv m (k + 1) b1 (c1 - derivative b1) ∧ Squarefree a ∧
      ∀ π, Irreducible π → (π ∣ a ↔ m π = k) := by
  have hb1 : b1 ≠ 0 := by rintro rfl; simp at hb; exact hinv.ne hb
  have ha0 : a ≠ 0 := by rintro rfl; simp at hb; exact hinv.ne hb
  have hda : ∀ e, e ∣ a ↔ e ∣ b ∧ e ∣ d := fun e => by rw [← hg]; exact hag.dvd_iff_dvd_right.symm
  have hak : ∀ π, Irreducible π → (π ∣ a ↔ m π = k) := by
    intro π hπ
    rw [hda]
    constructor
    · rintro ⟨h1, h2⟩
      have h3 := (hinv.dvd π hπ).mp h1
      have h4 := hinv.cong π hπ h1
      have h5 := (dvd_sub_right h2).mp h4
      by_contra hne
      rcases hπ.prime.dvd_or_dvd h5 with h6 | h6
      · have hu2 : IsUnit (C ((m π - k : ℕ) : K)) := by
          rw [isUnit_C]; exact (Nat.cast_ne_zero.mpr (by omega)).isUnit
        exact hπ.not_isUnit (isUnit_of_dvd_unit h6 hu2)
      · exact not_dvd_derivative_of_sq hπ h1 (hinv.sq π hπ) h6
    · intro h
      have h1 := (hinv.dvd π hπ).mpr h.ge
      have h4 := hinv.cong π hπ h1
      rw [h, Nat.sub_self, Nat.cast_zero, C_0, zero_mul, sub_zero] at h4
      exact ⟨h1, h4⟩
  have hsqa : ∀ π, Irreducible π → ¬ π * π ∣ a := fun π hπ h =>
    hinv.sq π hπ (h.trans ((hda a).mp dvd_rfl).1)
  -- a prime divides only one of `a`, `b1`
  have hex : ∀ π, Irreducible π → π ∣ b1 → ¬ π ∣ a := by
    intro π hπ h1 h2
    exact hinv.sq π hπ (by rw [hb]; exact mul_dvd_mul h1 h2)
  refine ⟨⟨hb1, ?_, ?_, ?_⟩, ?_, hak⟩
  · intro π hπ h
    exact hinv.sq π hπ (by rw [hb]; exact h.mul_right _)
  · intro π hπ
    constructor
    · intro h
      have h1 := (hinv.dvd π hπ).mp (by rw [hb]; exact h.mul_right _)
      have h2 : m π ≠ k := fun h' => hex π hπ h ((hak π hπ).mpr h')
      omega
    · intro h
      have h1 := (hinv.dvd π hπ).mpr (by omega)
      rw [hb] at h1
      rcases hπ.prime.dvd_or_dvd h1 with h2 | h2
      · exact h2
      · have := (hak π hπ).mp h2; omega
  · intro π hπ h
    have hb' : π ∣ b := by rw [hb]; exact h.mul_right _
    have h0 := (hinv.dvd π hπ).mp hb'
    have hne : m π ≠ k := fun h' => hex π hπ h ((hak π hπ).mpr h')
    have h1 := hinv.cong π hπ hb'
    obtain ⟨n, hn⟩ : ∃ n, m π - k = n + 1 := ⟨m π - k - 1, by omega⟩
    rw [hn] at h1
    rw [show m π - (k + 1) = n by omega]
    have h2 : π ∣ a * (c1 - derivative b1 - C (n : K) * derivative b1) := by
      obtain ⟨q, hq⟩ := h1
      obtain ⟨r, hr⟩ := h
      refine ⟨q + C ((n + 1 : ℕ) : K) * derivative a * r, ?_⟩
      have e : d - C ((n + 1 : ℕ) : K) * derivative b =
          a * (c1 - derivative b1 - C (n : K) * derivative b1) -
            C ((n + 1 : ℕ) : K) * derivative a * b1 := by
        rw [hd, hb, derivative_mul]; push_cast; rw [C_add, C_1]; ring
      rw [hq] at e
      calc _ = π * q + C ((n + 1 : ℕ) : K) * derivative a * b1 := by rw [e]; ring
        _ = π * q + C ((n + 1 : ℕ) : K) * derivative a * (π * r) := by rw [← hr]
        _ = _ := by ring
    rcases hπ.prime.dvd_or_dvd h2 with h3 | h3
    · exact absurd h3 (hex π hπ h)
    · exact h3
  · rw [squarefree_iff_irreducible_sq_not_dvd_of_ne_zero ha0]
    exact hsqa

end

end Yun

/-! ### content and primitive part of rational polynomials -/

namespace Poly

/-- the image of a primitive integer polynomial with positive leading coefficient -/
def IsPP (p : ℚ[X]) : Prop :=
  ∃ z : ℤ[X], z.IsPrimitive ∧ 0 < z.leadingCoeff ∧ p = z.map (Int.castRingHom ℚ)

theorem ratGcd_multiple (d a b : ℚ) : IntMultiple d (ratGcd a b) ↔ IntMultiple d a ∧ IntMultiple d b := by
  obtain ⟨h1, h2, h3, -⟩ := C37_gcd_partial a b
  constructor
  · rintro ⟨k, hk⟩
    obtain ⟨k1, hk1⟩ := h1
    obtain ⟨k2, hk2⟩ := h2
    refine ⟨⟨k1 * k, ?_⟩, ⟨k2 * k, ?_⟩⟩
    · push_cast; rw [mul_assoc, ← hk]; exact hk1
    · push_cast; rw [mul_assoc, ← hk]; exact hk2
  · rintro ⟨ha, hb⟩; exact h3 d ha hb

theorem foldl_ratGcd (l : List ℚ) (a d : ℚ) :
    IntMultiple d (l.foldl ratGcd a) ↔ IntMultiple d a ∧ ∀ x ∈ l, IntMultiple d x := by
  induction l generalizing a with
  | nil => simp
  | cons b l ih => rw [List.foldl_cons, ih, ratGcd_multiple]; simp [and_assoc]

theorem intMultiple_neg (d a : ℚ) : IntMultiple d (-a) ↔ IntMultiple d a := by
  constructor
  · rintro ⟨k, hk⟩; exact ⟨-k, by push_cast; linarith⟩
  · rintro ⟨k, hk⟩; exact ⟨-k, by push_cast; linarith⟩

/-- the content of a nonzero rational polynomial -/
theorem rat_content (p : Poly ℚ) (hp : p.toPoly ≠ 0) :
    ∃ c, p.nonzeroContent ratGcd = some c ∧ c ≠ 0 ∧ (0 < c ↔ 0 < p.toPoly.leadingCoeff) ∧
      ∀ d, IntMultiple d c ↔ ∀ i, IntMultiple d (p.toPoly.coeff i) := by
  have hall : ∀ d, (∀ i, IntMultiple d (p.toPoly.coeff i)) ↔ ∀ c ∈ p.coeffs, IntMultiple d c := by
    intro d
    constructor
    · intro h c hc
      obtain ⟨i, -, rfl⟩ := (mem_coeffs_iff p c).mp hc
      exact h i
    · intro h i
      by_cases hi : i < p.len
      · exact h _ ((mem_coeffs_iff p _).mpr ⟨i, hi, rfl⟩)
      · rw [coeff_of_len_le p i (not_lt.mp hi)]; exact ⟨0, by simp⟩
  have hl := highest_eq p
  have hz := coeffs_eq_nil_iff p
  have hlc : p.toPoly.leadingCoeff ≠ 0 := leadingCoeff_ne_zero.mpr hp
  unfold nonzeroContent
  rw [hl]
  simp only [hall]
  cases h : p.coeffs with
  | nil => exact absurd (hz.mp h) hp
  | cons a as =>
    have hdvd : ∀ d, IntMultiple d (as.foldl ratGcd a) ↔ ∀ c ∈ a :: as, IntMultiple d c := by
      intro d; rw [foldl_ratGcd]; simp
    have hne : as.foldl ratGcd a ≠ 0 := by
      intro hg
      have h1 := (hdvd 0).mp ⟨0, by rw [hg]; simp⟩
      have h2 := (hall 0).mpr (by rw [h]; exact h1)
      exact hp (Polynomial.ext fun i => by
        obtain ⟨k, hk⟩ := h2 i
        rw [hk]; simp)
    simp only
    by_cases hs : (decide (p.toPoly.leadingCoeff < 0) != decide (as.foldl ratGcd a < 0)) = true
    · rw [if_pos hs]
      have hs' : ¬ (p.toPoly.leadingCoeff < 0 ↔ as.foldl ratGcd a < 0) := by simpa using hs
      refine ⟨_, rfl, by simpa using hne, ?_, ?_⟩
      · constructor <;> intro h1 <;> by_contra h2 <;> apply hs' <;> constructor <;> intro h3
        · linarith
        · exact lt_of_le_of_ne (not_lt.mp h2) hlc
        · linarith
        · have : 0 < as.foldl ratGcd a ∨ as.foldl ratGcd a < 0 := (lt_or_gt_of_ne hne).symm
          rcases this with h4 | h4
          · linarith
          · exfalso; apply h2; linarith
      · intro d; rw [zero_sub, intMultiple_neg]; exact hdvd d
    · rw [if_neg hs]
      have hs' : (p.toPoly.leadingCoeff < 0 ↔ as.foldl ratGcd a < 0) := by simpa using hs
      refine ⟨_, rfl, hne, ?_, hdvd⟩
      constructor <;> intro h1 <;> by_contra h2
      · have h3 : p.toPoly.leadingCoeff < 0 := lt_of_le_of_ne (not_lt.mp h2) hlc
        have := hs'.mp h3; linarith
      · have h3 : as.foldl ratGcd a < 0 := lt_of_le_of_ne (not_lt.mp h2) hne
        have := hs'.mpr h3; linarith

/-- dividing a nonzero rational polynomial by its content gives a primitive integer polynomial with
positive leading coefficient -/
theorem rat_primitive (p : Poly ℚ) (hp : p.toPoly ≠ 0) :
    ∃ c r, p.nonzeroContent ratGcd = some c ∧ c ≠ 0 ∧ (0 < c ↔ 0 < p.toPoly.leadingCoeff) ∧
      p.divCoeff c = some r ∧ IsPP r.toPoly ∧ p.toPoly = C c * r.toPoly := by
  obtain ⟨c, h1, h2, h3, h4⟩ := rat_content p hp
  obtain ⟨r, h5, h6⟩ := divCoeff_field p c h2
  have hpr : p.toPoly = C c * r.toPoly := by
    rw [h6, mul_comm, mul_assoc, ← C_mul, inv_mul_cancel₀ h2]; simp
  refine ⟨c, r, h1, h2, h3, h5, ?_, hpr⟩
  have hk : ∀ i, ∃ k : ℤ, r.toPoly.coeff i = k := by
    intro i
    obtain ⟨k, hk⟩ := (h4 c).mp ⟨1, by simp⟩ i
    refine ⟨k, ?_⟩
    rw [h6, coeff_mul_C, hk, mul_assoc, mul_inv_cancel₀ h2, mul_one]
  have hz : r.toPoly ∈ Polynomial.lifts (Int.castRingHom ℚ) := by
    rw [Polynomial.lifts_iff_coeff_lifts]
    intro i
    obtain ⟨k, hk⟩ := hk i
    exact ⟨k, by simp [hk]⟩
  obtain ⟨z, hz⟩ := hz
  have hz' : z.map (Int.castRingHom ℚ) = r.toPoly := hz
  refine ⟨z, ?_, ?_, hz'.symm⟩
  · intro e he
    obtain ⟨q, hq⟩ := he
    have : IntMultiple (c * e) c := by
      rw [h4]
      intro i
      refine ⟨q.coeff i, ?_⟩
      rw [hpr, coeff_C_mul, ← hz', coeff_map, hq, coeff_C_mul]
      simp; ring
    obtain ⟨k, hk⟩ := this
    have : (k * e : ℚ) = 1 := by
      have : c * (k * e : ℚ) = c * 1 := by linarith
      exact mul_left_cancel₀ h2 this
    have : k * e = 1 := by exact_mod_cast this
    exact IsUnit.of_mul_eq_one k (by rw [mul_comm]; exact this)
  · have hl : p.toPoly.leadingCoeff = c * (z.leadingCoeff : ℚ) := by
      rw [hpr, leadingCoeff_C_mul_of_isUnit (isUnit_iff_ne_zero.mpr h2), ← hz',
        leadingCoeff_map_of_injective (RingHom.injective_int _)]
      simp
    have hzne : z.leadingCoeff ≠ 0 := by
      intro h0
      rw [h0] at hl
      exact hp (leadingCoeff_eq_zero.mp (by rw [hl]; simp))
    by_contra hneg
    have hzneg : (z.leadingCoeff : ℚ) < 0 := by
      exact_mod_cast lt_of_le_of_ne (not_lt.mp hneg) hzne
    rcases lt_or_gt_of_ne h2 with hc | hc
    · have : 0 < p.toPoly.leadingCoeff := by rw [hl]; exact mul_pos_of_neg_of_neg hc hzneg
      have := h3.mpr this; linarith
    · have := h3.mp hc
      rw [hl] at this
      have := mul_neg_of_pos_of_neg hc hzneg
      linarith

theorem IsPP.ne {p : ℚ[X]} (h : IsPP p) : p ≠ 0 := by
  obtain ⟨z, h1, h2, rfl⟩ := h
  rw [Polynomial.map_ne_zero_iff (RingHom.injective_int _)]
  rintro rfl; simp at h2

theorem IsPP.mul {p q : ℚ[X]} (hp : IsPP p) (hq : IsPP q) : IsPP (p * q) := by
  obtain ⟨z, h1, h2, rfl⟩ := hp
  obtain ⟨w, h3, h4, rfl⟩ := hq
  exact ⟨z * w, h1.mul h3, by rw [leadingCoeff_mul]; exact mul_pos h2 h4, by rw [Polynomial.map_mul]⟩

theorem IsPP.one : IsPP 1 := ⟨1, isPrimitive_one, by simp, by simp⟩

theorem IsPP.pow {p : ℚ[X]} (hp : IsPP p) (n : ℕ) : IsPP (p ^ n) := by
  induction n with
  | zero => rw [pow_zero]; exact IsPP.one
  | succ n ih => rw [pow_succ]; exact ih.mul hp

theorem IsPP.prod {ι : Type} (s : Finset ι) (f : ι → ℚ[X]) (h : ∀ i ∈ s, IsPP (f i)) :
    IsPP (∏ i ∈ s, f i) := by
  classical
  induction s using Finset.induction_on with
  | empty => rw [Finset.prod_empty]; exact IsPP.one
  | insert a s ha ih =>
    rw [Finset.prod_insert ha]
    exact (h a (Finset.mem_insert_self _ _)).mul (ih fun i hi => h i (Finset.mem_insert_of_mem hi))

theorem IsPP.eq_of_dvd {p q : ℚ[X]} (hp : IsPP p) (hq : IsPP q) (h1 : p ∣ q) (h2 : q ∣ p) : p = q := by
  obtain ⟨z, a1, a2, rfl⟩ := hp
  obtain ⟨w, a3, a4, rfl⟩ := hq
  have h3 := (IsPrimitive.Int.dvd_iff_map_cast_dvd_map_cast z w a1).mpr h1
  have h4 := (IsPrimitive.Int.dvd_iff_map_cast_dvd_map_cast w z a3).mpr h2
  obtain ⟨u, hu⟩ := associated_of_dvd_dvd h3 h4
  obtain ⟨e, he, he'⟩ := Polynomial.isUnit_iff.mp u.isUnit
  rw [← he'] at hu
  rcases Int.isUnit_iff.mp he with rfl | rfl
  · rw [← hu]; simp
  · rw [← hu] at a4
    simp at a4
    omega

theorem exact_div {p q : Poly ℚ} (hq : q.toPoly ≠ 0) (h : q.toPoly ∣ p.toPoly) :
    ∃ a, p.div q = some a ∧ p.toPoly = a.toPoly * q.toPoly := by
  obtain ⟨a, h1, h2⟩ := div_field p q hq
  refine ⟨a, h1, ?_⟩
  rw [h2, mul_comm]
  exact (EuclideanDomain.mul_div_cancel' hq h).symm

/-- primitive part of a gcd -/
theorem gcd_primitive (b d : Poly ℚ) (hb : b.toPoly ≠ 0) :
    ∃ g a, gcd b d = some g ∧ g.primitivePart ratGcd = some a ∧ IsPP a.toPoly ∧
      (∀ e, e ∣ g.toPoly ↔ e ∣ b.toPoly ∧ e ∣ d.toPoly) ∧ Associated g.toPoly a.toPoly ∧
      a.toPoly ∣ b.toPoly ∧ a.toPoly ∣ d.toPoly := by
  obtain ⟨g, h1, h2, -⟩ := gcd_spec b d
  have hg : g.toPoly ≠ 0 := by
    intro h0
    have := ((h2 0).mp (by rw [h0])).1
    exact hb (zero_dvd_iff.mp this)
  obtain ⟨c, r, h3, h4, -, h5, h6, h7⟩ := rat_primitive g hg
  have hass : Associated g.toPoly r.toPoly := by
    rw [h7]
    exact (associated_isUnit_mul_left_iff (isUnit_C.mpr h4.isUnit)).mpr (Associated.refl _)
  refine ⟨g, r, h1, ?_, h6, h2, hass, ?_⟩
  · unfold primitivePart; rw [h3]; exact h5
  · exact (h2 _).mp hass.symm.dvd

theorem exists_irreducible_dvd {p : ℚ[X]} (h0 : p ≠ 0) (h : p.natDegree ≠ 0) :
    ∃ π, Irreducible π ∧ π ∣ p :=
  WfDvdMonoid.exists_irreducible_factor (fun hu => h (natDegree_eq_zero_of_isUnit hu)) h0

theorem yunLoop_spec (m : ℚ[X] → ℕ) (fuel : ℕ) :
    ∀ (k : ℕ) (b d : Poly ℚ), Yun.Inv m k b.toPoly d.toPoly → b.toPoly.natDegree ≠ 0 →
      (∀ π, Irreducible π → π ∣ b.toPoly → m π < k + fuel) →
      ∃ l, yunLoop ratGcd fuel b d = some l ∧
        (∀ (i : ℕ) (h : i < l.length), IsPP l[i].toPoly ∧ Squarefree l[i].toPoly ∧
          ∀ π, Irreducible π → (π ∣ l[i].toPoly ↔ m π = k + i)) ∧
        (∀ π, Irreducible π → π ∣ b.toPoly → m π < k + l.length) ∧
        ∃ h : l ≠ [], (l.getLast h).toPoly.natDegree ≠ 0 := by
  induction fuel with
  | zero =>
    intro k b d hinv hdeg hm
    obtain ⟨π, h1, h2⟩ := exists_irreducible_dvd hinv.ne hdeg
    have h3 := hm π h1 h2
    have h4 := (hinv.dvd π h1).mp h2
    omega
  | succ fuel ih =>
    intro k b d hinv hdeg hm
    obtain ⟨g, a, h1, h2, h3, h4, h5, h6, h7⟩ := gcd_primitive b d hinv.ne
    obtain ⟨b1, e1, e2⟩ := exact_div h3.ne h6
    obtain ⟨c1, e3, e4⟩ := exact_div h3.ne h7
    obtain ⟨i1, i2, i3⟩ := Yun.step hinv h4 h5 e2 e4
    have hlen := len_of_ne b1 i1.ne
    unfold yunLoop
    rw [h1]; simp only
    rw [h2]; simp only
    rw [e1, e3]; simp only
    by_cases hl : b1.len = 1
    · rw [if_pos hl]
      have hcon : b1.toPoly.natDegree = 0 := by omega
      refine ⟨[a], rfl, ?_, ?_, by simp, ?_⟩
      · intro i hi
        have : i = 0 := by simpa using hi
        subst this
        exact ⟨h3, i2, by simpa using i3⟩
      · intro π hπ hd
        have hk := (hinv.dvd π hπ).mp hd
        have hn : ¬ k + 1 ≤ m π := by
          rw [← i1.dvd π hπ]
          intro hd1
          have := natDegree_le_of_dvd hd1 i1.ne
          have := hπ.natDegree_pos
          omega
        simp only [List.length_cons, List.length_nil]
        omega
      · simp only [List.getLast_singleton]
        intro hz
        apply hdeg
        rw [e2, natDegree_mul i1.ne h3.ne]; omega
    · rw [if_neg hl]
      have hdeg1 : b1.toPoly.natDegree ≠ 0 := by omega
      obtain ⟨l, j1, j2, j3, j4, j5⟩ := ih (k + 1) b1 (c1 - b1.derivative)
        (by rw [toPoly_sub, toPoly_derivative]; exact i1) hdeg1 (by
          intro π hπ hd
          have := hm π hπ (by rw [e2]; exact hd.mul_right _)
          omega)
      rw [j1]
      refine ⟨a :: l, rfl, ?_, ?_, by simp, ?_⟩
      · intro i hi
        cases i with
        | zero => exact ⟨h3, i2, by simpa using i3⟩
        | succ i =>
          obtain ⟨k1, k2, k3⟩ := j2 i (by simpa using hi)
          refine ⟨k1, k2, ?_⟩
          intro π hπ
          simp only [List.getElem_cons_succ]
          rw [k3 π hπ]; omega
      · intro π hπ hd
        simp only [List.length_cons]
        by_cases hd1 : π ∣ b1.toPoly
        · have := j3 π hπ hd1; omega
        · have := mt (i1.dvd π hπ).mpr hd1; omega
      · rw [List.getLast_cons j4]; exact j5

theorem yun_spec (p : Poly ℚ) (hp : p.toPoly.natDegree ≠ 0) :
    ∃ c l, yun ratGcd p = some (c, l) ∧ c ≠ 0 ∧ (0 < c ↔ 0 < p.toPoly.leadingCoeff) ∧
      (∀ (i : ℕ) (h : i < l.length), IsPP l[i].toPoly ∧ Squarefree l[i].toPoly) ∧
      (∀ (i j : ℕ) (hi : i < l.length) (hj : j < l.length), i ≠ j →
        IsCoprime l[i].toPoly l[j].toPoly) ∧
      p.toPoly = C c * ∏ i : Fin l.length, l[i].toPoly ^ (i.val + 1) ∧
      (∃ h : l ≠ [], (l.getLast h).toPoly.natDegree ≠ 0) ∧
      ∀ (i : ℕ) (hi : i < l.length) (π : ℚ[X]), Irreducible π →
        (π ∣ l[i].toPoly ↔ π ^ (i + 1) ∣ p.toPoly ∧ ¬ π ^ (i + 2) ∣ p.toPoly) := by
  have hp0 : p.toPoly ≠ 0 := by rintro h; rw [h] at hp; simp at hp
  obtain ⟨c, f, h1, h2, h3, h4, h5, h6⟩ := rat_primitive p hp0
  have hdf : f.toPoly.natDegree = p.toPoly.natDegree := by
    rw [h6, natDegree_C_mul h2]
  obtain ⟨g, a, g1, g2, g3, g4, g5, g6, g7⟩ := gcd_primitive f f.derivative h5.ne
  obtain ⟨b, e1, e2⟩ := exact_div g3.ne g6
  obtain ⟨c1, e3, e4⟩ := exact_div g3.ne g7
  rw [toPoly_derivative] at e4
  have hinv := Yun.init (a := a.toPoly) h5.ne (fun d => by
    rw [← g5.dvd_iff_dvd_right, g4, toPoly_derivative]) e2 e4
  have hb : b.toPoly.natDegree ≠ 0 := by
    obtain ⟨π, k1, k2⟩ := exists_irreducible_dvd h5.ne (by rw [hdf]; exact hp)
    have k3 := (Yun.dvd_iff_mult h5.ne k1).mp k2
    have k4 := (hinv.dvd π k1).mpr k3
    have := natDegree_le_of_dvd k4 hinv.ne
    have := k1.natDegree_pos
    omega
  have hplen := len_of_ne p hp0
  obtain ⟨l, j1, j2, j3, j4⟩ := yunLoop_spec (fun π => multiplicity π f.toPoly) (b.len + p.len) 1 b
    (c1 - b.derivative) (by rw [toPoly_sub, toPoly_derivative]; exact hinv) hb (by
      intro π hπ hd
      have hfin : FiniteMultiplicity π f.toPoly := FiniteMultiplicity.of_not_isUnit hπ.not_isUnit h5.ne
      have k1 : π ^ multiplicity π f.toPoly ∣ f.toPoly := pow_multiplicity_dvd π f.toPoly
      have k2 := natDegree_le_of_dvd k1 h5.ne
      rw [natDegree_pow, hdf] at k2
      have k3 := hπ.natDegree_pos
      have : multiplicity π f.toPoly ≤ p.toPoly.natDegree := le_trans (Nat.le_mul_of_pos_right _ k3) k2
      omega)
  refine ⟨c, l, ?_, h2, h3, fun i hi => ⟨(j2 i hi).1, (j2 i hi).2.1⟩, ?_, ?_, j4, ?_⟩
  · unfold yun
    rw [if_neg (by
      rw [degree_eq, if_neg hp0]
      exact hp)]
    simp only [content, h1, Option.getD_some]
    rw [h4]; simp only
    rw [g1]; simp only
    rw [g2]; simp only
    rw [e1, e3]; simp only
    rw [j1]; rfl
  · intro i j hi hj hij
    rw [← EuclideanDomain.gcd_isUnit_iff]
    by_contra hu
    obtain ⟨π, k1, k2⟩ := WfDvdMonoid.exists_irreducible_factor hu (by
      intro h0
      rw [EuclideanDomain.gcd_eq_zero_iff] at h0
      exact (j2 i hi).1.ne h0.1)
    have k3 := ((j2 i hi).2.2 π k1).mp (k2.trans (EuclideanDomain.gcd_dvd_left _ _))
    have k4 := ((j2 j hj).2.2 π k1).mp (k2.trans (EuclideanDomain.gcd_dvd_right _ _))
    omega
  · rw [h6]
    congr 1
    have hpp : IsPP (∏ i : Fin l.length, l[i].toPoly ^ (i.val + 1)) :=
      IsPP.prod _ _ fun i _ => (j2 i i.2).1.pow _
    have hmul : ∀ π : ℚ[X], Prime π →
        emultiplicity π (∏ i : Fin l.length, l[i].toPoly ^ (i.val + 1)) =
          emultiplicity π f.toPoly := by
      intro π hπ
      rw [Finset.emultiplicity_prod hπ]
      have hfin : FiniteMultiplicity π f.toPoly :=
        FiniteMultiplicity.of_not_isUnit hπ.not_isUnit h5.ne
      have hterm : ∀ i : Fin l.length, emultiplicity π (l[i].toPoly ^ (i.val + 1)) =
          if multiplicity π f.toPoly = 1 + i.val then ((1 + i.val : ℕ) : ℕ∞) else 0 := by
        intro i
        obtain ⟨k1, k2, k3⟩ := j2 i i.2
        have k3 := k3 π hπ.irreducible
        rw [emultiplicity_pow hπ]
        by_cases hm : multiplicity π f.toPoly = 1 + i.val
        · rw [if_pos hm]
          have k4 := k3.mpr hm
          have k5 : emultiplicity π l[i.val].toPoly = 1 := by
            apply le_antisymm
            · rcases (squarefree_iff_emultiplicity_le_one _).mp k2 π with h | h
              · exact h
              · exact absurd h hπ.not_isUnit
            · rw [← Nat.cast_one]
              exact le_emultiplicity_of_pow_dvd (by rw [pow_one]; exact k4)
          have k6 : emultiplicity π l[i].toPoly = 1 := k5
          rw [k6, mul_one, add_comm]
        · rw [if_neg hm]
          have k4 : ¬ π ∣ l[i].toPoly := fun h => hm (k3.mp h)
          rw [emultiplicity_eq_zero.mpr k4, mul_zero]
      rw [Finset.sum_congr rfl fun i _ => hterm i, hfin.emultiplicity_eq_multiplicity]
      by_cases hd : π ∣ f.toPoly
      · have k1 := (Yun.dvd_iff_mult h5.ne hπ.irreducible).mp hd
        have k2 := j3 π hπ.irreducible ((hinv.dvd π hπ.irreducible).mpr k1)
        rw [Finset.sum_eq_single (⟨multiplicity π f.toPoly - 1, by omega⟩ : Fin l.length)]
        · simp only
          rw [if_pos (by omega)]
          congr 1; omega
        · intro i _ hi
          rw [if_neg]
          intro h
          apply hi
          apply Fin.ext
          simp only; omega
        · intro h; exact absurd (Finset.mem_univ _) h
      · have k1 : multiplicity π f.toPoly = 0 := multiplicity_eq_zero.mpr hd
        rw [k1]
        simp
        omega
    apply IsPP.eq_of_dvd h5 hpp
    · rw [UniqueFactorizationMonoid.dvd_iff_emultiplicity_le h5.ne]
      intro π hπ; rw [hmul π hπ]
    · rw [UniqueFactorizationMonoid.dvd_iff_emultiplicity_le hpp.ne]
      intro π hπ; rw [hmul π hπ]
  · intro i hi π hπ
    have hcu : IsUnit (C c : ℚ[X]) := isUnit_C.mpr h2.isUnit
    have hfin : FiniteMultiplicity π f.toPoly := FiniteMultiplicity.of_not_isUnit hπ.not_isUnit h5.ne
    rw [(j2 i hi).2.2 π hπ, h6, hcu.dvd_mul_left, hcu.dvd_mul_left,
      hfin.pow_dvd_iff_le_multiplicity, hfin.pow_dvd_iff_le_multiplicity]
    omega

/-- `is_square_free` over a perfect field -/
theorem isSquareFree_spec {K : Type} [Field K] [DecidableEq K] [PolyCoeff K] [ExactDivCoeff K]
    [LawfulExactDiv K] [PerfectField K] (p : Poly K) (hp : p.toPoly ≠ 0) :
    ∃ b, p.isSquareFree = some b ∧ (b = true ↔ Squarefree p.toPoly) := by
  obtain ⟨g, h1, h2, -⟩ := gcd_spec p p.derivative
  unfold isSquareFree
  rw [h1]
  refine ⟨_, rfl, ?_⟩
  have hg : g.toPoly ≠ 0 := by
    intro h0
    exact hp (zero_dvd_iff.mp ((h2 0).mp (by rw [h0])).1)
  show decide (g.degree.getD 0 = 0) = true ↔ _
  rw [degree_eq, if_neg hg, ← PerfectField.separable_iff_squarefree, separable_def]
  simp only [Option.getD_some, decide_eq_true_eq]
  rw [toPoly_derivative] at h2
  constructor
  · intro h
    rw [← EuclideanDomain.gcd_isUnit_iff]
    have hu : IsUnit g.toPoly := by
      rw [Polynomial.isUnit_iff_degree_eq_zero, degree_eq_natDegree hg, h]; rfl
    exact isUnit_of_dvd_unit ((h2 _).mpr ⟨EuclideanDomain.gcd_dvd_left _ _,
      EuclideanDomain.gcd_dvd_right _ _⟩) hu
  · intro h
    obtain ⟨k1, k2⟩ := (h2 _).mp dvd_rfl
    exact natDegree_eq_zero_of_isUnit (h.isUnit_of_dvd' k1 k2)

end Poly

end Algebraics
