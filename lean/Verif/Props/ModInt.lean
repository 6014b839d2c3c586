import Verif.Model.ModInt
import Mathlib.Data.ZMod.Basic

/-!
# Properties of modular integers (C31, C32, C33)

The specification is the ring of integers: a modular integer with modulus `m > 0` stands for a residue
class, represented by the unique member of `[0, m)`.
-/

namespace Algebraics

open ModInt

/-- a modular integer of type `t`: positive modulus, reduced value, both representable -/
def ModInt.Valid (t : IntTy) (a : ModInt) : Prop :=
  t.fits a.modulus ∧ 0 < a.modulus ∧ 0 ≤ a.value ∧ a.value < a.modulus

theorem IntTy.fits_of_le {t : IntTy} {m v : ℤ} (hm : t.fits m) (h0 : 0 ≤ v) (h : v ≤ m) : t.fits v := by
  cases t with
  | signed n =>
    unfold IntTy.fits at *
    have : (0:ℤ) < 2 ^ (n - 1) := by positivity
    constructor <;> linarith [hm.1, hm.2]
  | unsigned n => unfold IntTy.fits at *; exact ⟨h0, by linarith [hm.2]⟩
  | bigInt => trivial
  | bigUint => exact h0

theorem IntTy.wide_fits {t : IntTy} (ht : t.Instantiated) {m v : ℤ} (hm : t.fits m) (h0 : 0 ≤ v)
    (h : v ≤ 2 * m ∨ v ≤ m * m) (hm0 : 0 ≤ m) : t.wide.fits v := by
  cases t with
  | signed n =>
    unfold IntTy.fits at hm
    unfold IntTy.wide
    have key : ∀ k : ℕ, 1 ≤ k → m < 2 ^ k → -(2:ℤ) ^ (2 * k + 1) ≤ v ∧ v < 2 ^ (2 * k + 1) := by
      intro k hk hmk
      have hp : (1:ℤ) ≤ 2 ^ k := by exact_mod_cast Nat.one_le_two_pow
      have h2 : (2:ℤ) ≤ 2 ^ k := by
        calc (2:ℤ) = 2 ^ 1 := by norm_num
          _ ≤ 2 ^ k := pow_le_pow_right₀ (by norm_num) hk
      have e : (2:ℤ) ^ (2 * k + 1) = 2 * (2 ^ k * 2 ^ k) := by ring
      rw [e]
      constructor
      · nlinarith
      · rcases h with h | h <;> nlinarith
    rcases ht with rfl | rfl | rfl | rfl | rfl
    · have := key 7 (by norm_num) (by simpa using hm.2); simpa [IntTy.fits] using this
    · have := key 15 (by norm_num) (by simpa using hm.2); simpa [IntTy.fits] using this
    · have := key 31 (by norm_num) (by simpa using hm.2); simpa [IntTy.fits] using this
    · have := key 63 (by norm_num) (by simpa using hm.2); simpa [IntTy.fits] using this
    · simp [IntTy.fits]
  | unsigned n =>
    unfold IntTy.fits at hm
    unfold IntTy.wide
    have key : ∀ k : ℕ, 1 ≤ k → m < 2 ^ k → 0 ≤ v ∧ v < 2 ^ (2 * k) := by
      intro k hk hmk
      have hp : (1:ℤ) ≤ 2 ^ k := by exact_mod_cast Nat.one_le_two_pow
      have h2 : (2:ℤ) ≤ 2 ^ k := by
        calc (2:ℤ) = 2 ^ 1 := by norm_num
          _ ≤ 2 ^ k := pow_le_pow_right₀ (by norm_num) hk
      have e : (2:ℤ) ^ (2 * k) = 2 ^ k * 2 ^ k := by ring
      rw [e]
      refine ⟨h0, ?_⟩
      rcases h with h | h <;> nlinarith
    rcases ht with rfl | rfl | rfl | rfl | rfl
    · have := key 8 (by norm_num) (by simpa using hm.2); simpa [IntTy.fits] using this
    · have := key 16 (by norm_num) (by simpa using hm.2); simpa [IntTy.fits] using this
    · have := key 32 (by norm_num) (by simpa using hm.2); simpa [IntTy.fits] using this
    · have := key 64 (by norm_num) (by simpa using hm.2); simpa [IntTy.fits] using this
    · simpa [IntTy.fits] using h0
  | bigInt => trivial
  | bigUint => exact h0

theorem ModInt.check_mod {t : IntTy} {m : ℤ} (hm : t.fits m) (h0 : 0 < m) (v : ℤ) :
    t.check (v % m) = some (v % m) := by
  unfold IntTy.check
  rw [if_pos (IntTy.fits_of_le hm (Int.emod_nonneg _ h0.ne') (Int.emod_lt_of_pos _ h0).le)]

theorem ModInt.modularReduce_eq {t : IntTy} {m : ℤ} (hm : t.fits m) (h0 : 0 < m) (v : ℤ) :
    modularReduce t v m = some (v % m) := by
  unfold modularReduce
  rw [if_neg h0.ne', if_neg (fun h => by have := h.1; omega), Int.fmod_eq_emod_of_nonneg _ h0.le, check_mod hm h0]

theorem ModInt.modularAdd_eq {t : IntTy} (ht : t.Instantiated) {a b m : ℤ} (hm : t.fits m) (h0 : 0 < m)
    (ha : 0 ≤ a) (ha' : a < m) (hb : 0 ≤ b) (hb' : b < m) :
    modularAdd t a b m = some ((a + b) % m) := by
  unfold modularAdd
  have : t.wide.check (a + b) = some (a + b) := by
    unfold IntTy.check
    rw [if_pos (IntTy.wide_fits ht hm (by omega) (Or.inl (by omega)) h0.le)]
  rw [this]
  simp only
  rw [if_neg h0.ne', Int.tmod_eq_emod_of_nonneg (by omega), check_mod hm h0]

theorem ModInt.modularMul_eq {t : IntTy} (ht : t.Instantiated) {a b m : ℤ} (hm : t.fits m) (h0 : 0 < m)
    (ha : 0 ≤ a) (ha' : a < m) (hb : 0 ≤ b) (hb' : b < m) :
    modularMul t a b m = some ((a * b) % m) := by
  unfold modularMul
  have h1 : 0 ≤ a * b := mul_nonneg ha hb
  have : t.wide.check (a * b) = some (a * b) := by
    unfold IntTy.check
    rw [if_pos (IntTy.wide_fits ht hm h1 (Or.inr (mul_le_mul ha'.le hb'.le hb h0.le)) h0.le)]
  rw [this]
  simp only
  rw [if_neg h0.ne', Int.tmod_eq_emod_of_nonneg h1, check_mod hm h0]

theorem ModInt.modularNeg_eq {t : IntTy} {a m : ℤ} (hm : t.fits m) 
    (ha : 0 ≤ a) (ha' : a < m) : modularNeg t a m = some ((-a) % m) := by
  unfold modularNeg
  have : t.check (m - a) = some (m - a) := by
    unfold IntTy.check
    rw [if_pos (IntTy.fits_of_le hm (by omega) (by omega))]
  rw [this]
  simp only
  by_cases h : m - a = m
  · have : a = 0 := by omega
    rw [if_pos h, this]; simp
  · rw [if_neg h]
    congr 1
    have e : (-a) % m = (-a + m) % m := by simp
    rw [e, Int.emod_eq_of_lt (by omega) (by omega)]; ring

theorem ModInt.modularSub_eq {t : IntTy} (ht : t.Instantiated) {a b m : ℤ} (hm : t.fits m) (h0 : 0 < m)
    (ha : 0 ≤ a) (ha' : a < m) (hb : 0 ≤ b) (hb' : b < m) :
    modularSub t a b m = some ((a - b) % m) := by
  unfold modularSub
  rw [modularNeg_eq hm hb hb']
  simp only
  rw [modularAdd_eq ht hm h0 ha ha' (Int.emod_nonneg _ h0.ne') (Int.emod_lt_of_pos _ h0)]
  congr 1
  rw [Int.add_emod, Int.emod_emod, ← Int.add_emod, sub_eq_add_neg]

/-! ## C31 -/

/-- C31: `new` never panics for a positive modulus and stores the representative in `[0, m)` that is
congruent to the value; `from_*` do the same for every integer. -/
theorem C31_new (t : IntTy) (v m : ℤ) (hm : t.fits m) (h0 : 0 < m) :
    ∃ x, ModInt.new t v m = some x ∧ ModInt.ofBigint t v m = some x ∧ x.Valid t ∧ x.modulus = m ∧
      x.value ≡ v [ZMOD m] := by
  refine ⟨⟨v % m, m⟩, ?_, ?_, ⟨hm, h0, Int.emod_nonneg _ h0.ne', Int.emod_lt_of_pos _ h0⟩, rfl,
    Int.mod_modEq _ _⟩
  · unfold new; rw [modularReduce_eq hm h0]; rfl
  · unfold ofBigint reduceFromBigint
    rw [if_neg h0.ne', Int.fmod_eq_emod_of_nonneg _ h0.le, check_mod hm h0]; rfl

/-- C31: equality of modular integers is congruence of the integers they were made from. -/
theorem C31_eq_iff_congruent (t : IntTy) (v w m : ℤ) (hm : t.fits m) (h0 : 0 < m) :
    ModInt.new t v m = ModInt.new t w m ↔ v ≡ w [ZMOD m] := by
  unfold new
  rw [modularReduce_eq hm h0, modularReduce_eq hm h0]
  simp [Int.ModEq]

/-- C31: addition never overflows the machine type, returns a reduced value, and is addition of residue
classes. -/
theorem C31_add (t : IntTy) (ht : t.Instantiated) (x y : ModInt) (hx : x.Valid t) (hy : y.Valid t)
    (h : x.modulus = y.modulus) :
    ∃ z, ModInt.add t x y = some z ∧ z.Valid t ∧ z.modulus = x.modulus ∧
      z.value ≡ x.value + y.value [ZMOD x.modulus] := by
  obtain ⟨hm, h0, h1, h2⟩ := hx
  obtain ⟨-, -, h3, h4⟩ := hy
  refine ⟨⟨(x.value + y.value) % x.modulus, x.modulus⟩, ?_,
    ⟨hm, h0, Int.emod_nonneg _ h0.ne', Int.emod_lt_of_pos _ h0⟩, rfl, Int.mod_modEq _ _⟩
  unfold add
  rw [if_pos h, modularAdd_eq ht hm h0 h1 h2 h3 (by omega)]; rfl

/-- C31: subtraction. -/
theorem C31_sub (t : IntTy) (ht : t.Instantiated) (x y : ModInt) (hx : x.Valid t) (hy : y.Valid t)
    (h : x.modulus = y.modulus) :
    ∃ z, ModInt.sub t x y = some z ∧ z.Valid t ∧ z.modulus = x.modulus ∧
      z.value ≡ x.value - y.value [ZMOD x.modulus] := by
  obtain ⟨hm, h0, h1, h2⟩ := hx
  obtain ⟨-, -, h3, h4⟩ := hy
  refine ⟨⟨(x.value - y.value) % x.modulus, x.modulus⟩, ?_,
    ⟨hm, h0, Int.emod_nonneg _ h0.ne', Int.emod_lt_of_pos _ h0⟩, rfl, Int.mod_modEq _ _⟩
  unfold sub
  rw [if_pos h, modularSub_eq ht hm h0 h1 h2 h3 (by omega)]; rfl

/-- C31: multiplication. -/
theorem C31_mul (t : IntTy) (ht : t.Instantiated) (x y : ModInt) (hx : x.Valid t) (hy : y.Valid t)
    (h : x.modulus = y.modulus) :
    ∃ z, ModInt.mul t x y = some z ∧ z.Valid t ∧ z.modulus = x.modulus ∧
      z.value ≡ x.value * y.value [ZMOD x.modulus] := by
  obtain ⟨hm, h0, h1, h2⟩ := hx
  obtain ⟨-, -, h3, h4⟩ := hy
  refine ⟨⟨(x.value * y.value) % x.modulus, x.modulus⟩, ?_,
    ⟨hm, h0, Int.emod_nonneg _ h0.ne', Int.emod_lt_of_pos _ h0⟩, rfl, Int.mod_modEq _ _⟩
  unfold mul
  rw [if_pos h, modularMul_eq ht hm h0 h1 h2 h3 (by omega)]; rfl

/-- C31: negation. -/
theorem C31_neg (t : IntTy) (x : ModInt) (hx : x.Valid t) :
    ∃ z, ModInt.neg t x = some z ∧ z.Valid t ∧ z.modulus = x.modulus ∧
      z.value ≡ -x.value [ZMOD x.modulus] := by
  obtain ⟨hm, h0, h1, h2⟩ := hx
  refine ⟨⟨(-x.value) % x.modulus, x.modulus⟩, ?_,
    ⟨hm, h0, Int.emod_nonneg _ h0.ne', Int.emod_lt_of_pos _ h0⟩, rfl, Int.mod_modEq _ _⟩
  unfold neg
  rw [modularNeg_eq hm h1 h2]; rfl

/-- C31: multiplication by a machine integer, the operation polynomial derivatives use. -/
theorem C31_mul_by_usize (t : IntTy) (ht : t.Instantiated) (x : ModInt) (n : ℕ) (hx : x.Valid t) :
    ∃ z, ModInt.mulByUsize t x n = some z ∧ z.Valid t ∧ z.modulus = x.modulus ∧
      z.value ≡ x.value * n [ZMOD x.modulus] := by
  obtain ⟨hm, h0, h1, h2⟩ := hx
  refine ⟨⟨(x.value * (n % x.modulus)) % x.modulus, x.modulus⟩, ?_,
    ⟨hm, h0, Int.emod_nonneg _ h0.ne', Int.emod_lt_of_pos _ h0⟩, rfl, ?_⟩
  · unfold mulByUsize reduceFromBigint
    rw [if_neg h0.ne', Int.fmod_eq_emod_of_nonneg _ h0.le, check_mod hm h0]
    simp only
    rw [modularMul_eq ht hm h0 h1 h2 (Int.emod_nonneg _ h0.ne') (Int.emod_lt_of_pos _ h0)]; rfl
  · exact (Int.mod_modEq _ _).trans ((Int.mod_modEq _ _).mul_left _)

/-- C31: operands with different moduli are rejected by every operation. -/
theorem C31_mismatch (t : IntTy) (x y : ModInt) (h : x.modulus ≠ y.modulus) :
    ModInt.add t x y = none ∧ ModInt.sub t x y = none ∧ ModInt.mul t x y = none := by
  unfold add sub mul
  simp [h]

/-- C31: reduction to `ZMod m` is a bijection on valid modular integers compatible with all operations;
this is the sense in which the polynomial model uses `ZMod m` for its coefficients. -/
theorem C31_zmod (t : IntTy) (ht : t.Instantiated) (m : ℕ) (hm : t.fits m) (h0 : 0 < m) :
    (∀ x : ZMod m, ∃! a : ModInt, a.Valid t ∧ a.modulus = m ∧ ((a.value : ℤ) : ZMod m) = x) ∧
    (∀ a b c : ModInt, a.Valid t → b.Valid t → a.modulus = m → b.modulus = m →
      (ModInt.add t a b = some c → ((c.value : ℤ) : ZMod m) = a.value + b.value) ∧
      (ModInt.sub t a b = some c → ((c.value : ℤ) : ZMod m) = a.value - b.value) ∧
      (ModInt.mul t a b = some c → ((c.value : ℤ) : ZMod m) = a.value * b.value) ∧
      (ModInt.neg t a = some c → ((c.value : ℤ) : ZMod m) = -a.value)) := by
  have h0' : (0:ℤ) < m := by exact_mod_cast h0
  have : NeZero m := ⟨h0.ne'⟩
  constructor
  · intro x
    refine ⟨⟨x.val, m⟩, ⟨⟨hm, h0', by positivity, Int.ofNat_lt.mpr (ZMod.val_lt x)⟩, rfl, by simp⟩, ?_⟩
    rintro ⟨v, m'⟩ ⟨⟨h1, h2, h3, h4⟩, h5, h6⟩
    simp only at h1 h2 h3 h4 h5 h6
    subst h5
    congr 1
    rw [← h6, ZMod.val_intCast, Int.emod_eq_of_lt h3 h4]
  · intro a b c ha hb hma hmb
    have e : a.modulus = b.modulus := by rw [hma, hmb]
    refine ⟨?_, ?_, ?_, ?_⟩ <;> intro hc
    · obtain ⟨z, h1, -, -, h2⟩ := C31_add t ht a b ha hb e
      rw [hc] at h1; obtain rfl := Option.some.inj h1
      rw [hma] at h2
      have := (ZMod.intCast_eq_intCast_iff _ _ _).mpr h2
      simpa using this
    · obtain ⟨z, h1, -, -, h2⟩ := C31_sub t ht a b ha hb e
      rw [hc] at h1; obtain rfl := Option.some.inj h1
      rw [hma] at h2
      have := (ZMod.intCast_eq_intCast_iff _ _ _).mpr h2
      simpa using this
    · obtain ⟨z, h1, -, -, h2⟩ := C31_mul t ht a b ha hb e
      rw [hc] at h1; obtain rfl := Option.some.inj h1
      rw [hma] at h2
      have := (ZMod.intCast_eq_intCast_iff _ _ _).mpr h2
      simpa using this
    · obtain ⟨z, h1, -, -, h2⟩ := C31_neg t a ha
      rw [hc] at h1; obtain rfl := Option.some.inj h1
      rw [hma] at h2
      have := (ZMod.intCast_eq_intCast_iff _ _ _).mpr h2
      simpa using this

/-- C31: with a modulus of zero values are kept as they are, and every addition, subtraction and
multiplication panics. -/
theorem C31_zero_modulus (t : IntTy) (v w : ℤ) :
    ModInt.new t v 0 = some ⟨v, 0⟩ ∧ ModInt.add t ⟨v, 0⟩ ⟨w, 0⟩ = none ∧
      ModInt.sub t ⟨v, 0⟩ ⟨w, 0⟩ = none ∧ ModInt.mul t ⟨v, 0⟩ ⟨w, 0⟩ = none := by
  refine ⟨by simp [new, modularReduce], ?_, ?_, ?_⟩
  · unfold add modularAdd
    simp only [if_true]
    cases t.wide.check (v + w) <;> rfl
  · unfold sub modularSub
    simp only [if_true]
    cases modularNeg t w 0 with
    | none => rfl
    | some nb =>
      simp only [modularAdd]
      cases t.wide.check (v + nb) <;> rfl
  · unfold mul modularMul
    simp only [if_true]
    cases t.wide.check (v * w) <;> rfl

/-- C31 fails for negative moduli: `new` reduces into `(m, 0]`, but the product of two reduced values
can leave that range, so equal classes get different representations; and the remainder of the least
machine integer by -1 overflows. -/
theorem C31_negative_modulus_false :
    ModInt.new .bigInt 4 (-5) = some ⟨-1, -5⟩ ∧
      ModInt.mul .bigInt ⟨-1, -5⟩ ⟨-1, -5⟩ = some ⟨1, -5⟩ ∧
      ModInt.new .bigInt (4 * 4) (-5) = some ⟨-4, -5⟩ ∧
      ModInt.new (.signed 8) (-128) (-1) = none ∧ ModInt.new (.signed 8) (-127) (-1) = some ⟨0, -1⟩ := by
  decide +kernel

example : IntTy.Instantiated (.signed 8) ∧ (⟨126, 127⟩ : ModInt).Valid (.signed 8) ∧
    ModInt.mul (.signed 8) ⟨126, 127⟩ ⟨125, 127⟩ = some ⟨2, 127⟩ ∧
    ModInt.add (.signed 8) ⟨126, 127⟩ ⟨125, 127⟩ = some ⟨124, 127⟩ ∧
    ModInt.sub (.signed 8) ⟨5, 127⟩ ⟨125, 127⟩ = some ⟨7, 127⟩ ∧
    ModInt.neg (.unsigned 8) ⟨200, 255⟩ = some ⟨55, 255⟩ := by
  refine ⟨Or.inl rfl, ?_, ?_⟩
  · unfold ModInt.Valid IntTy.fits; norm_num
  · decide +kernel

/-! ## C32 -/

/-- C32: for a modulus of at least two `checked_inverse` succeeds exactly when value and modulus are
coprime, and then returns a reduced inverse. -/
theorem C32_inverse (t : IntTy) (ext : ℤ → ℤ → ExtGcd) (hext : IsExtGcd ext)
    (a : ModInt) (ha : a.Valid t) (h2 : 2 ≤ a.modulus) :
    (Int.gcd a.value a.modulus = 1 →
      ∃ b, checkedInverse t ext a = some b ∧ b.Valid t ∧ b.modulus = a.modulus ∧
        a.value * b.value ≡ 1 [ZMOD a.modulus]) ∧
    (Int.gcd a.value a.modulus ≠ 1 → checkedInverse t ext a = none) := by
  obtain ⟨hm, h0, h1, h3⟩ := ha
  obtain ⟨e1, e2⟩ := hext a.value a.modulus
  unfold checkedInverse
  constructor
  · intro hg
    have hv : a.value ≠ 0 := by
      intro hv
      rw [hv, Int.gcd_zero_left] at hg
      omega
    rw [if_neg hv]
    simp only
    rw [if_pos (by rw [e1, hg]; rfl)]
    obtain ⟨x, k1, -, k2, k3, k4⟩ := C31_new t (ext a.value a.modulus).x a.modulus hm h0
    refine ⟨x, k1, k2, k3, ?_⟩
    have : a.value * (ext a.value a.modulus).x ≡ 1 [ZMOD a.modulus] := by
      have e3 : a.value * (ext a.value a.modulus).x = 1 - (ext a.value a.modulus).y * a.modulus := by
        have : (ext a.value a.modulus).gcd = 1 := by rw [e1, hg]; rfl
        rw [this] at e2; linarith
      rw [e3]
      exact (Int.modEq_iff_dvd.mpr ⟨(ext a.value a.modulus).y, by ring⟩)
    exact (k4.mul_left _).trans this
  · intro hg
    by_cases hv : a.value = 0
    · rw [if_pos hv]
    · rw [if_neg hv]
      simp only
      rw [if_neg]
      rw [e1]
      exact_mod_cast hg

/-- C32: division is the solution of `y·q = x` whenever the divisor is invertible, and fails (panic or
`None`) otherwise. -/
theorem C32_div (t : IntTy) (ht : t.Instantiated) (ext : ℤ → ℤ → ExtGcd) (hext : IsExtGcd ext)
    (x y : ModInt) (hx : x.Valid t) (hy : y.Valid t) (hxy : x.modulus = y.modulus) (h2 : 2 ≤ y.modulus) :
    (Int.gcd y.value y.modulus = 1 →
      ∃ q, ModInt.div t ext x y = some q ∧ q.Valid t ∧ q.modulus = y.modulus ∧
        y.value * q.value ≡ x.value [ZMOD y.modulus]) ∧
    (Int.gcd y.value y.modulus ≠ 1 → ModInt.div t ext x y = none) := by
  obtain ⟨k1, k2⟩ := C32_inverse t ext hext y hy h2
  constructor
  · intro hg
    obtain ⟨b, h3, h4, h5, h6⟩ := k1 hg
    obtain ⟨z, h7, h8, h9, h10⟩ := C31_mul t ht x b hx h4 (by rw [hxy, h5])
    refine ⟨z, ?_, h8, by rw [h9, hxy], ?_⟩
    · unfold ModInt.div; rw [h3]; exact h7
    · rw [hxy] at h10
      calc y.value * z.value ≡ y.value * (x.value * b.value) [ZMOD y.modulus] := h10.mul_left _
        _ = x.value * (y.value * b.value) := by ring
        _ ≡ x.value * 1 [ZMOD y.modulus] := h6.mul_left _
        _ = x.value := by ring
  · intro hg
    unfold ModInt.div; rw [k2 hg]

/-- C32: for a prime modulus every nonzero value is invertible. -/
theorem C32_prime (t : IntTy) (ext : ℤ → ℤ → ExtGcd) (hext : IsExtGcd ext)
    (p : ℕ) (hp : p.Prime) (a : ModInt) (ha : a.Valid t) (hap : a.modulus = p) (h0 : a.value ≠ 0) :
    ∃ b, checkedInverse t ext a = some b ∧ b.Valid t ∧ b.modulus = a.modulus ∧
      a.value * b.value ≡ 1 [ZMOD a.modulus] := by
  refine (C32_inverse t ext hext a ha (by rw [hap]; exact_mod_cast hp.two_le)).1 ?_
  obtain ⟨-, h1, h2, h3⟩ := ha
  rw [Int.gcd_comm, hap]
  have : IsCoprime (p : ℤ) a.value := by
    rw [(Nat.prime_iff_prime_int.mp hp).coprime_iff_not_dvd]
    intro hd
    have := Int.le_of_dvd (lt_of_le_of_ne h2 h0.symm) hd
    omega
  exact Int.isCoprime_iff_gcd_eq_one.mp this

/-- C32: modulus one. The only residue class, zero, is its own inverse, but `checked_inverse` refuses it, and division
panics. -/
theorem C32_modulus_one (t : IntTy) (ext : ℤ → ℤ → ExtGcd) (a x : ModInt) (ha : a.Valid t) (h1 : a.modulus = 1) :
    checkedInverse t ext a = none ∧ ModInt.div t ext x a = none ∧ a.value * 0 ≡ 1 [ZMOD a.modulus] := by
  obtain ⟨-, -, h2, h3⟩ := ha
  have h0 : a.value = 0 := by omega
  have h : checkedInverse t ext a = none := by unfold checkedInverse; rw [if_pos h0]
  refine ⟨h, by unfold ModInt.div; rw [h], ?_⟩
  rw [h1]
  exact Int.modEq_one

/-- C32: modulus zero. Values are then integers, and exactly the integers with an inverse, `1` and `-1`, get one; but
division panics for every divisor. -/
theorem C32_modulus_zero (t : IntTy) (ext : ℤ → ℤ → ExtGcd) (hext : IsExtGcd ext) (a x : ModInt)
    (h0 : a.modulus = 0) :
    (∀ b, checkedInverse t ext a = some b ↔ b.modulus = 0 ∧ a.value * b.value = 1) ∧ ModInt.div t ext x a = none := by
  obtain ⟨v, m⟩ := a
  subst h0
  obtain ⟨g1, g2⟩ := hext v 0
  have hn : ∀ x, ModInt.new t x 0 = some ⟨x, 0⟩ := fun x => (C31_zero_modulus t x 0).1
  rw [Int.gcd_zero_right] at g1
  have key : ∀ b, checkedInverse t ext ⟨v, 0⟩ = some b ↔ b.modulus = 0 ∧ v * b.value = 1 := by
    rintro ⟨w, n⟩
    unfold checkedInverse
    simp only
    by_cases hv : v = 0
    · rw [if_pos hv, hv]; simp
    rw [if_neg hv, hn]
    by_cases hg : (ext v 0).gcd = 1
    · rw [if_pos hg]
      rw [hg] at g2
      simp only [mul_zero, add_zero] at g2
      constructor
      · intro h
        cases h
        exact ⟨rfl, by rw [mul_comm]; exact g2⟩
      · rintro ⟨rfl, h⟩
        have : w = (ext v 0).x := by
          apply mul_left_cancel₀ hv
          rw [h, mul_comm]; exact g2.symm
        rw [this]
    · rw [if_neg hg]
      refine ⟨fun h => absurd h (by simp), fun h => (hg ?_).elim⟩
      rw [g1]
      exact_mod_cast Int.isUnit_iff_natAbs_eq.mp (IsUnit.of_mul_eq_one _ h.2)
  refine ⟨key, ?_⟩
  unfold ModInt.div
  cases h : checkedInverse t ext ⟨v, 0⟩ with
  | none => rfl
  | some b =>
    obtain ⟨w, n⟩ := b
    obtain ⟨h1, -⟩ := (key _).mp h
    obtain ⟨u, k⟩ := x
    simp only at h1 ⊢
    subst h1
    by_cases hk : k = 0
    · subst hk; exact (C31_zero_modulus t u w).2.2.2
    · unfold ModInt.mul; rw [if_neg hk]

/-- the external extended gcd assumption is satisfiable -/
theorem isExtGcd_witness : IsExtGcd fun a b => ⟨Int.gcd a b, Int.gcdA a b, Int.gcdB a b⟩ := by
  intro a b
  refine ⟨rfl, ?_⟩
  simp only
  rw [Int.gcd_eq_gcd_ab]; ring

example : checkedInverse (.signed 32) (fun a b => ⟨Int.gcd a b, Int.gcdA a b, Int.gcdB a b⟩) ⟨3, 7⟩ =
      some ⟨5, 7⟩ ∧
    checkedInverse (.signed 32) (fun a b => ⟨Int.gcd a b, Int.gcdA a b, Int.gcdB a b⟩) ⟨4, 6⟩ = none ∧
    checkedInverse (.signed 32) (fun a b => ⟨Int.gcd a b, Int.gcdA a b, Int.gcdB a b⟩) ⟨-1, 0⟩ = some ⟨-1, 0⟩ := by
  decide +kernel

/-! ## C33 -/

theorem ModInt.powLoop_spec (t : IntTy) (ht : t.Instantiated) (m : ℤ) (hm : t.fits m) (h0 : 0 < m)
    (fuel : ℕ) : ∀ (base : ℤ) (e : ℕ) (r : Option ℤ), 0 ≤ base → base < m → 1 ≤ e → e ≤ fuel →
      (∀ x, r = some x → 0 ≤ x ∧ x < m) →
      powLoop t m fuel base e r = some ((r.getD 1 * base ^ e) % m) := by
  induction fuel with
  | zero => intro base e r _ _ h1 h2; omega
  | succ fuel ih =>
    intro base e r hb hb' h1 h2 hr
    unfold powLoop
    have hsq := modularMul_eq ht hm h0 hb hb' hb hb'
    have hsq0 : 0 ≤ (base * base) % m := Int.emod_nonneg _ h0.ne'
    have hsq1 : (base * base) % m < m := Int.emod_lt_of_pos _ h0
    -- the new accumulator
    obtain ⟨r', hr', hr'v, hr'r⟩ : ∃ r' : Option ℤ, powAcc t m base e r = some r' ∧
        r'.getD 1 ≡ r.getD 1 * base ^ (e % 2) [ZMOD m] ∧
        (∀ x, r' = some x → 0 ≤ x ∧ x < m) ∧ (e % 2 = 1 → r' ≠ none) ∧ (e % 2 ≠ 1 → r' = r) := by
      unfold powAcc
      by_cases hodd : e % 2 = 1
      · rw [if_pos hodd, hodd, pow_one]
        cases r with
        | none => exact ⟨some base, rfl, by simp, by simpa using ⟨hb, hb'⟩, by simp, fun h => absurd rfl h⟩
        | some x =>
          obtain ⟨hx, hx'⟩ := hr x rfl
          refine ⟨some ((x * base) % m), ?_, ?_, ?_, by simp, fun h => absurd rfl h⟩
          · simp only [modularMul_eq ht hm h0 hx hx' hb hb', Option.map_some]
          · exact Int.mod_modEq _ _
          · intro y hy
            obtain rfl := Option.some.inj hy
            exact ⟨Int.emod_nonneg _ h0.ne', Int.emod_lt_of_pos _ h0⟩
      · rw [if_neg hodd, show e % 2 = 0 by omega]
        exact ⟨r, rfl, by simp, hr, fun h => by simp at h, fun _ => rfl⟩
    rw [hr']
    simp only
    by_cases hend : e / 2 = 0
    · rw [if_pos hend]
      have he1 : e = 1 := by omega
      subst he1
      cases r' with
      | none => exact absurd rfl (hr'r.2.1 rfl)
      | some x =>
        congr 1
        obtain ⟨hx, hx'⟩ := hr'r.1 x rfl
        have : x % m = (r.getD 1 * base ^ 1) % m := hr'v
        rw [← this, Int.emod_eq_of_lt hx hx']
    · rw [if_neg hend, hsq]
      simp only
      rw [ih _ _ _ hsq0 hsq1 (by omega) (by omega) hr'r.1]
      congr 1
      have e1 : ((base * base) % m) ^ (e / 2) ≡ (base * base) ^ (e / 2) [ZMOD m] :=
        (Int.mod_modEq _ _).pow _
      have e2 : r.getD 1 * base ^ e = r.getD 1 * base ^ (e % 2) * (base * base) ^ (e / 2) := by
        rw [← pow_two, ← pow_mul, mul_assoc, ← pow_add]
        congr 2; omega
      rw [e2]
      exact hr'v.mul e1

/-- C33: for a positive exponent `pow_modular_reduce` never panics and returns the reduced power, for
every base (reduced or not) and every primitive integer type. (partial: for exponent zero see
`C33_pow_zero`.) -/
theorem C33_pow_partial (t : IntTy) (ht : t.Instantiated) (v m : ℤ) (e : ℕ) (hm : t.fits m) (h0 : 0 < m)
    (he : 1 ≤ e) :
    powModularReduce t v e m = some (v ^ e % m) := by
  unfold powModularReduce
  rw [if_neg (by omega), modularReduce_eq hm h0]
  simp only
  by_cases h1 : e = 1
  · rw [if_pos h1, h1, pow_one]
  · rw [if_neg h1, powLoop_spec t ht m hm h0 e (v % m) e none (Int.emod_nonneg _ h0.ne')
      (Int.emod_lt_of_pos _ h0) he le_rfl (by simp)]
    congr 1
    rw [Option.getD_none, one_mul]
    exact ((Int.mod_modEq v m).pow e)

/-- C33: exponent zero returns the integer `1`, which is reduced iff the modulus is at least two. -/
theorem C33_pow_zero (t : IntTy) (v m : ℤ) (h0 : 0 < m) :
    powModularReduce t v 0 m = some 1 ∧ (1 = v ^ 0 % m ↔ 2 ≤ m) := by
  refine ⟨rfl, ?_⟩
  rw [pow_zero]
  constructor
  · intro h
    by_contra hc
    have : m = 1 := by omega
    subst this; simp at h
  · intro h; rw [Int.emod_eq_of_lt (by norm_num) (by omega)]

/-- C33 fails for exponent zero and modulus one: the result is not reduced. -/
theorem C33_pow_zero_false : powModularReduce (.signed 32) 0 0 1 = some 1 ∧ ((0:ℤ) ^ 0) % 1 = 0 := by
  decide +kernel

/-- C33: powers of modular integers. -/
theorem C33_pow_modint (t : IntTy) (ht : t.Instantiated) (a : ModInt) (ha : a.Valid t) (e : ℕ)
    (he : 1 ≤ e ∨ 2 ≤ a.modulus) :
    ∃ b, ModInt.pow t a e = some b ∧ b.Valid t ∧ b.modulus = a.modulus ∧
      b.value ≡ a.value ^ e [ZMOD a.modulus] := by
  obtain ⟨hm, h0, h1, h2⟩ := ha
  refine ⟨⟨a.value ^ e % a.modulus, a.modulus⟩, ?_,
    ⟨hm, h0, Int.emod_nonneg _ h0.ne', Int.emod_lt_of_pos _ h0⟩, rfl, Int.mod_modEq _ _⟩
  unfold ModInt.pow
  by_cases h : 1 ≤ e
  · rw [C33_pow_partial t ht _ _ e hm h0 h]; rfl
  · have : e = 0 := by omega
    subst this
    have h3 := (C33_pow_zero t a.value a.modulus h0)
    rw [h3.1, ← h3.2.mpr (by omega)]; rfl

example : powModularReduce (.signed 8) (-3) 100 127 = some ((-3) ^ 100 % 127) := by decide +kernel

end Algebraics
