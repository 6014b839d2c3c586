import Verif.Props.ModInt

/-!
# C31, C32 and C33 for negative moduli

`src/mod_int.rs` accepts negative moduli.  `new` then stores the representative in `(m, 0]`.  Sums, differences and
negations stay there; a product leaves it exactly when it is not divisible by the modulus.
-/

namespace Algebraics

open ModInt

/-- the representatives which `new` makes for a negative modulus, modulus representable -/
def ModInt.NegReduced (t : IntTy) (a : ModInt) : Prop :=
  t.fits a.modulus ∧ a.modulus < 0 ∧ a.modulus < a.value ∧ a.value ≤ 0

theorem IntTy.fits_of_abs {t : IntTy} {m v : ℤ} (hm : t.fits m) (h0 : m < 0) (h1 : m ≤ v) (h2 : v < -m) :
    t.fits v := by
  cases t with
  | signed n => unfold IntTy.fits at *; omega
  | unsigned n => unfold IntTy.fits at hm; omega
  | bigInt => trivial
  | bigUint => unfold IntTy.fits at hm; omega

theorem IntTy.wide_fits_neg {t : IntTy} (ht : t.Instantiated) {m v : ℤ} (hm : t.fits m) (h0 : m < 0)
    (h : 2 * m ≤ v ∧ v ≤ 0 ∨ -(m * m) ≤ v ∧ v ≤ m * m) : t.wide.fits v := by
  cases t with
  | signed n =>
    unfold IntTy.fits at hm
    unfold IntTy.wide
    have key : ∀ k : ℕ, 1 ≤ k → -2 ^ k ≤ m → -(2:ℤ) ^ (2 * k + 1) ≤ v ∧ v < 2 ^ (2 * k + 1) := by
      intro k hk hmk
      have hp : (1:ℤ) ≤ 2 ^ k := by exact_mod_cast Nat.one_le_two_pow
      have e : (2:ℤ) ^ (2 * k + 1) = 2 * (2 ^ k * 2 ^ k) := by ring
      rw [e]
      constructor
      · rcases h with h | h <;> nlinarith
      · rcases h with h | h <;> nlinarith
    rcases ht with rfl | rfl | rfl | rfl | rfl
    · have := key 7 (by norm_num) (by simpa using hm.1); simpa [IntTy.fits] using this
    · have := key 15 (by norm_num) (by simpa using hm.1); simpa [IntTy.fits] using this
    · have := key 31 (by norm_num) (by simpa using hm.1); simpa [IntTy.fits] using this
    · have := key 63 (by norm_num) (by simpa using hm.1); simpa [IntTy.fits] using this
    · simp [IntTy.fits]
  | unsigned n => unfold IntTy.fits at hm; omega
  | bigInt => trivial
  | bigUint => unfold IntTy.fits at hm; omega

private theorem tmod_neg_range (v m : ℤ) (h0 : m < 0) (hv : v ≤ 0) : m < v.tmod m ∧ v.tmod m ≤ 0 := by
  have h1 := Int.tmod_nonneg m (show 0 ≤ -v by omega)
  have h2 := Int.tmod_lt_of_pos (-v) (show 0 < -m by omega)
  rw [Int.tmod_neg] at h2
  rw [Int.neg_tmod] at h1 h2
  omega

private theorem tmod_pos_range (v m : ℤ) (h0 : m < 0) (hv : 0 ≤ v) : 0 ≤ v.tmod m ∧ v.tmod m < -m := by
  have h2 := Int.tmod_lt_of_pos v (show 0 < -m by omega)
  rw [Int.tmod_neg] at h2
  exact ⟨Int.tmod_nonneg m hv, h2⟩

private theorem tmod_modEq (v m : ℤ) : v.tmod m ≡ v [ZMOD m] := by
  have := Int.tdiv_mul_add_tmod v m
  refine (Int.modEq_iff_dvd).mpr ⟨v.tdiv m, ?_⟩
  linarith [mul_comm m (v.tdiv m)]

private theorem modularAdd_neg {t : IntTy} (ht : t.Instantiated) {a b m : ℤ} (hm : t.fits m) (h0 : m < 0)
    (ha : m < a ∧ a ≤ 0) (hb : m < b ∧ b ≤ 0) :
    ∃ v, modularAdd t a b m = some v ∧ m < v ∧ v ≤ 0 ∧ v ≡ a + b [ZMOD m] := by
  obtain ⟨h1, h2⟩ := tmod_neg_range (a + b) m h0 (by omega)
  refine ⟨(a + b).tmod m, ?_, h1, h2, tmod_modEq _ _⟩
  unfold modularAdd IntTy.check
  rw [if_pos (IntTy.wide_fits_neg ht hm h0 (Or.inl (by omega)))]
  simp only
  rw [if_neg h0.ne, if_pos (IntTy.fits_of_abs hm h0 h1.le (by omega))]

private theorem modularNeg_neg {t : IntTy} {a m : ℤ} (hm : t.fits m) (h0 : m < 0) (ha : m < a ∧ a ≤ 0) :
    ∃ v, modularNeg t a m = some v ∧ m < v ∧ v ≤ 0 ∧ v ≡ -a [ZMOD m] := by
  unfold modularNeg IntTy.check
  rw [if_pos (IntTy.fits_of_abs hm h0 (by omega) (by omega))]
  simp only
  by_cases h : m - a = m
  · rw [if_pos h]
    obtain rfl : a = 0 := by omega
    exact ⟨0, rfl, h0, le_rfl, by simp [Int.ModEq]⟩
  · rw [if_neg h]
    exact ⟨_, rfl, by omega, by omega, Int.modEq_iff_dvd.mpr ⟨-1, by ring⟩⟩

/-- C31, negative moduli: `new` stores the representative in `(m, 0]`.  Only the least value of a signed machine
type and the modulus -1 make it panic. -/
theorem C31_new_negative (t : IntTy) (v m : ℤ) (hm : t.fits m) (h0 : m < 0) :
    (ModInt.new t v m = none ↔ m = -1 ∧ ¬ t.fits (-v)) ∧
    ∀ x, ModInt.new t v m = some x → x.NegReduced t ∧ x.modulus = m ∧ x.value ≡ v [ZMOD m] := by
  have hr : m < v.fmod m ∧ v.fmod m ≤ 0 := by
    have h1 := Int.fmod_nonneg_of_pos (-v) (show 0 < -m by omega)
    have h2 := Int.fmod_lt_of_pos (-v) (show 0 < -m by omega)
    rw [Int.neg_fmod_neg] at h1 h2
    omega
  have hc : v.fmod m ≡ v [ZMOD m] := by
    have := Int.mul_fdiv_add_fmod v m
    exact Int.modEq_iff_dvd.mpr ⟨v.fdiv m, by linarith⟩
  have hf : t.check (v.fmod m) = some (v.fmod m) := by
    unfold IntTy.check
    rw [if_pos (IntTy.fits_of_abs hm h0 hr.1.le (by omega))]
  have hn : t.check (-v) = none ↔ ¬ t.fits (-v) := by unfold IntTy.check; split_ifs <;> simp_all
  unfold ModInt.new modularReduce
  rw [if_neg h0.ne, hf]
  by_cases hp : m = -1 ∧ t.check (-v) = none
  · rw [if_pos hp]
    exact ⟨by simp [hp.1, hn.mp hp.2], nofun⟩
  · rw [if_neg hp]
    rw [hn] at hp
    refine ⟨by simp [hp], ?_⟩
    rintro x hx
    cases hx
    exact ⟨⟨hm, h0, hr.1, hr.2⟩, rfl, hc⟩

/-- C31, negative moduli: on the representatives `new` makes, sums, differences and negations never overflow and are
again such representatives, of the right class. -/
theorem C31_additive_negative (t : IntTy) (ht : t.Instantiated) (x y : ModInt) (hx : x.NegReduced t)
    (hy : y.NegReduced t) (h : x.modulus = y.modulus) :
    (∃ z, ModInt.add t x y = some z ∧ z.NegReduced t ∧ z.modulus = x.modulus ∧
      z.value ≡ x.value + y.value [ZMOD x.modulus]) ∧
    (∃ z, ModInt.sub t x y = some z ∧ z.NegReduced t ∧ z.modulus = x.modulus ∧
      z.value ≡ x.value - y.value [ZMOD x.modulus]) ∧
    (∃ z, ModInt.neg t x = some z ∧ z.NegReduced t ∧ z.modulus = x.modulus ∧
      z.value ≡ -x.value [ZMOD x.modulus]) := by
  obtain ⟨hm, h0, hxr⟩ := hx
  obtain ⟨-, -, hyr⟩ := hy
  rw [← h] at hyr
  refine ⟨?_, ?_, ?_⟩
  · obtain ⟨v, h1, h2, h3, h4⟩ := modularAdd_neg ht hm h0 hxr hyr
    refine ⟨⟨v, x.modulus⟩, ?_, ⟨hm, h0, h2, h3⟩, rfl, h4⟩
    unfold ModInt.add
    rw [if_pos h, h1]; rfl
  · obtain ⟨u, g1, g2, g3, g4⟩ := modularNeg_neg hm h0 hyr
    obtain ⟨v, h1, h2, h3, h4⟩ := modularAdd_neg ht hm h0 hxr ⟨g2, g3⟩
    refine ⟨⟨v, x.modulus⟩, ?_, ⟨hm, h0, h2, h3⟩, rfl, ?_⟩
    · unfold ModInt.sub modularSub
      rw [if_pos h, g1]
      simp only
      rw [h1]; rfl
    · exact h4.trans (by rw [sub_eq_add_neg]; exact g4.add_left _)
  · obtain ⟨v, h1, h2, h3, h4⟩ := modularNeg_neg hm h0 hxr
    refine ⟨⟨v, x.modulus⟩, ?_, ⟨hm, h0, h2, h3⟩, rfl, h4⟩
    unfold ModInt.neg
    rw [h1]; rfl

/-- C31, negative moduli, the exact extent of the defect: a product never overflows and is in the right class, but
it is the representative `new` makes, and so equal to it, if and only if it is divisible by the modulus. -/
theorem C31_mul_negative (t : IntTy) (ht : t.Instantiated) (x y : ModInt) (hx : x.NegReduced t)
    (hy : y.NegReduced t) (h : x.modulus = y.modulus) :
    ∃ z, ModInt.mul t x y = some z ∧ z.modulus = x.modulus ∧ z.value ≡ x.value * y.value [ZMOD x.modulus] ∧
      (z.NegReduced t ↔ x.modulus ∣ x.value * y.value) := by
  obtain ⟨hm, h0, hx1, hx2⟩ := hx
  obtain ⟨-, -, hy1, hy2⟩ := hy
  rw [← h] at hy1
  have hp : 0 ≤ x.value * y.value := mul_nonneg_of_nonpos_of_nonpos hx2 hy2
  have hp' : x.value * y.value ≤ x.modulus * x.modulus := by nlinarith
  obtain ⟨h1, h2⟩ := tmod_pos_range (x.value * y.value) x.modulus h0 hp
  refine ⟨⟨(x.value * y.value).tmod x.modulus, x.modulus⟩, ?_, rfl, tmod_modEq _ _, ?_⟩
  · unfold ModInt.mul modularMul IntTy.check
    rw [if_pos h, if_pos (IntTy.wide_fits_neg ht hm h0 (Or.inr ⟨by nlinarith, hp'⟩))]
    simp only
    rw [if_neg h0.ne, if_pos (IntTy.fits_of_abs hm h0 (by omega) h2)]
    rfl
  · rw [Int.dvd_iff_tmod_eq_zero]
    constructor
    · rintro ⟨-, -, -, h5⟩; exact le_antisymm h5 h1
    · intro h5; exact ⟨hm, h0, by simp only; omega, by simp only; omega⟩

/-- C32, negative moduli: `checked_inverse` succeeds exactly for values other than zero that are coprime to the
modulus, and gives the inverse as `new` represents it. -/
theorem C32_inverse_negative (t : IntTy) (ext : ℤ → ℤ → ExtGcd) (hext : IsExtGcd ext) (a : ModInt)
    (ha : a.NegReduced t) :
    (a.value ≠ 0 ∧ Int.gcd a.value a.modulus = 1 →
      ∃ b, checkedInverse t ext a = some b ∧ b.NegReduced t ∧ b.modulus = a.modulus ∧
        a.value * b.value ≡ 1 [ZMOD a.modulus]) ∧
    (¬ (a.value ≠ 0 ∧ Int.gcd a.value a.modulus = 1) → checkedInverse t ext a = none) := by
  obtain ⟨hm, h0, h1, h2⟩ := ha
  obtain ⟨g1, g2⟩ := hext a.value a.modulus
  unfold checkedInverse
  constructor
  · rintro ⟨hv, hg⟩
    rw [if_neg hv]
    simp only
    rw [g1, hg]
    rw [g1, hg] at g2
    simp only [Nat.cast_one, if_true]
    obtain ⟨k1, k2⟩ := C31_new_negative t (ext a.value a.modulus).x a.modulus hm h0
    cases hn : ModInt.new t (ext a.value a.modulus).x a.modulus with
    | none => have := (k1.mp hn).1; omega
    | some b =>
      obtain ⟨l1, l2, l3⟩ := k2 b hn
      refine ⟨b, rfl, l1, l2, ?_⟩
      refine (l3.mul_left a.value).trans (Int.modEq_iff_dvd.mpr ⟨(ext a.value a.modulus).y, ?_⟩)
      push_cast at g2
      linarith [mul_comm a.value (ext a.value a.modulus).x, mul_comm a.modulus (ext a.value a.modulus).y]
  · intro h
    split_ifs with hv
    · rfl
    · simp only
      rw [if_neg]
      rw [g1]
      intro hg
      exact h ⟨hv, by exact_mod_cast hg⟩

private theorem modularMul_neg {t : IntTy} (ht : t.Instantiated) {a b m : ℤ} (hm : t.fits m) (h0 : m < 0)
    (ha : m < a ∧ a < -m) (hb : 0 ≤ b ∧ b < -m ∨ m < b ∧ b ≤ 0 ∧ a ≤ 0) :
    ∃ v, modularMul t a b m = some v ∧ m < v ∧ v < -m ∧ v ≡ a * b [ZMOD m] ∧ (0 ≤ a * b → 0 ≤ v) ∧
      (a * b ≤ 0 → v ≤ 0) := by
  have hr : m < (a * b).tmod m ∧ (a * b).tmod m < -m ∧ (0 ≤ a * b → 0 ≤ (a * b).tmod m) ∧
      (a * b ≤ 0 → (a * b).tmod m ≤ 0) := by
    rcases le_total 0 (a * b) with h | h
    · obtain ⟨h1, h2⟩ := tmod_pos_range _ m h0 h
      refine ⟨by omega, h2, fun _ => h1, fun h' => ?_⟩
      rw [le_antisymm h' h]; simp
    · obtain ⟨h1, h2⟩ := tmod_neg_range _ m h0 h
      refine ⟨h1, by omega, fun h' => ?_, fun _ => h2⟩
      rw [le_antisymm h h']; simp
  refine ⟨(a * b).tmod m, ?_, hr.1, hr.2.1, tmod_modEq _ _, hr.2.2⟩
  unfold modularMul IntTy.check
  have hb' : m < b ∧ b < -m := by omega
  rw [if_pos (IntTy.wide_fits_neg ht hm h0 (Or.inr ⟨by nlinarith, by nlinarith⟩))]
  simp only
  rw [if_neg h0.ne, if_pos (IntTy.fits_of_abs hm h0 hr.1.le hr.2.1)]

private theorem powLoop_neg {t : IntTy} (ht : t.Instantiated) {m : ℤ} (hm : t.fits m) (h0 : m < 0) :
    ∀ (fuel : ℕ) (b : ℤ) (e : ℕ) (o : Option ℤ), 0 < e → e ≤ fuel → 0 ≤ b → b < -m →
      (∀ r, o = some r → m < r ∧ r < -m) →
      ∃ v, powLoop t m fuel b e o = some v ∧ m < v ∧ v < -m ∧ v ≡ o.getD 1 * b ^ e [ZMOD m] ∧
        (0 ≤ o.getD 1 → 0 ≤ v) ∧ (o.getD 1 ≤ 0 → v ≤ 0) := by
  intro fuel
  induction fuel with
  | zero => intro b e o h1 h2; omega
  | succ fuel ih =>
    intro b e o he hf hb hb' ho
    unfold powLoop
    -- the accumulator after this turn
    have hacc : ∃ o', powAcc t m b e o = some o' ∧ (∀ r, o' = some r → m < r ∧ r < -m) ∧
        o'.getD 1 ≡ o.getD 1 * b ^ (e % 2) [ZMOD m] ∧ (0 ≤ o.getD 1 → 0 ≤ o'.getD 1) ∧
        (o.getD 1 ≤ 0 → o'.getD 1 ≤ 0) ∧ (e / 2 = 0 → o'.isSome) := by
      unfold powAcc
      by_cases h1 : e % 2 = 1
      · rw [if_pos h1, h1]
        cases o with
        | none =>
          refine ⟨some b, rfl, ?_, by simp [Int.ModEq], fun _ => hb, fun h => ?_, fun _ => rfl⟩
          · rintro r hr; cases hr; omega
          · simp at h
        | some r =>
          obtain ⟨v, v1, v2, v3, v4, v5, v6⟩ := modularMul_neg ht hm h0 (ho r rfl) (Or.inl ⟨hb, hb'⟩)
          refine ⟨some v, by simp [v1], ?_, by simpa using v4, fun h => ?_, fun h => ?_, fun _ => rfl⟩
          · rintro r' hr; cases hr; exact ⟨v2, v3⟩
          · exact v5 (mul_nonneg (by simpa using h) hb)
          · exact v6 (mul_nonpos_of_nonpos_of_nonneg (by simpa using h) hb)
      · rw [if_neg h1]
        refine ⟨o, rfl, ho, ?_, id, id, fun h => by omega⟩
        rw [show e % 2 = 0 by omega]; simp [Int.ModEq]
    obtain ⟨o', a1, a2, a3, a4, a5, a6⟩ := hacc
    rw [a1]
    simp only
    by_cases h2 : e / 2 = 0
    · rw [if_pos h2]
      obtain ⟨v, rfl⟩ := Option.isSome_iff_exists.mp (a6 h2)
      obtain rfl : e = 1 := by omega
      exact ⟨v, rfl, (a2 v rfl).1, (a2 v rfl).2, a3, a4, a5⟩
    · rw [if_neg h2]
      obtain ⟨c, c1, c2, c3, c4, c5, c6⟩ := modularMul_neg (a := b) (b := b) ht hm h0 ⟨by omega, hb'⟩ (Or.inl ⟨hb, hb'⟩)
      rw [c1]
      simp only
      obtain ⟨v, v1, v2, v3, v4, v5, v6⟩ := ih c (e / 2) o' (by omega) (by omega) (c5 (mul_self_nonneg b)) c3 a2
      refine ⟨v, v1, v2, v3, ?_, fun h => v5 (a4 h), fun h => v6 (a5 h)⟩
      refine v4.trans ((a3.mul (c4.pow (e / 2))).trans ?_)
      have e1 : o.getD 1 * b ^ (e % 2) * (b * b) ^ (e / 2) = o.getD 1 * b ^ e := by
        rw [mul_assoc, ← pow_two, ← pow_mul, ← pow_add, Nat.mod_add_div]
      rw [e1]

/-- C33, negative moduli, exactly: where `new` succeeds a positive power never overflows and is in the right class.
For odd exponents it is the representative `new` makes; for even exponents if and only if the modulus divides the
power. -/
theorem C33_pow_negative (t : IntTy) (ht : t.Instantiated) (v m : ℤ) (e : ℕ) (hm : t.fits m) (h0 : m < 0)
    (he : 1 ≤ e) (hv : ¬ (m = -1 ∧ ¬ t.fits (-v))) :
    ∃ r, powModularReduce t v e m = some r ∧ r ≡ v ^ e [ZMOD m] ∧
      ((⟨r, m⟩ : ModInt).NegReduced t ↔ Odd e ∨ m ∣ v ^ e) := by
  obtain ⟨k1, k2⟩ := C31_new_negative t v m hm h0
  have hbase : ∃ b, modularReduce t v m = some b ∧ m < b ∧ b ≤ 0 ∧ b ≡ v [ZMOD m] := by
    unfold ModInt.new at k1 k2
    cases h : modularReduce t v m with
    | none => exact absurd (k1.mp (by rw [h]; rfl)) hv
    | some b =>
      obtain ⟨⟨-, -, l1, l2⟩, -, l3⟩ := k2 ⟨b, m⟩ (by rw [h]; rfl)
      exact ⟨b, rfl, l1, l2, l3⟩
  obtain ⟨b, b1, b2, b3, b4⟩ := hbase
  unfold powModularReduce
  rw [if_neg (by omega), b1]
  simp only
  by_cases h1 : e = 1
  · subst h1
    exact ⟨b, by simp, by simpa using b4, iff_of_true ⟨hm, h0, b2, b3⟩ (Or.inl odd_one)⟩
  rw [if_neg h1]
  obtain ⟨c, c1, c2, c3, c4, c5, -⟩ := modularMul_neg (a := b) (b := b) ht hm h0 ⟨b2, by omega⟩ (Or.inr ⟨b2, b3, b3⟩)
  obtain ⟨f, rfl⟩ : ∃ f, e = f + 1 := ⟨e - 1, by omega⟩
  set e := f + 1 with hedef
  have hstep : powLoop t m (f + 1) b e none =
      powLoop t m f c (e / 2) (if e % 2 = 1 then some b else none) := by
    rw [powLoop, powAcc]
    by_cases h2 : e % 2 = 1
    · rw [if_pos h2, if_pos h2]
      simp only
      rw [if_neg (by omega), c1]
    · rw [if_neg h2, if_neg h2]
      simp only
      rw [if_neg (by omega), c1]
  obtain ⟨r, r1, r2, r3, r4, r5, r6⟩ := powLoop_neg ht hm h0 f c (e / 2) (if e % 2 = 1 then some b else none)
    (by omega) (by omega) (c5 (mul_self_nonneg b)) c3 (by
      intro r hr
      split_ifs at hr
      cases hr
      omega)
  have hcl : r ≡ v ^ e [ZMOD m] := by
    refine r4.trans (Int.ModEq.trans ?_ (b4.pow e))
    refine ((c4.pow (e / 2)).mul_left _).trans ?_
    have e1 : (if e % 2 = 1 then some b else none).getD 1 = b ^ (e % 2) := by
      split_ifs with h
      · rw [h]; simp
      · rw [show e % 2 = 0 by omega]; simp
    rw [e1, ← pow_two, ← pow_mul, ← pow_add, Nat.mod_add_div]
  refine ⟨r, hstep.trans r1, hcl, ?_⟩
  by_cases ho : e % 2 = 1
  · rw [if_pos ho] at r6
    exact iff_of_true ⟨hm, h0, r2, r6 b3⟩ (Or.inl (Nat.odd_iff.mpr ho))
  · rw [if_neg ho] at r5
    have hr0 : 0 ≤ r := r5 (by simp)
    have hdvd : m ∣ v ^ e ↔ r = 0 := by
      rw [← hcl.dvd_iff]
      constructor
      · intro h
        exact Int.eq_zero_of_abs_lt_dvd (neg_dvd.mpr h) (by rw [abs_of_nonneg hr0]; exact r3)
      · rintro rfl; exact dvd_zero m
    rw [hdvd]
    constructor
    · rintro ⟨-, -, -, h⟩; exact Or.inr (le_antisymm h hr0)
    · rintro (h | rfl)
      · exact absurd (Nat.odd_iff.mp h) ho
      · exact ⟨hm, h0, h0, le_rfl⟩

/-- two members of `Z/(-5)` in `i8`: the sum is fine, the product is not -/
example : (⟨-1, -5⟩ : ModInt).NegReduced (.signed 8) ∧ (⟨-3, -5⟩ : ModInt).NegReduced (.signed 8) ∧
    ModInt.add (.signed 8) ⟨-3, -5⟩ ⟨-3, -5⟩ = some ⟨-1, -5⟩ ∧
    ModInt.mul (.signed 8) ⟨-3, -5⟩ ⟨-1, -5⟩ = some ⟨3, -5⟩ ∧ ModInt.new (.signed 8) 3 (-5) = some ⟨-2, -5⟩ ∧
    powModularReduce (.signed 8) 2 3 (-5) = some (-2) ∧ powModularReduce (.signed 8) 2 4 (-5) = some 1 := by
  refine ⟨?_, ?_, ?_⟩
  · unfold ModInt.NegReduced; decide
  · unfold ModInt.NegReduced; decide
  · decide +kernel

end Algebraics
