import Verif.Model.Modulus
import Verif.Spec.Modulus

/-!
# C65: moduli and their markers
-/

namespace Algebraics

open Modulus

theorem StaticMod.fits (t : IntTy) (ht : t.Instantiated) (z : ℤ) (h0 : 0 ≤ z) (h1 : z ≤ 16) : t.fits z := by
  cases t with
  | signed n =>
    have h7 : (2 : ℤ) ^ 7 ≤ 2 ^ (n - 1) := pow_le_pow_right₀ (by norm_num) (by
      rcases ht with h | h | h | h | h <;> omega)
    exact ⟨by linarith, by linarith⟩
  | unsigned n =>
    have h7 : (2 : ℤ) ^ 7 ≤ 2 ^ n := pow_le_pow_right₀ (by norm_num) (by
      rcases ht with h | h | h | h | h <;> omega)
    exact ⟨h0, by linarith⟩
  | bigInt => trivial
  | bigUint => exact h0

theorem StaticMod.value_range (s : StaticMod) : 0 ≤ s.value ∧ s.value ≤ 16 := by
  have := s.isLt
  unfold StaticMod.value
  omega

/-- C65: converting a modulus never panics, whatever it is wrapped in, and gives the wrapped integer. -/
theorem C65_into_modulus (t : IntTy) (m : Modulus) (h : m.HasType t) : m.intoModulus t = some m.value := by
  induction m with
  | int v => rfl
  | ref m ih => exact ih h
  | knownPrime m ih => exact ih h
  | knownOdd m ih => exact ih h
  | unit s => exact if_pos (StaticMod.fits t h _ s.value_range.1 s.value_range.2)

/-- C65: `get_modulus` of a static modulus is the modulus, for every integer type. -/
theorem C65_static (t : IntTy) (m : Modulus) (h : m.HasType t) (hs : m.isStatic = true) :
    m.getModulus t = some m.value ∧ m.default = some m := by
  induction m with
  | int v => cases hs
  | ref m => cases hs
  | knownPrime m ih => exact ⟨(ih h hs).1, by rw [Modulus.default, (ih h hs).2]; rfl⟩
  | knownOdd m ih => exact ⟨(ih h hs).1, by rw [Modulus.default, (ih h hs).2]; rfl⟩
  | unit s => exact ⟨C65_into_modulus t (unit s) h, rfl⟩

/-- the markers of the unit types are right -/
theorem StaticMod.marked (s : StaticMod) :
    (s.markedOdd = true ↔ Odd s.value) ∧ (s.markedPrime = true ↔ s.value.natAbs.Prime) ∧
    ∀ b k, s.markedPower = some (b, k) → b.natAbs.Prime ∧ 0 < k ∧ b ^ k = s.value ∧ 0 ≤ b ∧ b ≤ 16 := by
  fin_cases s <;> refine ⟨by decide, by decide +kernel, ?_⟩ <;> intro b k h <;>
    simp [StaticMod.markedPower, StaticMod.markedPrime, StaticMod.value] at h <;>
    (obtain ⟨rfl, rfl⟩ := h; decide +kernel)

theorem StaticMod.markedPower_of_prime : ∀ s : StaticMod,
    s.markedPrime = true → s.markedPower = some (s.value, 1) := by decide

/-- C65 (as long as the promises of the `_unsafe` constructors are kept): a modulus whose type is marked
prime, odd or a prime power is that, and `base_and_exponent` gives the prime and the exponent. Being marked
prime implies being marked a prime power. -/
theorem C65_markers_partial (t : IntTy) (m : Modulus) (h : m.HasType t) (hp : m.Promised) :
    (m.isPrimeModulus = true → ∃ p : ℕ, p.Prime ∧ m.value = p ∧ m.baseAndExponent t = some (m.value, 1)) ∧
    (m.isOddModulus = true → Odd m.value) ∧
    (m.isPrimePowerModulus = true → ∃ p k : ℕ, p.Prime ∧ 0 < k ∧ m.value = (p : ℤ) ^ k ∧
      m.baseAndExponent t = some ((p : ℤ), k)) ∧
    (m.isPrimeModulus = true → m.isPrimePowerModulus = true) := by
  induction m with
  | int v => exact ⟨nofun, nofun, nofun, nofun⟩
  | ref m => exact ⟨nofun, nofun, nofun, nofun⟩
  | knownPrime m ih =>
    obtain ⟨hp1, p, hp2, hp3⟩ := hp
    have hb : (knownPrime m).baseAndExponent t = some (m.value, 1) := by
      simp only [baseAndExponent, C65_into_modulus t m h, Option.map_some]
    exact ⟨fun _ => ⟨p, hp2, hp3, hb⟩, (ih h hp1).2.1,
      fun _ => ⟨p, 1, hp2, Nat.one_pos, by rw [pow_one]; exact hp3, by rw [hb, hp3]⟩, fun _ => rfl⟩
  | knownOdd m ih =>
    obtain ⟨i1, -, i3, i4⟩ := ih h hp.1
    exact ⟨i1, fun _ => hp.2, i3, i4⟩
  | unit s =>
    obtain ⟨m1, m2, m3⟩ := s.marked
    have key : ∀ b k, s.markedPower = some (b, k) → ∃ p : ℕ, p.Prime ∧ 0 < k ∧ s.value = (p : ℤ) ^ k ∧
        b = p ∧ (unit s).baseAndExponent t = some (b, k) := by
      intro b k hb
      obtain ⟨c1, c2, c3, c4, c5⟩ := m3 b k hb
      refine ⟨b.natAbs, c1, c2, ?_, (Int.natAbs_of_nonneg c4).symm, ?_⟩
      · rw [Int.natAbs_of_nonneg c4, c3]
      · simp only [baseAndExponent, hb, Option.bind_some, IntTy.check,
          if_pos (StaticMod.fits t h b c4 c5), Option.map_some]
    have hpow := StaticMod.markedPower_of_prime s
    refine ⟨fun hm => ?_, m1.mp, fun hm => ?_, fun hm => ?_⟩
    · obtain ⟨p, k1, k2, k3, k4, k5⟩ := key _ _ (hpow hm)
      exact ⟨p, k1, k4, k5⟩
    · obtain ⟨⟨b, k⟩, hb⟩ := Option.isSome_iff_exists.mp hm
      obtain ⟨p, k1, k2, k3, k4, k5⟩ := key _ _ hb
      exact ⟨p, k, k1, k2, k3, by rw [k5, k4]⟩
    · show s.markedPower.isSome = true
      rw [hpow hm]; rfl

/-- C65: the wrappers change nothing but the markers. -/
theorem C65_wrappers (m : Modulus) :
    (knownPrime m).value = m.value ∧ (knownOdd m).value = m.value ∧ (newOddPrimeUnsafe m).value = m.value ∧
    (knownPrime m).unwrap = some m ∧ (knownOdd m).unwrap = some m ∧
    (knownPrime m).isPrimeModulus = true ∧ (knownOdd m).isOddModulus = true ∧
    (newOddPrimeUnsafe m).isPrimeModulus = true ∧ (newOddPrimeUnsafe m).isOddModulus = true ∧
    (knownOdd m).isPrimeModulus = m.isPrimeModulus ∧ (knownPrime m).isOddModulus = m.isOddModulus :=
  ⟨rfl, rfl, rfl, rfl, rfl, rfl, rfl, rfl, rfl, rfl, rfl⟩

/-- C65: the unit types are marked odd and prime exactly when they are. -/
theorem C65_unit_types (s : StaticMod) :
    ((unit s).isOddModulus = true ↔ Odd (unit s).value) ∧
    ((unit s).isPrimeModulus = true ↔ (unit s).value.natAbs.Prime) :=
  ⟨s.marked.1, s.marked.2.1⟩

/-- **C65 is false in full**: the wrappers have a safe `default()`, which makes a "known prime" out of nothing:
`KnownPrime::<i32>::default()` is marked prime and stands for 0 (and `KnownOdd::<i32>::default()` is marked
odd). -/
theorem C65_default_false :
    (knownPrime (int 7)).default = some (knownPrime (int 0)) ∧
    (knownPrime (int 0)).isPrimeModulus = true ∧ ¬ (knownPrime (int 0)).value.natAbs.Prime ∧
    (knownOdd (int 7)).default = some (knownOdd (int 0)) ∧
    (knownOdd (int 0)).isOddModulus = true ∧ ¬ Odd (knownOdd (int 0)).value := by
  refine ⟨rfl, rfl, by decide, rfl, rfl, by decide⟩

/-- `KnownOdd(KnownPrime(&7u8))` meets the hypotheses and is marked in all three ways; so is `Mod9` for two. -/
example : (knownOdd (knownPrime (ref (int 7)))).Promised ∧
    (knownOdd (knownPrime (ref (int 7)))).HasType (.unsigned 8) ∧
    (knownOdd (knownPrime (ref (int 7)))).isPrimeModulus = true ∧
    (knownOdd (knownPrime (ref (int 7)))).baseAndExponent (.unsigned 8) = some (7, 1) := by
  refine ⟨⟨⟨trivial, 7, by norm_num, rfl⟩, by decide⟩, show (IntTy.unsigned 8).fits 7 by decide, rfl, rfl⟩

example : (unit 8).isOddModulus = true ∧ (unit 8).isPrimePowerModulus = true ∧
    (unit 8).isPrimeModulus = false ∧ (unit 8).baseAndExponent (.signed 8) = some (3, 2) ∧
    (unit 8).HasType (.signed 8) := by
  refine ⟨rfl, rfl, rfl, by decide, Or.inl rfl⟩

end Algebraics
