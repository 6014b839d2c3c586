import Verif.Model.BigPow
import Verif.Props.ModInt

/-!
# C33: modular powers with big integers and with exponents of signed types
-/

namespace Algebraics

open ModInt

/-- C33: with big integers the power is right for every exponent from zero and every positive modulus, one
included; and a negative exponent and a modulus of zero panic. -/
theorem C33_pow_big (modpow : ℤ → ℤ → ℤ → Option ℤ) (h : IsModpow modpow) (v e m : ℤ) :
    (0 ≤ e → 0 < m → powModularReduceBig modpow v e m = some (v ^ e.toNat % m)) ∧
    (powModularReduceBig modpow v e m = none ↔ e < 0 ∨ m = 0) := by
  unfold powModularReduceBig
  rw [h]
  constructor
  · intro he hm
    rw [if_neg (by omega), Int.fmod_eq_emod_of_nonneg _ hm.le]
  · by_cases hc : e < 0 ∨ m = 0
    · simp [hc]
    · rw [if_neg hc]; simp [hc]

/-- C33: powers of modular integers of the two big types, with every exponent. -/
theorem C33_pow_big_modint (t : IntTy) (modpow : ℤ → ℤ → ℤ → Option ℤ)
    (h : IsModpow modpow) (a : ModInt) (ha : a.Valid t) (e : ℕ) :
    ∃ b, ModInt.powBig modpow a e = some b ∧ b.Valid t ∧ b.modulus = a.modulus ∧
      b.value ≡ a.value ^ e [ZMOD a.modulus] := by
  obtain ⟨hm, h0, h1, h2⟩ := ha
  refine ⟨⟨a.value ^ e % a.modulus, a.modulus⟩, ?_,
    ⟨hm, h0, Int.emod_nonneg _ h0.ne', Int.emod_lt_of_pos _ h0⟩, rfl, Int.mod_modEq _ _⟩
  unfold ModInt.powBig
  rw [(C33_pow_big modpow h a.value e a.modulus).1 (by omega) h0]
  simp

theorem ModInt.powLoopSigned_eq (t : IntTy) (m : ℤ) :
    ∀ (fuel : ℕ) (base : ℤ) (e : ℤ) (r : Option ℤ), powLoopSigned t m fuel base e r = powLoop t m fuel base e.natAbs r := by
  intro fuel
  induction fuel with
  | zero => intros; rfl
  | succ n ih =>
    intro base e r
    have h1 : powAccSigned t m base e r = powAcc t m base e.natAbs r := by
      unfold powAccSigned powAcc
      have : e % 2 = 1 ↔ e.natAbs % 2 = 1 := by omega
      by_cases hc : e % 2 = 1
      · rw [if_pos hc, if_pos (this.1 hc)]; cases r <;> rfl
      · rw [if_neg hc, if_neg (fun h => hc (this.2 h))]
    have h2 : (e.tdiv 2).natAbs = e.natAbs / 2 := by
      rw [Int.natAbs_tdiv]; rfl
    have h3 : e.tdiv 2 = 0 ↔ e.natAbs / 2 = 0 := by rw [← h2, Int.natAbs_eq_zero]
    unfold powLoopSigned powLoop
    rw [h1]
    cases powAcc t m base e.natAbs r with
    | none => rfl
    | some r =>
      simp only
      by_cases hc : e.tdiv 2 = 0
      · rw [if_pos hc, if_pos (h3.1 hc)]
      · rw [if_neg hc, if_neg (fun h => hc (h3.2 h))]
        cases modularMul t base base m with
        | none => rfl
        | some b => simp only; rw [ih, h2]

/-- C33: with an exponent of a signed type the sign of the exponent is lost: the result is the power with the
absolute value of the exponent. -/
theorem C33_pow_signed_partial (t : IntTy) (ht : t.Instantiated) (v m e : ℤ) (hm : t.fits m) (h0 : 0 < m)
    (he : e ≠ 0) : powModularReduceSigned t v e m = some (v ^ e.natAbs % m) := by
  have hn : 1 ≤ e.natAbs := by omega
  rw [← C33_pow_partial t ht v m e.natAbs hm h0 hn]
  unfold powModularReduceSigned powModularReduce
  rw [if_neg he, if_neg (by omega)]
  cases hb : modularReduce t v m with
  | none => rfl
  | some b =>
    simp only
    by_cases h1 : e = 1
    · rw [if_pos h1, if_pos (by omega)]
    · rw [if_neg h1, ModInt.powLoopSigned_eq t m]
      by_cases h2 : e = -1
      · subst h2
        rw [modularReduce_eq hm h0] at hb
        injection hb with hb
        rfl
      · rw [if_neg (by omega)]

/-- C33 fails for negative exponents, which are accepted: `5^(-1) mod 7` should be `3` (as `5 * 3 = 15`), but `5`
comes out. -/
theorem C33_negative_exponent_false : powModularReduceSigned (.signed 32) 5 (-1) 7 = some 5 ∧
    (5 * 3 : ℤ) % 7 = 1 ∧ (5 * 5 : ℤ) % 7 ≠ 1 := by
  decide +kernel

/-- C33: exactly when a negative power of an invertible number is right: when the number to twice that power is one. -/
theorem C33_negative_exponent_iff (t : IntTy) (ht : t.Instantiated) (v m : ℤ) (e : ℕ) (hm : t.fits m) (h1 : 1 < m)
    (he : 1 ≤ e) (r : ℤ) (hr : powModularReduceSigned t v (-e) m = some r) :
    r * v ^ e ≡ 1 [ZMOD m] ↔ v ^ (2 * e) ≡ 1 [ZMOD m] := by
  rw [C33_pow_signed_partial t ht v m _ hm (by omega) (by omega)] at hr
  injection hr with hr
  subst hr
  have : v ^ (-(e : ℤ)).natAbs % m * v ^ e ≡ v ^ (2 * e) [ZMOD m] := by
    have h := (Int.mod_modEq (v ^ (-(e : ℤ)).natAbs) m).mul_right (v ^ e)
    rw [Int.natAbs_neg, Int.natAbs_natCast] at h ⊢
    rwa [← pow_add, ← two_mul] at h
  exact ⟨fun h => this.symm.trans h, fun h => this.trans h⟩

/-- the parameter can be met, and `6^(-1) mod 7` is right -/
example : (∃ f, IsModpow f) ∧ powModularReduceSigned (.signed 32) 6 (-1) 7 = some 6 ∧ (6 * 6 : ℤ) % 7 = 1 :=
  ⟨⟨fun b e m => if e < 0 ∨ m = 0 then none else some ((b ^ e.toNat).fmod m), fun _ _ _ => rfl⟩,
    by decide +kernel, by decide +kernel⟩

end Algebraics
