import Verif.Lemmas.Roots
import Verif.Props.History
import Verif.Props.AlgNumExact
import Verif.Props.AlgNumProduct
import Verif.Props.AlgNumQuotient

/-!
# C77: arithmetic on roots of rational numbers

The end point defect of addition, multiplication and comparison (C44, C45, C46) and the defect of reciprocals
(C40) do not touch the roots of rational numbers, but for `x + x`, `x - (-x)`, comparing `x` with `-x`, and products
that are rational.
-/

namespace Algebraics

open Polynomial RealAlg

variable {a b c : RealAlg} {x y : ℝ}

/-! ## With any right factoring -/

/-- C77: the sum of two different roots is exact. -/
theorem C77_add (F : FactorCall) (a b : RealAlg) (x y : ℝ) (ha : a.Represents x) (hb : b.Represents y)
    (hx : RootOfRational x) (hy : RootOfRational y) (hne : x ≠ y)
    (hF : ∀ R, addResultant a.poly b.poly = some R → FactorsRight F R) :
    ∃ N, ∀ fuel ≥ N, ∃ c, a.add F fuel b = .ok c ∧ c.Represents (x + y) :=
  C44_add_unrelated_partial F a b x y ha hb hF fun q h =>
    hx.sum_alone hy hne q ((hb.conj_real_iff _).mp h)

theorem RootOfRational.diff_alone {x y : ℝ} (hx : RootOfRational x) (hy : RootOfRational y) (hne : x ≠ -y)
    (q : ℚ) (h : aeval (x - (q : ℝ)) (minpoly ℚ y) = 0) : (q : ℝ) = x - y := by
  have := hx.neg.sum_alone hy (fun e => hne (by linarith)) (-q) (by
    push_cast
    rwa [show -(q : ℝ) - -x = x - q by ring])
  push_cast at this
  linarith

/-- C77: the difference of two roots that are not each other's negation is exact. -/
theorem C77_sub (F : FactorCall) (a b : RealAlg) (x y : ℝ) (ha : a.Represents x) (hb : b.Represents y)
    (hx : RootOfRational x) (hy : RootOfRational y) (hne : x ≠ -y)
    (hF : ∀ n R, b.neg = .ok n → addResultant a.poly n.poly = some R → FactorsRight F R) :
    ∃ N, ∀ fuel ≥ N, ∃ c, a.sub F fuel b = .ok c ∧ c.Represents (x - y) :=
  C44_sub_unrelated_partial F a b x y ha hb hF fun q h =>
    hx.diff_alone hy hne q ((hb.conj_real_iff _).mp h)

/-- C77: comparing two roots that are not each other's negation is exact, in particular comparing two roots of
the same sign. -/
theorem C77_compare (F : FactorCall) (a b : RealAlg) (x y : ℝ) (ha : a.Represents x) (hb : b.Represents y)
    (hx : RootOfRational x) (hy : RootOfRational y) (hne : x ≠ -y)
    (hF : ∀ n R, b.neg = .ok n → addResultant a.poly n.poly = some R → FactorsRight F R) :
    ∃ N, ∀ fuel ≥ N, (∃ e, a.eq F fuel b = .ok e ∧ (e = true ↔ x = y)) ∧
      ∃ o, a.cmp F fuel b = .ok o ∧ (o = .lt ↔ x < y) ∧ (o = .eq ↔ x = y) ∧ (o = .gt ↔ y < x) :=
  C46_unrelated_partial F a b x y ha hb hF fun q h =>
    hx.diff_alone hy hne q ((hb.conj_real_iff _).mp h)

/-- C77: the product of two roots is exact if it is irrational, or one of the two is rational, or both are held in
intervals without zero; the product is a root again. -/
theorem C77_mul (F : FactorCall) (a b : RealAlg) (x y : ℝ) (ha : a.Represents x) (hb : b.Represents y)
    (hx : RootOfRational x) (hy : RootOfRational y)
    (hs : Irrational (x * y) ∨ ¬ Irrational x ∨ ¬ Irrational y ∨
      (¬ a.interval.Contains 0 ∧ ¬ b.interval.Contains 0))
    (hF : ∀ R, mulResultant a.poly b.poly = some R → R.toPoly ≠ 0 → FactorsRight F R) :
    RootOfRational (x * y) ∧ ∃ N, ∀ fuel ≥ N, ∃ c, a.mul F fuel b = .ok c ∧ c.Represents (x * y) := by
  refine ⟨hx.mul hy, ?_⟩
  by_cases hr : ¬ Irrational x ∨ ¬ Irrational y
  · exact C45_mul_rational F a b x y ha hb hr hF
  · push Not at hr
    by_cases hi : Irrational (x * y)
    · have hx0 : x ≠ 0 := fun e => hr.1 ⟨0, by simp [e]⟩
      exact C45_mul_unrelated_partial F a b x y ha hb hF fun q h =>
        hy.product_alone hx0 hi q ((hb.conj_real_iff _).mp h)
    · obtain ⟨v, hv⟩ := not_not.mp hi
      rcases hs with h | h | h | ⟨h1, h2⟩
      · exact absurd h hi
      · exact absurd hr.1 h
      · exact absurd hr.2 h
      · rw [← hv]
        exact C45_rational_product_signed F a b x y v ha hb hv.symm h1 h2 hF

/-- C77: the reciprocal of a root other than zero is exact, and a root again. -/
theorem C77_recip (a : RealAlg) (x : ℝ) (ha : a.Represents x) (hx : RootOfRational x) (h0 : x ≠ 0) :
    RootOfRational x⁻¹ ∧ ∃ N, ∀ fuel ≥ N, ∃ b, a.checkedRecip fuel = .ok (some b) ∧
      a.recip fuel = .ok b ∧ b.Represents x⁻¹ := by
  refine ⟨hx.inv, ?_⟩
  by_cases hi : Irrational x
  · obtain ⟨N, hN⟩ := C40_recip_one_sign_partial a x ha hi fun z hz hs =>
      hx.recip_alone z ((ha.conj_real_iff z).mp hz) hs
    refine ⟨N, fun fuel hf => ?_⟩
    obtain ⟨b, h1, h2⟩ := hN fuel hf
    exact ⟨b, h1, by unfold RealAlg.recip; rw [h1]; rfl, h2⟩
  · obtain ⟨q, rfl⟩ := not_not.mp hi
    refine ⟨0, fun fuel _ => ⟨ofRat q⁻¹, ?_, ?_, ?_⟩⟩
    · rw [ha.checkedRecip_rat, if_neg (by exact_mod_cast h0)]
    · unfold RealAlg.recip
      rw [ha.checkedRecip_rat, if_neg (by exact_mod_cast h0)]
      rfl
    · have := ofRat_represents q⁻¹
      push_cast at this
      exact this

/-- C77: whatever `checked_pow` returns for a positive root is the power, for every rational exponent; the power is
a root again. -/
theorem C77_pow (ln2 : ℕ → ℕ → DFI) (hln2 : ∀ t, IsLn2 (ln2 t)) (F : FactorCall) (fuel : ℕ)
    (a : RealAlg) (x : ℝ) (h : a.Represents x) (hr : RootOfRational x) (hx : 0 < x) (e : ℚ)
    (hF : ∀ b R, powBase fuel a e = .ok b → powResultant b.poly e.num.natAbs e.den = some R →
      FactorsRight F R)
    (c : RealAlg) (hc : a.checkedPow ln2 F fuel e = .ok (some c)) :
    c.Represents (x ^ (e : ℝ)) ∧ RootOfRational (x ^ (e : ℝ)) := by
  constructor
  · obtain ⟨k, hk, q, hq⟩ := hr
    have := C47_alone_sound_partial ln2 hln2 F fuel a x h hx e (PowerAlone.of_root hx k hk q hq _) hF c hc
    rwa [powValue_rpow] at this
  · obtain ⟨k, hk, p, hp⟩ := hr.zpow e.num
    refine ⟨e.den * k, by have := e.den_pos; positivity, p, ?_⟩
    rw [pow_mul, ← Real.rpow_natCast (x ^ (e : ℝ)) e.den, ← Real.rpow_mul hx.le]
    rw [show (e : ℝ) * e.den = e.num by exact_mod_cast Rat.mul_den_eq_num e, Real.rpow_intCast, hp]

/-- C77: whatever `checked_pow` returns for an integer power of a negative root is the power; the power is a root
again. -/
theorem C77_pow_negative (ln2 : ℕ → ℕ → DFI) (hln2 : ∀ t, IsLn2 (ln2 t)) (F : FactorCall) (fuel : ℕ)
    (a : RealAlg) (x : ℝ) (h : a.Represents x) (hr : RootOfRational x) (hx : x < 0) (n : ℤ)
    (hF : ∀ b R, powBase fuel a n = .ok b → powResultant b.poly n.natAbs 1 = some R → FactorsRight F R)
    (c : RealAlg) (hc : a.checkedPow ln2 F fuel n = .ok (some c)) :
    c.Represents (x ^ n) ∧ RootOfRational (x ^ n) := by
  refine ⟨?_, hr.zpow n⟩
  obtain ⟨k, hk, q, hq⟩ := hr
  exact C47_negative_sound_partial ln2 hln2 F fuel a x h hx n (PowerAloneOfSign.of_neg_root hx k hk q hq _) hF c hc

/-- C77: the quotient of two roots, the second not zero, is exact if it is irrational, or one of the two is rational,
or the first is held in an interval without members of the other sign; the quotient is a root again. -/
theorem C77_div (F : FactorCall) (a b : RealAlg) (x y : ℝ) (ha : a.Represents x) (hb : b.Represents y)
    (hx : RootOfRational x) (hy : RootOfRational y) (hy0 : y ≠ 0)
    (hs : Irrational (x / y) ∨ ¬ Irrational x ∨ ¬ Irrational y ∨ ∀ z, a.interval.Contains z → 0 ≤ x * z)
    (hF : ∀ fuel r R, b.checkedRecip fuel = .ok (some r) → mulResultant a.poly r.poly = some R →
      R.toPoly ≠ 0 → FactorsRight F R) :
    RootOfRational (x / y) ∧ ∃ N, ∀ fuel ≥ N, ∃ c, a.checkedExactDiv F fuel b = .ok (some c) ∧
      a.div F fuel b = .ok c ∧ c.Represents (x / y) := by
  refine ⟨by rw [div_eq_mul_inv]; exact hx.mul hy.inv, ?_⟩
  obtain ⟨M, hM⟩ := (C77_recip b y hb hy hy0).2
  obtain ⟨r, hr, -, hry⟩ := hM M le_rfl
  have hinv : Irrational y⁻¹ ↔ Irrational y := irrational_inv_iff
  have key : (∃ N, ∀ fuel ≥ N, ∃ c, a.mul F fuel r = .ok c ∧ c.Represents (x * y⁻¹)) →
      ∃ N, ∀ fuel ≥ N, ∃ c, a.checkedExactDiv F fuel b = .ok (some c) ∧
      a.div F fuel b = .ok c ∧ c.Represents (x / y) := by
    rintro ⟨N, hN⟩
    refine ⟨max N M, fun fuel hf => ?_⟩
    obtain ⟨c, e1, e2⟩ := hN fuel (le_trans (le_max_left _ _) hf)
    have e3 := checkedExactDiv_recip F (a := a) hr (le_trans (le_max_right _ _) hf) c
    exact ⟨c, e3.1.mpr e1, e3.2.mpr e1, by rw [div_eq_mul_inv]; exact e2⟩
  have hmul := fun h => (C77_mul F a r x y⁻¹ ha hry hx hy.inv h (hF M r · hr)).2
  rw [← div_eq_mul_inv, hinv] at hmul
  rw [← div_eq_mul_inv] at key
  rcases hs with h | h | h | h
  · exact key (hmul (Or.inl h))
  · exact key (hmul (Or.inr (Or.inl h)))
  · exact key (hmul (Or.inr (Or.inr (Or.inl h))))
  · by_cases hi : Irrational (x / y)
    · exact key (hmul (Or.inl hi))
    by_cases hyi : Irrational y
    · obtain ⟨v, hv⟩ := not_not.mp hi
      rw [← hv]
      exact C45_rational_quotient_partial F a b r x y v M ha hb hyi hr hry hv.symm h (hF M r · hr)
    · exact key (hmul (Or.inr (Or.inr (Or.inl hyi))))

/-! ## With the code's own factoring -/

theorem RootOfInteger.cleanSum (hx : RootOfInteger x) (hy : RootOfInteger y) (hne : x ≠ y) : CleanSum x y :=
  Or.inr ⟨hx.integral, hy.integral, fun q h => hx.rational.sum_alone hy.rational hne q h⟩

theorem coprimeDegrees_rat (h : ¬ Irrational x ∨ ¬ Irrational y) : CoprimeDegrees x y := by
  unfold CoprimeDegrees
  rcases h with h | h
  · obtain ⟨q, rfl⟩ := not_not.mp h
    rw [show ((q : ℚ) : ℝ) = algebraMap ℚ ℝ q from rfl, minpoly.eq_X_sub_C, natDegree_X_sub_C]
    exact Nat.coprime_one_left _
  · obtain ⟨q, rfl⟩ := not_not.mp h
    rw [show ((q : ℚ) : ℝ) = algebraMap ℚ ℝ q from rfl, minpoly.eq_X_sub_C, natDegree_X_sub_C]
    exact Nat.coprime_one_right _

theorem RootOfInteger.cleanProduct (hx : RootOfInteger x) (hy : RootOfInteger y)
    (h : Irrational (x * y) ∨ ¬ Irrational x ∨ ¬ Irrational y) : CleanProduct x y := by
  by_cases hr : ¬ Irrational x ∨ ¬ Irrational y
  · exact Or.inl (coprimeDegrees_rat hr)
  · have hi : Irrational (x * y) := by tauto
    push Not at hr
    exact Or.inr ⟨hx.integral, hy.integral, fun q h =>
      hy.rational.product_alone (fun e => hr.1 ⟨0, by simp [e]⟩) hi q h⟩

theorem RootOfInteger.cleanPower (hx : RootOfInteger x) (e : ℚ) (h0 : 0 ≤ x ∨ e.den = 1) (he : 0 < e) :
    CleanPower x e := by
  obtain ⟨k, hk, q, hq⟩ := hx.rational
  rcases lt_trichotomy x 0 with h | h | h
  · have hden : e.den = 1 := h0.resolve_left (not_le.mpr h)
    exact Or.inr (Or.inr (Or.inr ⟨h, he, hden, hx.integral, PowerAloneOfSign.of_neg_root h k hk q hq _⟩))
  · exact Or.inl ⟨h, he⟩
  · exact Or.inr (Or.inr (Or.inl ⟨h, he, hx.integral, PowerAlone.of_root h k hk q hq _⟩))

/-- C77: whatever is returned for roots of integers, with the code's own factoring, any random numbers and any
state of the cache of `log 2`, is exact. -/
theorem C77_own_factor (ln2 : ℕ → ℕ → DFI) (hln2 : ∀ t, IsLn2 (ln2 t)) (choose : ℕ → List ℕ → ℕ)
    (hc : Poly.HeapOrder choose) (rng : ℕ → ℕ) (ffuel fuel : ℕ) (a b : RealAlg) (x y : ℝ)
    (ha : a.Represents x) (hb : b.Represents y) (hx : RootOfInteger x) (hy : RootOfInteger y) :
    (x ≠ y → ∀ c, a.add (factorCall choose rng ffuel) fuel b = .ok c → c.Represents (x + y)) ∧
    (x ≠ -y → ∀ c, a.sub (factorCall choose rng ffuel) fuel b = .ok c → c.Represents (x - y)) ∧
    (x ≠ -y → ∀ r, a.eq (factorCall choose rng ffuel) fuel b = .ok r → (r = true ↔ x = y)) ∧
    (x ≠ -y → ∀ o, a.cmp (factorCall choose rng ffuel) fuel b = .ok o →
      (o = .lt ↔ x < y) ∧ (o = .eq ↔ x = y) ∧ (o = .gt ↔ y < x)) ∧
    ((Irrational (x * y) ∨ ¬ Irrational x ∨ ¬ Irrational y ∨
        (¬ a.interval.Contains 0 ∧ ¬ b.interval.Contains 0)) →
      ∀ c, a.mul (factorCall choose rng ffuel) fuel b = .ok c → c.Represents (x * y)) ∧
    (∀ c, a.checkedRecip fuel = .ok (some c) → c.Represents x⁻¹) ∧
    (∀ e > 0, 0 ≤ x ∨ e.den = 1 → ∀ c, a.checkedPow ln2 (factorCall choose rng ffuel) fuel e = .ok (some c) →
      c.Represents (x ^ (e : ℝ))) := by
  have hsub : x ≠ -y → ∀ c, a.sub (factorCall choose rng ffuel) fuel b = .ok c → c.Represents (x - y) :=
    fun hne c h => sub_clean choose hc rng ffuel fuel ha hb (hx.cleanSum hy.neg hne) h
  refine ⟨fun hne c h => add_clean choose hc rng ffuel fuel ha hb (hx.cleanSum hy hne) h, hsub, ?_, ?_, ?_,
    fun c h => recip_clean fuel ha (fun _ z hz hs => hx.rational.recip_alone z hz hs) h, ?_⟩
  · intro hne r h
    unfold RealAlg.eq at h
    cases h1 : a.sub (factorCall choose rng ffuel) fuel b with
    | error e => rw [h1] at h; cases h
    | ok d =>
      rw [h1] at h
      cases h
      rw [(hsub hne d h1).isZero_iff, sub_eq_zero]
  · intro hne o h
    unfold RealAlg.cmp at h
    cases h1 : a.sub (factorCall choose rng ffuel) fuel b with
    | error e => rw [h1] at h; cases h
    | ok d =>
      rw [h1] at h
      obtain ⟨o', h3, h4, h5, h6⟩ := C41_cmp_with_zero d _ (hsub hne d h1)
      have h : d.cmpWithZero = .ok o := h
      rw [h] at h3
      cases h3
      rw [sub_neg] at h4
      rw [sub_eq_zero] at h5
      rw [sub_pos] at h6
      exact ⟨h4, h5, h6⟩
  · intro hs c h
    by_cases hcl : Irrational (x * y) ∨ ¬ Irrational x ∨ ¬ Irrational y
    · exact mul_clean choose hc rng ffuel fuel ha hb (hx.cleanProduct hy hcl) h
    · have hz : ¬ a.interval.Contains 0 ∧ ¬ b.interval.Contains 0 := by tauto
      push Not at hcl
      obtain ⟨hi, hxi, hyi⟩ := hcl
      obtain ⟨v, hv⟩ := not_not.mp hi
      have hx0 : x ≠ 0 := fun e => hxi ⟨0, by simp [e]⟩
      have hy0 : y ≠ 0 := fun e => hyi ⟨0, by simp [e]⟩
      rcases mul_ok_cases _ fuel ha hb h with ⟨R, r, h1, h2⟩ | h1
      · obtain ⟨N, hN⟩ := C45_rational_product_signed (factorCall choose rng ffuel) a b x y v ha hb hv.symm
          hz.1 hz.2 (fun R' hR' _ => by
            rw [h1] at hR'
            cases hR'
            refine factorCall_right choose hc rng ffuel R ?_ ⟨r, h2⟩
            rw [mulResultant_leading _ _ R (ha.coeff_zero_ne hx0) (hb.coeff_zero_ne hy0) h1, abs_mul, abs_pow,
              abs_pow, ha.leading_of_integral hx.integral, hb.leading_of_integral hy.integral]
            norm_num)
        obtain ⟨c', h3, h4⟩ := hN (max fuel N) (le_max_right _ _)
        rw [mul_mono _ a b c fuel h _ (le_max_left _ _)] at h3
        cases h3
        rwa [← hv]
      · exact h1
  · intro e he h0 c h
    have := pow_clean ln2 hln2 choose hc rng ffuel fuel ha e (hx.cleanPower e h0 he) h
    rwa [powValue_rpow] at this

theorem RootOfInteger.rpow (hx : RootOfInteger x) (h0 : 0 < x) (e : ℚ) (he : 0 < e) :
    RootOfInteger (x ^ (e : ℝ)) := by
  obtain ⟨k, hk, m, hm⟩ := hx
  refine ⟨e.den * k, by have := e.den_pos; positivity, m ^ e.num.natAbs, ?_⟩
  have hn : (e.num.natAbs : ℤ) = e.num := Int.natAbs_of_nonneg (Rat.num_pos.mpr he).le
  rw [pow_mul, ← Real.rpow_natCast (x ^ (e : ℝ)) e.den, ← Real.rpow_mul h0.le]
  rw [show (e : ℝ) * e.den = e.num by exact_mod_cast Rat.mul_den_eq_num e, Real.rpow_intCast,
    show x ^ e.num = x ^ e.num.natAbs by rw [← zpow_natCast, hn], ← pow_mul, mul_comm, pow_mul, hm,
    Int.cast_pow]

theorem RootOfInteger.powValue (hx : RootOfInteger x) (e : ℚ) (h0 : 0 ≤ x ∨ e.den = 1) (he : 0 < e) :
    RootOfInteger (powValue x e) := by
  by_cases h : 0 < x
  · rw [powValue_rpow]
    exact hx.rpow h e he
  · by_cases hz : x = 0
    · rw [hz, powValue_zero e he]
      exact ⟨1, one_pos, 0, by simp⟩
    · have hden : e.den = 1 := h0.resolve_left fun h1 => h (lt_of_le_of_ne h1 (Ne.symm hz))
      have hn : (e.num.natAbs : ℤ) = e.num := Int.natAbs_of_nonneg (Rat.num_pos.mpr he).le
      unfold Algebraics.powValue
      rw [if_pos hden, ← hn, zpow_natCast]
      obtain ⟨k, hk, m, hm⟩ := hx
      exact ⟨k, hk, m ^ e.num.natAbs, by rw [← pow_mul, mul_comm, pow_mul, hm, Int.cast_pow]⟩

/-- C77: the power law. For a positive root of an integer and positive exponents, `x.pow(e).pow(f)` and
`x.pow(e * f)` compare equal, and with `e * f = 1` the first gives back `x`; whenever the calls return, with the
code's own factoring, whatever random numbers and states of the cache the single calls meet. -/
theorem C77_power_law (ln2 : Fin 3 → ℕ → ℕ → DFI) (hln2 : ∀ i t, IsLn2 (ln2 i t))
    (choose : Fin 4 → ℕ → List ℕ → ℕ) (hc : ∀ i, Poly.HeapOrder (choose i)) (rng : Fin 4 → ℕ → ℕ)
    (ffuel fuel : Fin 4 → ℕ) (a b c d : RealAlg) (x : ℝ) (ha : a.Represents x) (hx : RootOfInteger x)
    (h0 : 0 < x) (e f : ℚ) (he : 0 < e) (hf : 0 < f)
    (h1 : a.checkedPow (ln2 0) (factorCall (choose 0) (rng 0) (ffuel 0)) (fuel 0) e = .ok (some b))
    (h2 : b.checkedPow (ln2 1) (factorCall (choose 1) (rng 1) (ffuel 1)) (fuel 1) f = .ok (some c))
    (h3 : a.checkedPow (ln2 2) (factorCall (choose 2) (rng 2) (ffuel 2)) (fuel 2) (e * f) = .ok (some d)) :
    (∀ r, c.eq (factorCall (choose 3) (rng 3) (ffuel 3)) (fuel 3) d = .ok r → r = true) ∧
    (∀ o, c.cmp (factorCall (choose 3) (rng 3) (ffuel 3)) (fuel 3) d = .ok o → o = .eq) ∧
    c.Represents (x ^ ((e * f : ℚ) : ℝ)) ∧ (e * f = 1 → c.Represents x) := by
  have hb := (C77_own_factor (ln2 0) (hln2 0) (choose 0) (hc 0) (rng 0) (ffuel 0) (fuel 0) a a x x ha ha hx
    hx).2.2.2.2.2.2 e he (Or.inl h0.le) b h1
  have hbr := hx.rpow h0 e he
  have hb0 : 0 < x ^ (e : ℝ) := Real.rpow_pos_of_pos h0 _
  have hcc := (C77_own_factor (ln2 1) (hln2 1) (choose 1) (hc 1) (rng 1) (ffuel 1) (fuel 1) b b _ _ hb hb hbr
    hbr).2.2.2.2.2.2 f hf (Or.inl hb0.le) c h2
  have hd := (C77_own_factor (ln2 2) (hln2 2) (choose 2) (hc 2) (rng 2) (ffuel 2) (fuel 2) a a x x ha ha hx
    hx).2.2.2.2.2.2 (e * f) (mul_pos he hf) (Or.inl h0.le) d h3
  rw [← Real.rpow_mul h0.le, show (e : ℝ) * f = ((e * f : ℚ) : ℝ) by push_cast; rfl] at hcc
  have hr := hx.rpow h0 (e * f) (mul_pos he hf)
  have hpos : 0 < x ^ ((e * f : ℚ) : ℝ) := Real.rpow_pos_of_pos h0 _
  have key := C77_own_factor (ln2 0) (hln2 0) (choose 3) (hc 3) (rng 3) (ffuel 3) (fuel 3) c d _ _ hcc hd hr hr
  refine ⟨fun r h => (key.2.2.1 (by linarith) r h).mpr rfl, fun o h => (key.2.2.2.1 (by linarith) o h).2.1.mpr rfl,
    hcc, fun hef => ?_⟩
  rwa [hef, Rat.cast_one, Real.rpow_one] at hcc

/-- the calls of the power law return: `4.pow(2).pow(3)` and `4.pow(6)`, and `2.pow(1/2).pow(1)` and `2.pow(1/2)` -/
example (ln2 : ℕ → ℕ → DFI) (F : FactorCall) : ∃ b c d, (ofInt 4).checkedPow ln2 F 1 2 = .ok (some b) ∧
    b.checkedPow ln2 F 1 3 = .ok (some c) ∧ (ofInt 4).checkedPow ln2 F 1 (2 * 3) = .ok (some d) := by
  have h4 : (ofInt 4).Represents ((4 : ℚ) : ℝ) := by simpa using ofInt_represents 4
  obtain ⟨b, h1, hb⟩ := C47_integer_power_rational ln2 F 1 _ 4 h4 (by norm_num) 2
  obtain ⟨c, h2, -⟩ := C47_integer_power_rational ln2 F 1 b 16 (by norm_num at hb ⊢; exact hb) (by norm_num) 3
  obtain ⟨d, h3, -⟩ := C47_integer_power_rational ln2 F 1 _ 4 h4 (by norm_num) 6
  exact ⟨b, c, d, by simpa using h1, by simpa using h2, by norm_num at h3 ⊢; exact h3⟩

example : ∃ rng M, ∃ b : RealAlg,
    (ofInt (2 : ℕ)).checkedPow (fun _ => ln2Direct) (factorCall firstSmallest rng M) 1 (1 / 2) = .ok (some b) ∧
    b.checkedPow (fun _ => ln2Direct) (factorCall firstSmallest rng M) 1 1 = .ok (some b) := by
  obtain ⟨rng, hfair⟩ := exists_fair
  obtain ⟨M, hM⟩ := C47_integer_root_total_partial (fun _ => ln2Direct) (fun _ => C06_ln2_direct) firstSmallest
    firstSmallest_order rng hfair 2 (by norm_num) (1 / 2) (by norm_num) (by norm_num)
    (by rw [show Nat.log 2 2 = 1 by decide +kernel]; norm_num)
  obtain ⟨c, h1, -⟩ := hM M le_rfl 1 le_rfl
  exact ⟨rng, M, c, h1, C47_exponent_one _ _ _ _⟩

/-- C77: with the code's own factoring and fair random numbers the operations on roots of integers of moderate size
end, and are exact. -/
theorem C77_total (choose : ℕ → List ℕ → ℕ) (hc : Poly.HeapOrder choose) (rng : ℕ → ℕ) (hfair : Fair rng)
    (a b : RealAlg) (x y : ℝ) (ha : a.Represents x) (hb : b.Represents y) (hx : RootOfInteger x)
    (hy : RootOfInteger y) (hm : a.poly.ModeratePair b.poly) :
    (x ≠ y → ∃ M, ∀ ffuel ≥ M, ∃ N, ∀ fuel ≥ N, ∃ c,
      a.add (factorCall choose rng ffuel) fuel b = .ok c ∧ c.Represents (x + y)) ∧
    (x ≠ -y → ∃ M, ∀ ffuel ≥ M, ∃ N, ∀ fuel ≥ N, ∃ c,
      a.sub (factorCall choose rng ffuel) fuel b = .ok c ∧ c.Represents (x - y)) ∧
    (x ≠ -y → ∃ M, ∀ ffuel ≥ M, ∃ N, ∀ fuel ≥ N,
      (∃ e, a.eq (factorCall choose rng ffuel) fuel b = .ok e ∧ (e = true ↔ x = y)) ∧
      ∃ o, a.cmp (factorCall choose rng ffuel) fuel b = .ok o ∧
        (o = .lt ↔ x < y) ∧ (o = .eq ↔ x = y) ∧ (o = .gt ↔ y < x)) ∧
    ((Irrational (x * y) ∨ ¬ Irrational x ∨ ¬ Irrational y ∨
        (¬ a.interval.Contains 0 ∧ ¬ b.interval.Contains 0)) →
      ∃ M, ∀ ffuel ≥ M, ∃ N, ∀ fuel ≥ N, ∃ c,
        a.mul (factorCall choose rng ffuel) fuel b = .ok c ∧ c.Represents (x * y)) := by
  have hl : |a.poly.toPoly.leadingCoeff| ^ b.poly.toPoly.natDegree *
      |b.poly.toPoly.leadingCoeff| ^ a.poly.toPoly.natDegree ≤ 4 := by
    rw [ha.leading_of_integral hx.integral, hb.leading_of_integral hy.integral]
    norm_num
  have hd : x ≠ -y → ∀ q : ℚ, aeval (x - (q : ℝ)) b.poly.toPoly = 0 → (q : ℝ) = x - y := fun hne q h =>
    hx.rational.diff_alone hy.rational hne q ((hb.conj_real_iff _).mp h)
  refine ⟨fun hne => C44_add_total_integers_partial choose hc rng hfair a b x y ha hb hl (fun q h =>
      hx.rational.sum_alone hy.rational hne q ((hb.conj_real_iff _).mp h)) hm,
    fun hne => C44_sub_total_integers_partial choose hc rng hfair a b x y ha hb hl (hd hne) hm,
    fun hne => C46_total_integers_partial choose hc rng hfair a b x y ha hb hl (hd hne) hm, fun hs => ?_⟩
  by_cases h0 : x = 0 ∨ y = 0
  · refine ⟨0, fun ffuel _ => ⟨0, fun fuel _ => ?_⟩⟩
    rw [mul_eq_zero.mpr h0]
    exact C45_mul_zero _ a b x y ha hb h0 fuel
  · push Not at h0
    have hxc := ha.coeff_zero_ne h0.1
    have hyc := hb.coeff_zero_ne h0.2
    obtain ⟨M, hM⟩ := factorCall_returns_option choose hc rng hfair (mulResultant a.poly b.poly)
      fun R h _ => mulResultant_moderate _ _ R hxc hyc hm h
    refine ⟨M, fun ffuel hf => ?_⟩
    refine (C77_mul _ a b x y ha hb hx.rational hy.rational hs (fun R hR hR0 => ?_)).2
    refine factorCall_right choose hc rng ffuel R ?_ (hM ffuel hf R hR hR0)
    rw [mulResultant_leading _ _ R hxc hyc hR, abs_mul, abs_pow, abs_pow]
    exact hl

theorem rootOfInteger_sqrt (m : ℕ) : RootOfInteger (√m) :=
  ⟨2, two_pos, m, by rw [Real.sq_sqrt (by positivity)]; simp⟩

/-- `√2 + √3`, `√2 < √3`, and `√2 * √2`, which is rational -/
example (rng : ℕ → ℕ) (hfair : Fair rng) : ∃ M, ∀ ffuel ≥ M, ∃ N, ∀ fuel ≥ N, ∃ c,
    sqrtTwo.add (factorCall firstSmallest rng ffuel) fuel sqrtThree = .ok c ∧ c.Represents (√2 + √3) :=
  (C77_total firstSmallest firstSmallest_order rng hfair sqrtTwo sqrtThree _ _ sqrtTwo_represents
    sqrtThree_represents (by simpa using rootOfInteger_sqrt 2) (by simpa using rootOfInteger_sqrt 3)
    sqrtTwo_sqrtThree_moderate).1 (Real.sqrt_lt_sqrt (by norm_num) (by norm_num)).ne

example (rng : ℕ → ℕ) (hfair : Fair rng) : ∃ M, ∀ ffuel ≥ M, ∃ N, ∀ fuel ≥ N, ∃ c,
    sqrtTwo.mul (factorCall firstSmallest rng ffuel) fuel sqrtTwo = .ok c ∧ c.Represents 2 := by
  have hz : ¬ sqrtTwo.interval.Contains 0 := by
    intro h
    have := h.1
    simp [sqrtTwo] at this
    linarith
  have h := (C77_total firstSmallest firstSmallest_order rng hfair sqrtTwo sqrtTwo _ _ sqrtTwo_represents
    sqrtTwo_represents (by simpa using rootOfInteger_sqrt 2) (by simpa using rootOfInteger_sqrt 2)
    (moderatePair_of_lists [-2, 0, 1] [-2, 0, 1] 2 2 (by decide) (by decide) (by norm_num))).2.2.2
    (Or.inr (Or.inr (Or.inr ⟨hz, hz⟩)))
  rwa [Real.mul_self_sqrt (by norm_num)] at h

/-- the reciprocal of a root, through `C77_recip`; and where the exceptions are: `√2 + √2` (`C44_add_false`),
`√2 == -√2` (`C46_eq_false`), `√2 * √2` held with zero in the interval (`C45_rational_product_false`) -/
example : ∃ N, ∀ fuel ≥ N, ∃ b, sqrtTwo.checkedRecip fuel = .ok (some b) ∧ b.Represents (√2)⁻¹ := by
  obtain ⟨N, hN⟩ := (C77_recip sqrtTwo _ sqrtTwo_represents (by simpa using (rootOfInteger_sqrt 2).rational)
    (by positivity)).2
  exact ⟨N, fun fuel hf => by obtain ⟨b, h1, -, h2⟩ := hN fuel hf; exact ⟨b, h1, h2⟩⟩

/-! ## Programs -/

theorem Instr.OnRoots.clean {v : ℕ → ℝ} {i : Instr} (hv : ∀ n, RootOfInteger (v n)) (h : i.OnRoots v) :
    i.Clean v ∧ RootOfInteger (i.value v) := by
  cases i with
  | const d q =>
    refine ⟨trivial, ?_⟩
    have : (q : ℝ) = q.num := by exact_mod_cast (Rat.coe_int_num_of_den_eq_one h).symm
    simp only [Instr.value]
    rw [this]
    exact rootOfInteger_int _
  | copy d s => exact ⟨trivial, hv s⟩
  | neg d s => exact ⟨trivial, (hv s).neg⟩
  | abs d s =>
    refine ⟨trivial, ?_⟩
    simp only [Instr.value]
    rcases abs_choice (v s) with h | h <;> rw [h]
    · exact hv s
    · exact (hv s).neg
  | floor d s => exact ⟨trivial, rootOfInteger_int _⟩
  | ceil d s => exact ⟨trivial, rootOfInteger_int _⟩
  | trunc d s => exact ⟨trivial, rootOfInteger_int _⟩
  | pow d s e =>
    refine ⟨(hv s).cleanPower e h.1 h.2, ?_⟩
    simp only [Instr.value]
    exact (hv s).powValue e h.1 h.2
  | mul d s t => exact ⟨(hv s).cleanProduct (hv t) h, (hv s).mul (hv t)⟩
  | fract d s => exact h.elim
  | recip d s => exact h.elim
  | add d s t => exact h.elim
  | sub d s t => exact h.elim
  | div d s t => exact h.elim
  | rem d s t => exact h.elim
  | absSub d s t => exact h.elim

theorem ProgramOnRoots.clean (p : List Instr) (v : ℕ → ℝ) (hv : ∀ n, RootOfInteger (v n))
    (h : ProgramOnRoots p v) : CleanProgram p v ∧ ∀ n, RootOfInteger (values p v n) := by
  induction p generalizing v with
  | nil => exact ⟨trivial, hv⟩
  | cons i p ih =>
    obtain ⟨h1, h2⟩ := Instr.OnRoots.clean hv h.1
    obtain ⟨h3, h4⟩ := ih (Function.update v i.target (i.value v)) (fun n => by
      by_cases hn : n = i.target
      · subst hn; rwa [Function.update_self]
      · rw [Function.update_of_ne hn]; exact hv n) h.2
    exact ⟨⟨h1, h3⟩, h4⟩

/-- C77: programs of any length that stay among the roots of integers are exact: every variable holds the number it
should hold, and any two variables that are not each other's negation compare as the real numbers do. -/
theorem C77_program (p : List Instr) (st st' : ℕ → RealAlg) (v : ℕ → ℝ) (hv : ∀ n, (st n).Represents (v n))
    (hr : ∀ n, RootOfInteger (v n)) (hp : ProgramOnRoots p v) (hrun : Run p st st') :
    (∀ n, (st' n).Represents (values p v n)) ∧
    ∀ n m, values p v n ≠ -values p v m → ∀ choose, Poly.HeapOrder choose → ∀ rng ffuel fuel,
      (∀ r, (st' n).eq (factorCall choose rng ffuel) fuel (st' m) = .ok r →
        (r = true ↔ values p v n = values p v m)) ∧
      ∀ o, (st' n).cmp (factorCall choose rng ffuel) fuel (st' m) = .ok o →
        (o = .lt ↔ values p v n < values p v m) ∧ (o = .eq ↔ values p v n = values p v m) ∧
        (o = .gt ↔ values p v m < values p v n) := by
  obtain ⟨h1, h2⟩ := ProgramOnRoots.clean p v hr hp
  refine ⟨C71_program_exact p st st' v hv h1 hrun, fun n m hne choose hc rng ffuel fuel => ?_⟩
  exact (C71_program_observed p st st' v hv h1 hrun n).2.2.2.2.2.2 m
    ((h2 n).cleanSum (h2 m).neg hne) choose hc rng ffuel fuel

/-- a program on roots: `2.pow(1/2)`, then `.pow(2/3)`, and twice the result, and `-√2` to the third power; that such
programs run is shown at the end of `Props/History.lean` -/
example : ProgramOnRoots [.const 0 2, .pow 1 0 (1 / 2), .pow 2 1 (2 / 3), .mul 3 0 2, .floor 4 3, .neg 5 1, .pow 6 5 3]
    (fun _ => 0) := by
  have h2 : 0 < powValue 2 (1 / 2) := powValue_pos _ _ (by norm_num)
  refine ⟨rfl, ⟨Or.inl ?_, by norm_num⟩, ⟨Or.inl ?_, by norm_num⟩, Or.inr (Or.inl ?_), trivial, trivial,
    ⟨Or.inr rfl, by norm_num⟩, trivial⟩
  · simp [Instr.target, Instr.value]
  · simpa [Instr.target, Instr.value] using h2.le
  · simp [Instr.target, Instr.value, Function.update]

end Algebraics
