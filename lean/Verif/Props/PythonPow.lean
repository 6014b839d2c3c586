import Verif.Props.Python
import Verif.Props.Roots

/-!
# C62: `**` in Python with irrational bases and broken exponents
-/

namespace Algebraics

open Polynomial RealAlg

namespace Python

/-- what `v ** w` does with a rational exponent -/
theorem pow_eq (ln2 : ℕ → ℕ → DFI) (F : FactorCall) (fuel : ℕ) (v w : PyVal) (x : ℝ) (e : ℚ) (hv : v.Is x)
    (hw : w.Is e) (hn : v.IsNumber ∨ w.IsNumber) :
    ∃ a : RealAlg, a.Represents x ∧ (v = .number a ∨ ∃ n : ℤ, v = .int n ∧ a = ofInt n) ∧
      ∀ c, pow ln2 F fuel false v w = .ok c ↔ a.checkedPow ln2 F fuel e = .ok (some c) := by
  have key : ∀ a b : RealAlg, b.Represents e →
      ∀ c, dunderPow ln2 F fuel false a b = .ok c ↔ a.checkedPow ln2 F fuel e = .ok (some c) := by
    intro a b hb c
    unfold dunderPow tryArithmetic
    beta_reduce
    rw [if_neg (by simp), hb.toRational_rat]
    cases hp : a.checkedPow ln2 F fuel e with
    | error s => simp [run, bind, Except.bind, hp]
    | ok o => cases o <;> simp [run, bind, Except.bind, pure, Except.pure, hp]
  cases v with
  | number a =>
    refine ⟨a, hv, Or.inl rfl, ?_⟩
    cases w with
    | number b => exact key a b hw
    | int n =>
      refine key a (ofInt n) ?_
      rw [show (e : ℝ) = n from hw]
      exact ofInt_represents n
    | pyNone => exact hw.elim
    | other => exact hw.elim
  | int n =>
    refine ⟨ofInt n, ?_, Or.inr ⟨n, rfl, rfl⟩, ?_⟩
    · rw [show x = n from hv]
      exact ofInt_represents n
    · cases w with
      | number b => exact key (ofInt n) b hw
      | int m => rcases hn with ⟨_, h⟩ | ⟨_, h⟩ <;> cases h
      | pyNone => exact hw.elim
      | other => exact hw.elim
  | pyNone => exact hv.elim
  | other => exact hv.elim

/-- C62, in part: whatever `v ** w` returns for an exponent `e` that is rational is the power, if the power is a safe one
(`CleanPower`), with the code's own factoring, any random numbers and any state of the cache of `log 2`. Missing: other
powers, see C47. -/
theorem _root_.Algebraics.C62_pow_sound_partial (ln2 : ℕ → ℕ → DFI) (hln2 : ∀ t, IsLn2 (ln2 t))
    (choose : ℕ → List ℕ → ℕ) (hc : Poly.HeapOrder choose) (rng : ℕ → ℕ) (ffuel fuel : ℕ) (v w : PyVal) (x : ℝ) (e : ℚ)
    (hv : v.Is x) (hw : w.Is e) (hn : v.IsNumber ∨ w.IsNumber) (hs : CleanPower x e) (c : RealAlg)
    (h : pow ln2 (factorCall choose rng ffuel) fuel false v w = .ok c) : c.Represents (x ^ (e : ℝ)) := by
  obtain ⟨a, ha, -, hiff⟩ := pow_eq ln2 (factorCall choose rng ffuel) fuel v w x e hv hw hn
  rw [← powValue_rpow]
  exact pow_clean ln2 hln2 choose hc rng ffuel fuel ha e hs ((hiff c).mp h)

/-- C62: `**` of a root of an integer, with either sign if the exponent is an integer, and a positive exponent. -/
theorem _root_.Algebraics.C62_pow_roots (ln2 : ℕ → ℕ → DFI) (hln2 : ∀ t, IsLn2 (ln2 t))
    (choose : ℕ → List ℕ → ℕ) (hc : Poly.HeapOrder choose) (rng : ℕ → ℕ) (ffuel fuel : ℕ) (v w : PyVal) (x : ℝ) (e : ℚ)
    (hv : v.Is x) (hw : w.Is e) (hn : v.IsNumber ∨ w.IsNumber) (hx : RootOfInteger x) (h0 : 0 ≤ x ∨ e.den = 1) (he : 0 < e)
    (c : RealAlg) (h : pow ln2 (factorCall choose rng ffuel) fuel false v w = .ok c) :
    c.Represents (x ^ (e : ℝ)) ∧ RootOfInteger (x ^ (e : ℝ)) := by
  refine ⟨C62_pow_sound_partial ln2 hln2 choose hc rng ffuel fuel v w x e hv hw hn (hx.cleanPower e h0 he) c h, ?_⟩
  rw [← powValue_rpow]
  exact hx.powValue e h0 he

/-- C62, in part: roots of positive integers, such as `2 ** (RealAlgebraicNumber(1) / 2)`, with the code's own factoring
and fair random numbers: the call returns and is exact, if the power is below `2^16`. The base is an integer, or an
instance made from one. Missing: other bases, see C47. -/
theorem _root_.Algebraics.C62_root_total_partial (ln2 : ℕ → ℕ → DFI) (hln2 : ∀ t, IsLn2 (ln2 t))
    (choose : ℕ → List ℕ → ℕ) (hc : Poly.HeapOrder choose) (rng : ℕ → ℕ) (hfair : Fair rng) (v w : PyVal)
    (m : ℕ) (hm : 0 < m) (e : ℚ) (he : 0 < e) (hd : e.den ≤ 5000) (hM : e * (Nat.log 2 m + 2) ≤ 16)
    (hv : v = .int m ∨ ∃ a, pynew (some (.int m)) = .ok a ∧ v = .number a)
    (hw : w.Is e) (hn : v.IsNumber ∨ w.IsNumber) :
    ∃ M, ∀ ffuel ≥ M, ∀ fuel ≥ 1, ∃ c,
      pow ln2 (factorCall choose rng ffuel) fuel false v w = .ok c ∧ c.Represents ((m : ℝ) ^ (e : ℝ)) := by
  obtain ⟨M, h⟩ := C47_integer_root_total_partial ln2 hln2 choose hc rng hfair m hm e he hd hM
  have hv1 : v = .int m ∨ v = .number (ofInt m) := by
    rcases hv with hv | ⟨a, h1, h2⟩
    · exact Or.inl hv
    · cases h1
      exact Or.inr h2
  have hm1 : (ofInt m).Represents (m : ℝ) := by simpa using ofInt_represents m
  have hv' : v.Is (m : ℝ) := by
    rcases hv1 with rfl | rfl
    · show (m : ℝ) = ((m : ℤ) : ℝ)
      simp
    · exact hm1
  refine ⟨M, fun ffuel hf fuel hfu => ?_⟩
  obtain ⟨c, h1, h2⟩ := h ffuel hf fuel hfu
  obtain ⟨a, -, ha, hiff⟩ := pow_eq ln2 (factorCall choose rng ffuel) fuel v w m e hv' hw hn
  refine ⟨c, (hiff c).mpr ?_, by rwa [← powValue_rpow]⟩
  have : a = ofInt m := by
    rcases hv1 with rfl | rfl
    · rcases ha with ha | ⟨n, ha, rfl⟩ <;> cases ha
      rfl
    · rcases ha with ha | ⟨n, ha, rfl⟩ <;> cases ha
      rfl
  rw [this]
  exact h1

/-- `2 ** (RealAlgebraicNumber(1) / 2)` is the square root of two, and its negation to the third power is `-2√2` -/
example (ln2 : ℕ → ℕ → DFI) (hln2 : ∀ t, IsLn2 (ln2 t)) (rng : ℕ → ℕ) (hfair : Fair rng) (w : RealAlg)
    (hw : w.Represents ((1 / 2 : ℚ) : ℝ)) : ∃ M, ∀ ffuel ≥ M, ∀ fuel ≥ 1, ∃ c,
      pow ln2 (factorCall firstSmallest rng ffuel) fuel false (.int 2) (.number w) = .ok c ∧ c.Represents (√2) := by
  have h := C62_root_total_partial ln2 hln2 firstSmallest firstSmallest_order rng hfair (.int (2 : ℕ)) (.number w)
    2 (by norm_num) (1 / 2) (by norm_num) (by norm_num)
    (by rw [show Nat.log 2 2 = 1 by decide +kernel]; norm_num) (Or.inl rfl) hw (Or.inr ⟨_, rfl⟩)
  rw [show ((2 : ℕ) : ℝ) ^ (((1 / 2 : ℚ) : ℝ)) = √2 by rw [Real.sqrt_eq_rpow]; norm_num] at h
  exact h

example (ln2 : ℕ → ℕ → DFI) (hln2 : ∀ t, IsLn2 (ln2 t)) (rng : ℕ → ℕ) (ffuel fuel : ℕ) (c : RealAlg)
    (h : pow ln2 (factorCall firstSmallest rng ffuel) fuel false (.number negSqrtTwo) (.int 3) = .ok c) :
    c.Represents ((-√2) ^ ((3 : ℚ) : ℝ)) :=
  (C62_pow_roots ln2 hln2 firstSmallest firstSmallest_order rng ffuel fuel (.number negSqrtTwo) (.int 3) (-√2) 3
    negSqrtTwo_represents (by show ((3 : ℚ) : ℝ) = (3 : ℤ); norm_num) (Or.inl ⟨_, rfl⟩)
    ⟨2, two_pos, 2, by rw [neg_sq, Real.sq_sqrt (by norm_num)]; norm_num⟩ (Or.inr rfl) (by norm_num) c h).1

end Python

end Algebraics
