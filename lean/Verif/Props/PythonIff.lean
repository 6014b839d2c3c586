import Verif.Props.Python
import Verif.Props.AlgNumConsistent
import Verif.Props.AlgNumQuotient

/-!
Property C62: exactly when the Python operators are wrong.  All theorems are for operands `v`, `w` of which at
least one is an instance of the class; `a` and `b` are the numbers that they are taken for.
-/

namespace Algebraics

open Polynomial RealAlg

namespace Python

theorem operator_eq {v w : PyVal} {a b : RealAlg} (hn : v.IsNumber ∨ w.IsNumber) (ha : extract v = some a)
    (hb : extract w = some b) (method reflected : RealAlg → RealAlg → Except Raised RealAlg)
    (h : ∀ a b, reflected b a = method a b) : operator method reflected v w = method a b := by
  cases v with
  | number a' =>
    cases ha
    simp only [operator, hb]
  | int n =>
    cases w with
    | number b' =>
      cases hb
      simp only [operator, ha, h]
    | int m => rcases hn with ⟨_, h⟩ | ⟨_, h⟩ <;> cases h
    | pyNone => cases hb
    | other => cases hb
  | pyNone => cases ha
  | other => cases ha

theorem extract_represents {v : PyVal} {a : RealAlg} {x : ℝ} (hv : v.Is x) (ha : extract v = some a) :
    a.Represents x := by
  cases v with
  | number a' => cases ha; exact hv
  | int n =>
    cases ha
    rw [show x = n from hv]
    exact ofInt_represents n
  | pyNone => cases ha
  | other => cases ha

theorem arithmetic_eq (f : RealAlg → RealAlg → Except Stop RealAlg) (a b : RealAlg) :
    arithmetic a b f = run (f a b) := by
  unfold arithmetic tryArithmetic
  cases h : f a b <;> simp [h, run, bind, Except.bind, pure, Except.pure]

theorem run_ok {β : Type} {e : Except Stop β} {c : β} : run e = .ok c ↔ e = .ok c := by
  cases e <;> simp [run]

theorem truediv_eq {F : FactorCall} {fuel : ℕ} {a b c : RealAlg} :
    dunderTruediv F fuel a b = .ok c ↔ a.div F fuel b = .ok c := by
  unfold dunderTruediv tryArithmetic RealAlg.div
  rcases h : a.checkedExactDiv F fuel b with s | _ | d <;>
    simp [h, run, bind, Except.bind, pure, Except.pure, orPanic]

/-- C62: exactly when `v + w` is wrong in Python: if both numbers and their sum are irrational and an end point is hit
(`RealAlg.EndpointHit`); then a rational number is returned.  In particular it is right if one operand is an `int`. -/
theorem _root_.Algebraics.C62_add_exact_iff (F : FactorCall) (v w : PyVal) (x y : ℝ) (hv : v.Is x) (hw : w.Is y)
    (hn : v.IsNumber ∨ w.IsNumber) (a b : RealAlg) (ha : extract v = some a) (hb : extract w = some b)
    (hF : ∀ R, addResultant a.poly b.poly = some R → FactorsRight F R) :
    ((∃ N, ∀ fuel ≥ N, ∃ c, add F fuel v w = .ok c ∧ c.Represents (x + y)) ↔
      ¬ (Irrational x ∧ Irrational y ∧ Irrational (x + y) ∧ EndpointHit (· + ·) DFI.add a b)) ∧
    (Irrational x ∧ Irrational y ∧ Irrational (x + y) ∧ EndpointHit (· + ·) DFI.add a b →
      ∃ N, ∃ q : ℚ, ∀ fuel ≥ N, add F fuel v w = .ok (ofRat q)) := by
  have e : ∀ fuel, add F fuel v w = run (a.add F fuel b) := fun fuel =>
    (operator_eq hn ha hb _ _ fun _ _ => rfl).trans (arithmetic_eq _ _ _)
  simp only [e, run_ok]
  exact C44_add_exact_iff F a b x y (extract_represents hv ha) (extract_represents hw hb) hF

/-- C62: the same for `v - w`. -/
theorem _root_.Algebraics.C62_sub_exact_iff (F : FactorCall) (v w : PyVal) (x y : ℝ) (hv : v.Is x) (hw : w.Is y)
    (hn : v.IsNumber ∨ w.IsNumber) (a b n : RealAlg) (ha : extract v = some a) (hb : extract w = some b)
    (hneg : b.neg = .ok n) (hF : ∀ R, addResultant a.poly n.poly = some R → FactorsRight F R) :
    ((∃ N, ∀ fuel ≥ N, ∃ c, sub F fuel v w = .ok c ∧ c.Represents (x - y)) ↔
      ¬ (Irrational x ∧ Irrational y ∧ Irrational (x - y) ∧ EndpointHit (· + ·) DFI.add a n)) ∧
    (Irrational x ∧ Irrational y ∧ Irrational (x - y) ∧ EndpointHit (· + ·) DFI.add a n →
      ∃ N, ∃ q : ℚ, ∀ fuel ≥ N, sub F fuel v w = .ok (ofRat q)) := by
  have e : ∀ fuel, sub F fuel v w = run (a.sub F fuel b) := fun fuel =>
    (operator_eq hn ha hb _ _ fun _ _ => rfl).trans (arithmetic_eq _ _ _)
  simp only [e, run_ok]
  exact C44_sub_exact_iff F a b n x y (extract_represents hv ha) (extract_represents hw hb) hneg hF

/-- C62: the same for `v * w`, unless the numbers are irrational and the product is rational (there see
`C45_rational_product_partial`). -/
theorem _root_.Algebraics.C62_mul_exact_iff (F : FactorCall) (v w : PyVal) (x y : ℝ) (hv : v.Is x) (hw : w.Is y)
    (hn : v.IsNumber ∨ w.IsNumber) (a b : RealAlg) (ha : extract v = some a) (hb : extract w = some b)
    (hF : ∀ R, mulResultant a.poly b.poly = some R → R.toPoly ≠ 0 → FactorsRight F R)
    (hxy : ¬ Irrational x ∨ ¬ Irrational y ∨ Irrational (x * y)) :
    ((∃ N, ∀ fuel ≥ N, ∃ c, mul F fuel v w = .ok c ∧ c.Represents (x * y)) ↔
      ¬ (Irrational x ∧ Irrational y ∧ EndpointHit (· * ·) DFI.mul a b)) ∧
    (Irrational x ∧ Irrational y ∧ EndpointHit (· * ·) DFI.mul a b →
      ∃ N, ∃ q : ℚ, ∀ fuel ≥ N, mul F fuel v w = .ok (ofRat q)) := by
  have e : ∀ fuel, mul F fuel v w = run (a.mul F fuel b) := fun fuel =>
    (operator_eq hn ha hb _ _ fun _ _ => rfl).trans (arithmetic_eq _ _ _)
  simp only [e, run_ok]
  exact C45_mul_exact_iff F a b x y (extract_represents hv ha) (extract_represents hw hb) hF hxy

/-- C62: the same for `v / w`, if the reciprocal of the divisor comes out right (when that is so is said by
`C40_recip_any_exact_iff`). -/
theorem _root_.Algebraics.C62_truediv_exact_iff (F : FactorCall) (v w : PyVal) (x y : ℝ) (hv : v.Is x)
    (hn : v.IsNumber ∨ w.IsNumber) (a b r : RealAlg) (M : ℕ) (ha : extract v = some a) (hb : extract w = some b)
    (hr : b.checkedRecip M = .ok (some r)) (hry : r.Represents y⁻¹)
    (hF : ∀ R, mulResultant a.poly r.poly = some R → R.toPoly ≠ 0 → FactorsRight F R)
    (hxy : ¬ Irrational x ∨ ¬ Irrational y ∨ Irrational (x / y)) :
    ((∃ N, ∀ fuel ≥ N, ∃ c, truediv F fuel v w = .ok c ∧ c.Represents (x / y)) ↔
      ¬ (Irrational x ∧ Irrational y ∧ EndpointHit (· * ·) DFI.mul a r)) ∧
    (Irrational x ∧ Irrational y ∧ EndpointHit (· * ·) DFI.mul a r →
      ∃ N, ∃ q : ℚ, ∀ fuel ≥ N, truediv F fuel v w = .ok (ofRat q)) := by
  have e : ∀ fuel, truediv F fuel v w = dunderTruediv F fuel a b := fun fuel =>
    operator_eq hn ha hb _ _ fun _ _ => rfl
  simp only [e, truediv_eq]
  exact C45_div_exact_iff F a b r x y M (extract_represents hv ha) hr hry hF hxy

theorem richcmp_right_iff {F : FactorCall} {fuel : ℕ} {a b : RealAlg} {x y : ℝ} :
    (∀ op : CompareOp, ∃ r, richcmp F fuel op a b = .ok r ∧ (r = true ↔ op.Holds x y)) ↔
    (∃ e, a.eq F fuel b = .ok e ∧ (e = true ↔ x = y)) ∧
      ∃ o, a.cmp F fuel b = .ok o ∧ (o = .lt ↔ x < y) ∧ (o = .eq ↔ x = y) ∧ (o = .gt ↔ y < x) := by
  constructor
  · intro h
    obtain ⟨r1, h1, h1'⟩ := h .eq
    obtain ⟨r2, h2, h2'⟩ := h .lt
    obtain ⟨r3, h3, h3'⟩ := h .gt
    refine ⟨⟨r1, run_ok.mp h1, h1'⟩, ?_⟩
    simp only [richcmp] at h2 h3
    rcases hc : a.cmp F fuel b with s | o
    · rw [hc] at h2
      cases h2
    · rw [hc] at h2 h3
      simp only [run, bind, Except.bind, pure, Except.pure, Except.ok.injEq] at h2 h3
      subst h2 h3
      simp only [CompareOp.Holds, decide_eq_true_eq] at h2' h3'
      refine ⟨o, rfl, h2', ?_, h3'⟩
      rcases lt_trichotomy x y with hlt | rfl | hgt
      · rw [h2'.mpr hlt]
        simp [hlt.ne]
      · have n1 : o ≠ .lt := fun h => lt_irrefl _ (h2'.mp h)
        have n2 : o ≠ .gt := fun h => lt_irrefl _ (h3'.mp h)
        cases o <;> simp_all
      · rw [h3'.mpr hgt]
        simp [hgt.ne']
  · rintro ⟨h1, h2⟩ op
    exact richcmp_spec h1 h2 op

/-- C62: exactly when the six comparisons of two instances are not all right in Python. -/
theorem _root_.Algebraics.C62_compare_exact_iff (F : FactorCall) (a b n : RealAlg) (x y : ℝ) (ha : a.Represents x)
    (hb : b.Represents y) (hn : b.neg = .ok n)
    (hF : ∀ R, addResultant a.poly n.poly = some R → FactorsRight F R) :
    (∃ N, ∀ fuel ≥ N, ∀ op : CompareOp, ∃ r, compare F fuel op (.number a) (.number b) = .ok r ∧
      (r = true ↔ op.Holds x y)) ↔
    ¬ (Irrational x ∧ Irrational y ∧ Irrational (x - y) ∧ EndpointHit (· + ·) DFI.add a n ∧
      ∃ (q : ℚ) (x' y' : ℂ), aeval x' a.poly.toPoly = 0 ∧ aeval y' b.poly.toPoly = 0 ∧
        (q : ℂ) = x' - y' ∧ SignType.sign (q : ℝ) ≠ SignType.sign (x - y)) := by
  rw [← C46_exact_iff F a b n x y ha hb hn hF]
  exact exists_congr fun N => forall_congr' fun fuel => imp_congr_right fun _ => richcmp_right_iff

/-- C62: comparisons of an instance and an `int`, in either order, are always right. -/
theorem _root_.Algebraics.C62_compare_int (F : FactorCall) (a : RealAlg) (k : ℤ) (x : ℝ) (ha : a.Represents x)
    (hF : ∀ n R, (ofInt k).neg = .ok n → addResultant a.poly n.poly = some R → FactorsRight F R) :
    ∃ N, ∀ fuel ≥ N, ∀ op : CompareOp,
      (∃ r, compare F fuel op (.number a) (.int k) = .ok r ∧ (r = true ↔ op.Holds x k)) ∧
      ∃ r, compare F fuel op (.int k) (.number a) = .ok r ∧ (r = true ↔ op.Holds k x) := by
  obtain ⟨n, hn, -⟩ := (ofInt_represents k).neg
  have hk : ¬ Irrational (k : ℝ) := fun h => h ⟨k, by simp⟩
  obtain ⟨N, h⟩ := (C46_exact_iff F a (ofInt k) n x k ha (ofInt_represents k) hn (hF n · hn)).mpr
    fun h => hk h.2.1
  refine ⟨N, fun fuel hf op => ⟨richcmp_spec (h fuel hf).1 (h fuel hf).2 op, ?_⟩⟩
  obtain ⟨r, h1, h2⟩ := richcmp_spec (h fuel hf).1 (h fuel hf).2 op.mirror
  refine ⟨r, h1, h2.trans ?_⟩
  rw [mirror_holds]

/-- Non-vacuity: in Python `s + s` is wrong for `√2` held with the isolating interval `[0, 2]`. -/
example (rng : ℕ → ℕ) : ∃ N, ∃ q : ℚ, ∀ fuel ≥ N,
    add (factorCall firstSmallest rng 0) fuel (.number wideSqrtTwo) (.number wideSqrtTwo) = .ok (ofRat q) := by
  have hF : ∀ R, addResultant wideSqrtTwo.poly wideSqrtTwo.poly = some R →
      FactorsRight (factorCall firstSmallest rng 0) R := by
    intro R hR
    rw [show addResultant wideSqrtTwo.poly wideSqrtTwo.poly = some sumRes by decide +kernel] at hR
    cases hR
    exact sumRes_right _ firstSmallest_order _ 0
  have hi : Irrational (√2 + √2) := by
    have := irrational_sqrt_two.natCast_mul (m := 2) (by norm_num)
    rw [← two_mul]
    exact_mod_cast this
  refine (C62_add_exact_iff _ (.number wideSqrtTwo) (.number wideSqrtTwo) (√2) (√2) wideSqrtTwo_represents
    wideSqrtTwo_represents (Or.inl ⟨_, rfl⟩) _ _ rfl rfl hF).2 ⟨irrational_sqrt_two, irrational_sqrt_two, hi, ?_⟩
  obtain ⟨s, h1, -, h3⟩ := wideSqrtTwo_represents.intervalShrinker
  have hr := (aeval_realCast _ _).mpr wideSqrtTwo_represents.root
  refine ⟨0, s, s, s, s, 0, (√2 : ℝ), -(√2 : ℝ), h1, h1, rfl, rfl, Or.inl ?_, hr, ?_, by simp⟩
  · rw [h3]; decide +kernel
  · rw [show wideSqrtTwo.poly.toPoly = X ^ 2 + C 0 * X + C (-2) from toPoly_quadratic 0 (-2)] at hr ⊢
    simp only [map_add, map_mul, map_pow, aeval_X, aeval_C, algebraMap_int_eq, Int.coe_castRingHom]
      at hr ⊢
    linear_combination hr

end Python

end Algebraics
