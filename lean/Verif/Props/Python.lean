import Verif.Spec.Python
import Verif.Props.AlgNumTotal
import Verif.Props.AlgNumPow
import Verif.Props.AlgNumFalse

/-!
Property C62: the Python class `RealAlgebraicNumber` (`/repo/src/python.rs`). Operators between instances and
integers, in either order, give what the corresponding operation of the real numbers gives; what has no
result raises the documented exception and nothing else does.
-/

namespace Algebraics

open Polynomial RealAlg

namespace Python

/-- both operands can be extracted, and the operator is the method applied to left and right operand -/
theorem operands {v w : PyVal} {x y : ℝ} (hv : v.Is x) (hw : w.Is y) (hn : v.IsNumber ∨ w.IsNumber) :
    ∃ a b, a.Represents x ∧ b.Represents y ∧ a.poly = v.poly ∧ b.poly = w.poly ∧
      (∀ method reflected : RealAlg → RealAlg → Except Raised RealAlg,
        (∀ a b, reflected b a = method a b) → operator method reflected v w = method a b) ∧
      ∀ F fuel op, compare F fuel op v w = richcmp F fuel op a b ∨
        compare F fuel op v w = richcmp F fuel op.mirror b a := by
  cases v with
  | number a =>
    cases w with
    | number b => exact ⟨a, b, hv, hw, rfl, rfl, fun _ _ _ => rfl, fun _ _ _ => Or.inl rfl⟩
    | int n =>
      refine ⟨a, ofInt n, hv, ?_, rfl, rfl, fun _ _ _ => rfl, fun _ _ _ => Or.inl rfl⟩
      rw [show y = n from hw]
      exact ofInt_represents n
    | pyNone => exact hw.elim
    | other => exact hw.elim
  | int n =>
    cases w with
    | number b =>
      refine ⟨ofInt n, b, ?_, hw, rfl, rfl, fun m r h => h _ _, fun _ _ _ => Or.inr rfl⟩
      rw [show x = n from hv]
      exact ofInt_represents n
    | int m => rcases hn with ⟨_, h⟩ | ⟨_, h⟩ <;> cases h
    | pyNone => exact hw.elim
    | other => exact hw.elim
  | pyNone => exact hv.elim
  | other => exact hv.elim

theorem arithmetic_ok {f : RealAlg → RealAlg → Except Stop RealAlg} {a b c : RealAlg} (h : f a b = .ok c) :
    arithmetic a b f = .ok c := by
  unfold arithmetic tryArithmetic
  simp [h, run, bind, Except.bind, pure, Except.pure]

theorem mirror_holds (op : CompareOp) (x y : ℝ) : op.mirror.Holds y x ↔ op.Holds x y := by
  cases op <;> simp [CompareOp.mirror, CompareOp.Holds, eq_comm]

theorem richcmp_spec {F : FactorCall} {fuel : ℕ} {a b : RealAlg} {x y : ℝ}
    (h1 : ∃ e, a.eq F fuel b = .ok e ∧ (e = true ↔ x = y))
    (h2 : ∃ o, a.cmp F fuel b = .ok o ∧ (o = .lt ↔ x < y) ∧ (o = .eq ↔ x = y) ∧ (o = .gt ↔ y < x))
    (op : CompareOp) : ∃ r, richcmp F fuel op a b = .ok r ∧ (r = true ↔ op.Holds x y) := by
  obtain ⟨e, h1, h1'⟩ := h1
  obtain ⟨o, h2, l, m, g⟩ := h2
  cases op <;> simp only [richcmp, h1, h2, run, bind, Except.bind, pure, Except.pure, CompareOp.Holds] <;>
    refine ⟨_, rfl, ?_⟩
  · simpa using l
  · rw [decide_eq_true_iff, l, m, le_iff_lt_or_eq]
  · exact h1'
  · rw [ne_eq, ← h1']; cases e <;> simp
  · simpa using g
  · rw [decide_eq_true_iff, g, m, ge_iff_le, le_iff_lt_or_eq, eq_comm (a := y)]

theorem compare_spec {F : FactorCall} {fuel : ℕ} {v w : PyVal} {a b : RealAlg} {x y : ℝ} (op : CompareOp)
    (h : compare F fuel op v w = richcmp F fuel op a b ∨ compare F fuel op v w = richcmp F fuel op.mirror b a)
    (h1 : (∃ e, a.eq F fuel b = .ok e ∧ (e = true ↔ x = y)) ∧
      ∃ o, a.cmp F fuel b = .ok o ∧ (o = .lt ↔ x < y) ∧ (o = .eq ↔ x = y) ∧ (o = .gt ↔ y < x))
    (h2 : (∃ e, b.eq F fuel a = .ok e ∧ (e = true ↔ y = x)) ∧
      ∃ o, b.cmp F fuel a = .ok o ∧ (o = .lt ↔ y < x) ∧ (o = .eq ↔ y = x) ∧ (o = .gt ↔ x < y)) :
    ∃ r, compare F fuel op v w = .ok r ∧ (r = true ↔ op.Holds x y) := by
  rcases h with h | h
  · rw [h]; exact richcmp_spec h1.1 h1.2 op
  · rw [h]
    obtain ⟨r, h3, h4⟩ := richcmp_spec h2.1 h2.2 op.mirror
    exact ⟨r, h3, by rw [h4, mirror_holds]⟩

/-! ## The constructor and the conversions -/

/-- C62: the constructor makes zero without an argument or of `None`, the integer of an integer, the same number of an
instance, and raises `TypeError` for anything else. -/
theorem _root_.Algebraics.C62_new :
    (∃ a, pynew none = .ok a ∧ a.Represents 0) ∧
    (∀ (v : PyVal) (x : ℝ), v.Is x → ∃ a, pynew (some v) = .ok a ∧ a.Represents x) ∧
    (∀ a, pynew (some (.number a)) = .ok a) ∧ pynew (some .pyNone) = pynew none ∧
    pynew (some .other) = .error .typeError := by
  refine ⟨⟨_, rfl, zero_represents⟩, fun v x h => ?_, fun _ => rfl, rfl, rfl⟩
  cases v with
  | number a => exact ⟨a, rfl, h⟩
  | int n =>
    refine ⟨_, rfl, ?_⟩
    rw [show x = n from h]
    exact ofInt_represents n
  | pyNone => exact h.elim
  | other => exact h.elim

/-- C62: `math.trunc`, `math.floor` and `math.ceil` of an instance. -/
theorem _root_.Algebraics.C62_integer_parts (a : RealAlg) (x : ℝ) (h : a.Represents x) :
    ∃ N, ∀ fuel ≥ N, trunc fuel a = .ok (truncate x) ∧ floor fuel a = .ok ⌊x⌋ ∧
      ceil fuel a = .ok ⌈x⌉ := by
  obtain ⟨N, hN⟩ := C43_to_integer a x h
  refine ⟨N, fun fuel hf => ?_⟩
  obtain ⟨h1, h2, h3⟩ := hN fuel hf
  unfold trunc floor ceil
  rw [h1, h2, h3]
  exact ⟨rfl, rfl, rfl⟩

/-- C62: `to_integer`, `to_rational` (the reduced fraction with positive denominator), `is_integer` and
`is_rational`: they never raise, and give `None` and `False` exactly for the other numbers. -/
theorem _root_.Algebraics.C62_conversions (a : RealAlg) (x : ℝ) (h : a.Represents x) :
    (∀ n : ℤ, x = n → toInteger a = .ok (some n) ∧ isInteger a = .ok true) ∧
    ((∀ n : ℤ, x ≠ n) → toInteger a = .ok none ∧ isInteger a = .ok false) ∧
    (∀ q : ℚ, x = q → toRational a = .ok (some (q.num, (q.den : ℤ))) ∧ isRational a = .ok true) ∧
    (Irrational x → toRational a = .ok none ∧ isRational a = .ok false) := by
  obtain ⟨r, i, h1, h2, h3, h4⟩ := C39_is_rational a x h
  obtain ⟨h5, h6⟩ := C39_to_integer a x h
  unfold toInteger isInteger toRational isRational
  rw [h1, h3]
  refine ⟨fun n e => ⟨?_, ?_⟩, fun e => ⟨?_, ?_⟩, fun q e => ⟨?_, ?_⟩, fun e => ⟨?_, ?_⟩⟩
  · rw [h5 n e]; rfl
  · rw [h4.mpr ⟨n, e⟩]; rfl
  · rw [h6 e]; rfl
  · cases i with
    | false => rfl
    | true => exact absurd (h4.mp rfl).choose_spec (e _)
  · rw [C39_to_rational_reduced a q (e ▸ h)]; rfl
  · rw [h2.mpr ⟨q, e⟩]; rfl
  · have hr : r = false := by
      cases r with
      | false => rfl
      | true =>
        obtain ⟨q, hq⟩ := h2.mp rfl
        exact absurd ⟨q, hq.symm⟩ e
    unfold toRationalRaw
    rw [h1, hr]
    rfl
  · cases r with
    | false => rfl
    | true =>
      obtain ⟨q, hq⟩ := h2.mp rfl
      exact absurd ⟨q, hq.symm⟩ e

/-- C62: `minimal_polynomial` is the list of coefficients, constant term first, of an irreducible polynomial
with root `x`, without leading zeros, and `degree` is its degree. -/
theorem _root_.Algebraics.C62_minimal_polynomial (a : RealAlg) (x : ℝ) (h : a.Represents x) :
    ∃ p : ℤ[X], Irreducible p ∧ aeval x p = 0 ∧ degree a = .ok p.natDegree ∧
      (minimalPolynomial a).length = p.natDegree + 1 ∧
      ∀ i c, (minimalPolynomial a)[i]? = some c → c = p.coeff i := by
  have hne : a.poly.coeffs ≠ [] := by rw [Ne, Poly.coeffs_eq_nil_iff]; exact h.ne_zero
  refine ⟨a.poly.toPoly, h.irreducible, h.root, ?_, ?_, ?_⟩
  · unfold degree
    rw [h.degree_eq]
    rfl
  · have := (Poly.toPoly_leading a.poly hne).1
    have := List.length_pos_of_ne_nil hne
    have := Poly.len_eq a.poly
    unfold minimalPolynomial
    omega
  · intro i c hi
    unfold Poly.toPoly
    rw [listPoly_coeff, List.getD_eq_getElem?_getD]
    unfold minimalPolynomial at hi
    rw [hi]
    rfl

/-- C62: negation and absolute value never raise and are exact. -/
theorem _root_.Algebraics.C62_neg_abs (a : RealAlg) (x : ℝ) (h : a.Represents x) :
    (∃ b, neg a = .ok b ∧ b.Represents (-x)) ∧ ∃ b, abs a = .ok b ∧ b.Represents |x| := by
  obtain ⟨b, h1, h2⟩ := C40_neg a x h
  obtain ⟨c, h3, h4⟩ := (C41_abs_signum a x h).1
  unfold neg abs
  rw [h1, h3]
  exact ⟨⟨b, rfl, h2⟩, c, rfl, h4⟩

/-- the minimal polynomial of `∛2` -/
example : minimalPolynomial cbrtTwo = [-2, 0, 0, 1] ∧ degree cbrtTwo = .ok 3 ∧
    toRational cbrtTwo = .ok none ∧ isRational cbrtTwo = .ok false := by
  refine ⟨by decide +kernel, by decide +kernel, by decide +kernel, by decide +kernel⟩

/-- `-√2` and its integer parts -/
example : ∃ b, neg sqrtTwo = .ok b ∧ ∃ N, ∀ fuel ≥ N, floor fuel b = .ok ⌊-√2⌋ ∧
    trunc fuel b = .ok (truncate (-√2)) := by
  obtain ⟨b, h1, h2⟩ := (C62_neg_abs _ _ sqrtTwo_represents).1
  obtain ⟨N, hN⟩ := C62_integer_parts b _ h2
  exact ⟨b, h1, N, fun fuel hf => ⟨(hN fuel hf).2.1, (hN fuel hf).1⟩⟩

/-! ## Arithmetic and comparison -/

/-- the product of two rational numbers needs no factoring -/
theorem mul_both_rational (F : FactorCall) (fuel : ℕ) (a b : RealAlg) (p q : ℚ) (ha : a.Represents p)
    (hb : b.Represents q) : ∃ c, a.mul F fuel b = .ok c ∧ c.Represents ((p : ℝ) * q) := by
  refine ⟨ofRat (p * q), ?_, by have := ofRat_represents (p * q); rwa [Rat.cast_mul] at this⟩
  unfold RealAlg.mul
  rw [ha.toRational_rat, hb.toRational_rat]
  rfl

/-- C62: with operands that stand for rational numbers, at least one of them an instance of the class, in
either order, all operators give the exact result at once; only division by zero raises. -/
theorem _root_.Algebraics.C62_rational_operators (F : FactorCall) (fuel : ℕ) (v w : PyVal) (p q : ℚ)
    (hv : v.Is p) (hw : w.Is q) (hn : v.IsNumber ∨ w.IsNumber) :
    (∃ c, add F fuel v w = .ok c ∧ c.Represents ((p : ℝ) + q)) ∧
    (∃ c, sub F fuel v w = .ok c ∧ c.Represents ((p : ℝ) - q)) ∧
    (∃ c, mul F fuel v w = .ok c ∧ c.Represents ((p : ℝ) * q)) ∧
    (q ≠ 0 → ∃ c, truediv F fuel v w = .ok c ∧ c.Represents ((p : ℝ) / q)) ∧
    (q = 0 → truediv F fuel v w =
      .error (.zeroDivisionError "can't divide RealAlgebraicNumber by zero")) ∧
    ∀ op : CompareOp, ∃ r, compare F fuel op v w = .ok r ∧ (r = true ↔ op.Holds p q) := by
  obtain ⟨a, b, ha, hb, -, -, hop, hcmp⟩ := operands hv hw hn
  obtain ⟨⟨c, h1, h2⟩, d, h3, h4⟩ := C44_both_rational F a b p q ha hb fuel
  obtain ⟨-, d', h3', h4'⟩ := C44_both_rational F b a q p hb ha fuel
  obtain ⟨m, h5, h6⟩ := mul_both_rational F fuel a b p q ha hb
  refine ⟨⟨c, ?_, h2⟩, ⟨d, ?_, h4⟩, ⟨m, ?_, h6⟩, fun hq => ?_, fun hq => ?_, fun op => ?_⟩
  · exact (hop _ _ fun _ _ => rfl).trans (arithmetic_ok h1)
  · exact (hop _ _ fun _ _ => rfl).trans (arithmetic_ok h3)
  · exact (hop _ _ fun _ _ => rfl).trans (arithmetic_ok h5)
  · obtain ⟨k, h7, h8⟩ := mul_both_rational F fuel a (ofRat q⁻¹) p q⁻¹ ha (ofRat_represents _)
    refine ⟨k, (hop _ _ fun _ _ => rfl).trans ?_, ?_⟩
    · unfold dunderTruediv tryArithmetic checkedExactDiv
      beta_reduce
      rw [hb.checkedRecip_rat, if_neg hq]
      simp [bind, Except.bind, pure, Except.pure, h7, run]
    · rwa [Rat.cast_inv, ← div_eq_mul_inv] at h8
  · refine (hop _ _ fun _ _ => rfl).trans ?_
    unfold dunderTruediv tryArithmetic checkedExactDiv
    beta_reduce
    rw [hb.checkedRecip_rat, if_pos hq]
    rfl
  · exact compare_spec op (hcmp F fuel op) (cmp_of_sub F a b d _ _ fuel h3 h4)
      (cmp_of_sub F b a d' _ _ fuel h3' h4')

/-- `3 - RealAlgebraicNumber(5)` and `3 < RealAlgebraicNumber(5)`, with the integer on the left -/
example (F : FactorCall) (fuel : ℕ) : (∃ c, sub F fuel (.int 3) (.number (ofInt 5)) = .ok c ∧
    c.Represents (((3 : ℚ) : ℝ) - (5 : ℚ))) ∧ compare F fuel .lt (.int 3) (.number (ofInt 5)) = .ok true := by
  obtain ⟨-, h1, -, -, -, h2⟩ := C62_rational_operators F fuel (.int 3) (.number (ofInt 5)) 3 5
    (by show ((3 : ℚ) : ℝ) = (3 : ℤ); norm_num)
    (by have := ofInt_represents 5; show (ofInt 5).Represents ((5 : ℚ) : ℝ); simpa using this) (Or.inr ⟨_, rfl⟩)
  refine ⟨h1, ?_⟩
  obtain ⟨r, h3, h4⟩ := h2 .lt
  rw [h3, h4.mpr (by show ((3 : ℚ) : ℝ) < (5 : ℚ); norm_num)]

/-- sizes do not depend on the order -/
theorem moderatePair_symm {p q : Poly ℤ} (h : p.ModeratePair q) : q.ModeratePair p := by
  obtain ⟨g, k, h1, h2, h3⟩ := h
  refine ⟨k, g, h2, h1, lt_of_le_of_lt (le_of_eq ?_) h3⟩
  ring

/-- C62, in part: with the code's own factoring and fair random numbers, `+`, `-`, `*` and the six
comparisons end and are exact, in either order of an instance and an integer or for two instances, if the
degrees have no common factor and the sizes are moderate. Missing: other pairs, where the claim is false
(`C62_eq_false`), and immense sizes. -/
theorem _root_.Algebraics.C62_operators_partial (choose : ℕ → List ℕ → ℕ) (hc : Poly.HeapOrder choose)
    (rng : ℕ → ℕ) (hfair : Fair rng) (v w : PyVal) (x y : ℝ) (hv : v.Is x) (hw : w.Is y)
    (hn : v.IsNumber ∨ w.IsNumber)
    (hd : v.poly.toPoly.natDegree.Coprime w.poly.toPoly.natDegree) (hm : v.poly.ModeratePair w.poly) :
    ∃ M, ∀ ffuel ≥ M, ∃ N, ∀ fuel ≥ N,
      (∃ c, add (factorCall choose rng ffuel) fuel v w = .ok c ∧ c.Represents (x + y)) ∧
      (∃ c, sub (factorCall choose rng ffuel) fuel v w = .ok c ∧ c.Represents (x - y)) ∧
      (∃ c, mul (factorCall choose rng ffuel) fuel v w = .ok c ∧ c.Represents (x * y)) ∧
      ∀ op : CompareOp, ∃ r, compare (factorCall choose rng ffuel) fuel op v w = .ok r ∧
        (r = true ↔ op.Holds x y) := by
  obtain ⟨a, b, ha, hb, hpa, hpb, hop, hcmp⟩ := operands hv hw hn
  rw [← hpa, ← hpb] at hd hm
  obtain ⟨M1, h1⟩ := C44_add_total_partial choose hc rng hfair a b x y ha hb hd hm
  obtain ⟨M2, h2⟩ := C44_sub_total_partial choose hc rng hfair a b x y ha hb hd hm
  obtain ⟨M3, h3⟩ := C45_mul_total_partial choose hc rng hfair a b x y ha hb hd hm
  obtain ⟨M4, h4⟩ := C46_total_partial choose hc rng hfair a b x y ha hb hd hm
  obtain ⟨M5, h5⟩ := C46_total_partial choose hc rng hfair b a y x hb ha hd.symm (moderatePair_symm hm)
  refine ⟨max M1 (max M2 (max M3 (max M4 M5))), fun ffuel hf => ?_⟩
  obtain ⟨N1, h1⟩ := h1 ffuel (by omega)
  obtain ⟨N2, h2⟩ := h2 ffuel (by omega)
  obtain ⟨N3, h3⟩ := h3 ffuel (by omega)
  obtain ⟨N4, h4⟩ := h4 ffuel (by omega)
  obtain ⟨N5, h5⟩ := h5 ffuel (by omega)
  refine ⟨max N1 (max N2 (max N3 (max N4 N5))), fun fuel hf => ?_⟩
  obtain ⟨c1, h1, h1'⟩ := h1 fuel (by omega)
  obtain ⟨c2, h2, h2'⟩ := h2 fuel (by omega)
  obtain ⟨c3, h3, h3'⟩ := h3 fuel (by omega)
  refine ⟨⟨c1, (hop _ _ fun _ _ => rfl).trans (arithmetic_ok h1), h1'⟩,
    ⟨c2, (hop _ _ fun _ _ => rfl).trans (arithmetic_ok h2), h2'⟩,
    ⟨c3, (hop _ _ fun _ _ => rfl).trans (arithmetic_ok h3), h3'⟩, fun op => ?_⟩
  exact compare_spec op (hcmp _ fuel op) (h4 fuel (by omega)) (h5 fuel (by omega))

/-- C62, in part: the same for `/`, when the divisor is not zero and is the only root of its sign of its
minimal polynomial; every integer is. Missing: other pairs and immense sizes. -/
theorem _root_.Algebraics.C62_truediv_partial (choose : ℕ → List ℕ → ℕ) (hc : Poly.HeapOrder choose)
    (rng : ℕ → ℕ) (hfair : Fair rng) (v w : PyVal) (x y : ℝ) (hv : v.Is x) (hw : w.Is y)
    (hn : v.IsNumber ∨ w.IsNumber) (hy : y ≠ 0)
    (hs : ∀ z : ℝ, aeval z w.poly.toPoly = 0 → 0 < y * z → z = y)
    (hd : v.poly.toPoly.natDegree.Coprime w.poly.toPoly.natDegree) (hm : v.poly.ModeratePair w.poly) :
    ∃ M, ∀ ffuel ≥ M, ∃ N, ∀ fuel ≥ N, ∃ c,
      truediv (factorCall choose rng ffuel) fuel v w = .ok c ∧ c.Represents (x / y) := by
  obtain ⟨a, b, ha, hb, hpa, hpb, hop, -⟩ := operands hv hw hn
  rw [← hpb] at hs
  rw [← hpa, ← hpb] at hd hm
  obtain ⟨M, hM⟩ := C45_div_total_partial choose hc rng hfair a b x y ha hb hy hs hd hm
  refine ⟨M, fun ffuel hf => ?_⟩
  obtain ⟨N, hN⟩ := hM ffuel hf
  refine ⟨N, fun fuel hf => ?_⟩
  obtain ⟨c, h1, -, h2⟩ := hN fuel hf
  refine ⟨c, (hop _ _ fun _ _ => rfl).trans ?_, h2⟩
  unfold dunderTruediv tryArithmetic
  simp [h1, run, bind, Except.bind, pure, Except.pure]

/-- the operands `7` and `∛2`, in both orders -/
theorem seven_cbrtTwo : (PyVal.int 7).Is 7 ∧ (PyVal.number cbrtTwo).Is (2 ^ (1 / 3 : ℝ)) ∧
    (PyVal.int 7).poly.toPoly.natDegree.Coprime (PyVal.number cbrtTwo).poly.toPoly.natDegree ∧
    (PyVal.int 7).poly.ModeratePair (PyVal.number cbrtTwo).poly := by
  refine ⟨by show (7 : ℝ) = (7 : ℤ); norm_num, cbrtTwo_represents, ?_, ?_⟩
  · rw [show (PyVal.int 7).poly = (ofInt 7).poly from rfl, ofInt_degree]
    exact Nat.coprime_one_left _
  · exact moderatePair_of_lists [-7, 1] [-2, 0, 0, 1] 3 2 (by decide) (by decide) (by norm_num)

/-- `7 - ∛2` -/
example (rng : ℕ → ℕ) (hfair : Fair rng) : ∃ M, ∀ ffuel ≥ M, ∃ N, ∀ fuel ≥ N, ∃ c,
    sub (factorCall firstSmallest rng ffuel) fuel (.int 7) (.number cbrtTwo) = .ok c ∧
      c.Represents (7 - 2 ^ (1 / 3 : ℝ)) := by
  obtain ⟨h1, h2, h3, h4⟩ := seven_cbrtTwo
  obtain ⟨M, hM⟩ := C62_operators_partial firstSmallest firstSmallest_order rng hfair _ _ _ _ h1 h2
    (Or.inr ⟨_, rfl⟩) h3 h4
  refine ⟨M, fun ffuel hf => ?_⟩
  obtain ⟨N, hN⟩ := hM ffuel hf
  exact ⟨N, fun fuel hf => (hN fuel hf).2.1⟩

/-- `∛2 / 7` -/
example (rng : ℕ → ℕ) (hfair : Fair rng) : ∃ M, ∀ ffuel ≥ M, ∃ N, ∀ fuel ≥ N, ∃ c,
    truediv (factorCall firstSmallest rng ffuel) fuel (.number cbrtTwo) (.int 7) = .ok c ∧
      c.Represents (2 ^ (1 / 3 : ℝ) / 7) := by
  obtain ⟨h1, h2, h3, h4⟩ := seven_cbrtTwo
  refine C62_truediv_partial firstSmallest firstSmallest_order rng hfair _ _ _ _ h2 h1
    (Or.inl ⟨_, rfl⟩) (by norm_num) (fun z hz _ => ?_) h3.symm (moderatePair_symm h4)
  rw [show (PyVal.int 7).poly.toPoly = _ from Poly.toPoly_ofCoeffs _] at hz
  simp only [listPoly, map_add, map_mul, map_neg, aeval_C, aeval_X, map_one, map_zero] at hz
  norm_num at hz
  linarith

/-- C62: dividing by zero always raises `ZeroDivisionError`, and nothing else does: neither `/` nor
`recip`. -/
theorem _root_.Algebraics.C62_zero_division (F : FactorCall) (fuel : ℕ) (v w : PyVal) (x y : ℝ)
    (hv : v.Is x) (hw : w.Is y) (hn : v.IsNumber ∨ w.IsNumber) :
    ((∃ message, truediv F fuel v w = .error (.zeroDivisionError message)) ↔ y = 0) ∧
    ∀ a : RealAlg, a.Represents x →
      ((∃ message, recip fuel a = .error (.zeroDivisionError message)) ↔ x = 0) := by
  have key : ∀ (b : RealAlg) (y : ℝ), b.Represents y → (b.checkedRecip fuel = .ok none ↔ y = 0) := by
    intro b y hb
    by_cases hy : Irrational y
    · refine iff_of_false (fun h => ?_) hy.ne_zero
      obtain ⟨N, hN⟩ := hb.checkedRecip_irr hy
      obtain ⟨r, h1, -⟩ := hN (max N fuel) (le_max_left _ _)
      have h2 := checkedRecip_mono b fuel _ h (max N fuel) (le_max_right _ _)
      rw [h1] at h2
      cases h2
    · obtain ⟨q, rfl⟩ := not_not.mp hy
      rw [hb.checkedRecip_rat]
      by_cases hq : q = 0
      · simp [hq]
      · simp [hq]
  obtain ⟨a, b, ha, hb, -, -, hop, -⟩ := operands hv hw hn
  constructor
  · rw [← key b y hb, truediv, hop (dunderTruediv F fuel) (dunderRtruediv F fuel) fun _ _ => rfl]
    unfold dunderTruediv tryArithmetic checkedExactDiv
    beta_reduce
    cases hb : b.checkedRecip fuel with
    | error s => simp [run, bind, Except.bind]
    | ok o =>
      cases o with
      | none => simp [run, bind, Except.bind, pure, Except.pure, divByZeroError]
      | some r =>
        cases hm : a.mul F fuel r with
        | error s => simp [run, bind, Except.bind, hm]
        | ok c => simp [run, bind, Except.bind, pure, Except.pure, hm]
  · intro a ha
    rw [← key a x ha]
    unfold recip
    cases hb : a.checkedRecip fuel with
    | error s => simp [run, bind, Except.bind]
    | ok o =>
      cases o with
      | none => simp [run, bind, Except.bind, divByZeroError]
      | some r => simp [run, bind, Except.bind, pure, Except.pure]

/-- `7 / ∛2` does not raise `ZeroDivisionError`, `∛2 / 0` does. -/
example (F : FactorCall) (fuel : ℕ) :
    (¬ ∃ message, truediv F fuel (.int 7) (.number cbrtTwo) = .error (.zeroDivisionError message)) ∧
    ∃ message, truediv F fuel (.number cbrtTwo) (.int 0) = .error (.zeroDivisionError message) := by
  constructor
  · rw [(C62_zero_division F fuel _ _ _ _ seven_cbrtTwo.1 seven_cbrtTwo.2.1 (Or.inr ⟨_, rfl⟩)).1]
    positivity
  · rw [(C62_zero_division F fuel _ (.int 0) _ 0 seven_cbrtTwo.2.1 (by simp [PyVal.Is]) (Or.inl ⟨_, rfl⟩)).1]

/-- C62, in part: `recip` is the reciprocal: exact for every rational number but zero, and for an irrational
number that is the only root of its sign; for the other irrational numbers the result has the reciprocal
as a root in its interval. Missing: that no other root lies there (`C40_recip_false`). -/
theorem _root_.Algebraics.C62_recip_partial (a : RealAlg) (x : ℝ) (h : a.Represents x) (hx : x ≠ 0) :
    (¬ Irrational x → ∀ fuel, ∃ b, recip fuel a = .ok b ∧ b.Represents x⁻¹) ∧
    ((∀ y : ℝ, aeval y a.poly.toPoly = 0 → 0 < x * y → y = x) →
      ∃ N, ∀ fuel ≥ N, ∃ b, recip fuel a = .ok b ∧ b.Represents x⁻¹) ∧
    ∃ N, ∀ fuel ≥ N, ∃ b, recip fuel a = .ok b ∧ Irreducible b.poly.toPoly ∧
      aeval x⁻¹ b.poly.toPoly = 0 ∧ b.interval.Contains x⁻¹ := by
  have lift : ∀ fuel b, a.checkedRecip fuel = .ok (some b) → recip fuel a = .ok b := by
    intro fuel b hb
    unfold recip
    rw [hb]
    rfl
  have hrat : ¬ Irrational x → ∀ fuel, ∃ b, recip fuel a = .ok b ∧ b.Represents x⁻¹ := by
    intro hr fuel
    obtain ⟨q, rfl⟩ := not_not.mp hr
    obtain ⟨b, h1, h2⟩ := (C40_recip_rational a q h fuel).2 (by exact_mod_cast hx)
    exact ⟨b, lift _ _ h1, h2⟩
  refine ⟨hrat, fun hs => ?_, ?_⟩
  · by_cases hi : Irrational x
    · obtain ⟨N, hN⟩ := C40_recip_one_sign_partial a x h hi hs
      refine ⟨N, fun fuel hf => ?_⟩
      obtain ⟨b, h1, h2⟩ := hN fuel hf
      exact ⟨b, lift _ _ h1, h2⟩
    · exact ⟨0, fun fuel _ => hrat hi fuel⟩
  · by_cases hi : Irrational x
    · obtain ⟨N, hN⟩ := C40_recip_partial a x h hi
      refine ⟨N, fun fuel hf => ?_⟩
      obtain ⟨b, h1, h2, h3, h4, -⟩ := hN fuel hf
      exact ⟨b, lift _ _ h1, h2, h3, h4⟩
    · refine ⟨0, fun fuel _ => ?_⟩
      obtain ⟨b, h1, h2⟩ := hrat hi fuel
      exact ⟨b, h1, h2.irreducible, h2.root, h2.mem⟩

/-- the reciprocal of the cube root of two. -/
example : ∃ N, ∀ fuel ≥ N, ∃ b, recip fuel cbrtTwo = .ok b ∧ b.Represents (2 ^ (1 / 3 : ℝ))⁻¹ := by
  refine (C62_recip_partial cbrtTwo _ cbrtTwo_represents (by positivity)).2.1 fun y hy _ => ?_
  have ht : ((2 : ℝ) ^ (1 / 3 : ℝ)) ^ 3 = 2 := by
    rw [← Real.rpow_natCast, ← Real.rpow_mul (by norm_num)]; norm_num
  rw [cbrtTwo_poly] at hy
  simp only [map_sub, map_pow, aeval_X, aeval_C] at hy
  norm_num at hy
  exact cube_inj (by rw [ht]; linarith)

/-- C62: `floor_log2` and `ceil_log2` raise `ValueError` exactly for numbers that are not positive, and are
exact for the others. -/
theorem _root_.Algebraics.C62_log2 (a : RealAlg) (x : ℝ) (h : a.Represents x) :
    (0 < x → ∃ N, ∀ fuel ≥ N, floorLog2 fuel a = .ok ⌊Real.logb 2 x⌋ ∧
      ceilLog2 fuel a = .ok ⌈Real.logb 2 x⌉) ∧
    (x ≤ 0 → ∀ fuel, floorLog2 fuel a = .error (.valueError
        "can't extract base-2 logarithm of zero or negative RealAlgebraicNumber") ∧
      ceilLog2 fuel a = .error (.valueError
        "can't extract base-2 logarithm of zero or negative RealAlgebraicNumber")) := by
  constructor
  · intro hx
    obtain ⟨N, hN⟩ := (C48_log2 a x h).1 hx
    refine ⟨N, fun fuel hf => ?_⟩
    unfold floorLog2 ceilLog2
    rw [(hN fuel hf).1, (hN fuel hf).2]
    exact ⟨rfl, rfl⟩
  · intro hx fuel
    unfold floorLog2 ceilLog2
    rw [((C48_log2 a x h).2 hx fuel).1, ((C48_log2 a x h).2 hx fuel).2]
    exact ⟨rfl, rfl⟩

/-! ## Powers -/

/-- C62: `pow` with three arguments raises `TypeError`, whatever the operands. -/
theorem _root_.Algebraics.C62_pow_modulus (ln2 : ℕ → ℕ → DFI) (F : FactorCall) (fuel : ℕ) (v w : PyVal) :
    pow ln2 F fuel true v w = .error .typeError := by
  cases v <;> cases w <;> rfl

/-- C62: `v ** w` raises `ValueError` exactly when the exponent is irrational, or the base is zero and the
exponent is not positive, or the base is negative and the exponent is not an integer. -/
theorem _root_.Algebraics.C62_pow_value_error (ln2 : ℕ → ℕ → DFI) (F : FactorCall) (fuel : ℕ) (v w : PyVal)
    (x y : ℝ) (hv : v.Is x) (hw : w.Is y) (hn : v.IsNumber ∨ w.IsNumber) :
    (∃ message, pow ln2 F fuel false v w = .error (.valueError message)) ↔
      Irrational y ∨ (x = 0 ∧ y ≤ 0) ∨ (x < 0 ∧ ∀ n : ℤ, y ≠ n) := by
  obtain ⟨a, b, ha, hb, -, -, hop, -⟩ := operands hv hw hn
  rw [pow, hop (dunderPow ln2 F fuel false) (dunderRpow ln2 F fuel false) fun _ _ => rfl]
  unfold dunderPow tryArithmetic
  beta_reduce
  rw [if_neg (by simp)]
  by_cases hy : Irrational y
  · rw [hb.toRational_irr hy]
    simp [run, bind, Except.bind, pure, Except.pure, hy]
  · obtain ⟨e, rfl⟩ := not_not.mp hy
    rw [hb.toRational_rat]
    obtain ⟨h1, h2⟩ := C47_none_iff_partial ln2 F fuel a x ha e
    have h3 : (∀ n : ℤ, (e : ℝ) ≠ n) ↔ e.den ≠ 1 := by
      constructor
      · intro h hd
        refine h e.num ?_
        have : (e.num : ℚ) = e := Rat.coe_int_num_of_den_eq_one hd
        rw [← this]; simp
      · rintro h n hn
        have : e = n := by exact_mod_cast hn
        exact h (by rw [this]; rfl)
    have h4 : (e : ℝ) ≤ 0 ↔ e ≤ 0 := by exact_mod_cast Iff.rfl
    rw [h3, h4, or_iff_right hy]
    cases hp : a.checkedPow ln2 F fuel e with
    | error s =>
      simp only [run, bind, Except.bind, hp]
      refine iff_of_false (by simp) fun h => ?_
      rw [h2 h] at hp
      cases hp
    | ok o =>
      cases o with
      | none =>
        simp only [run, bind, Except.bind, hp, pure, Except.pure]
        exact iff_of_true ⟨_, rfl⟩ (h1 hp)
      | some c =>
        simp only [run, bind, Except.bind, hp, pure, Except.pure]
        refine iff_of_false (by simp) fun h => ?_
        rw [h2 h] at hp
        cases hp

/-- C62, in part: integer powers of rational numbers other than zero, including `2 ** RealAlgebraicNumber(3)`
with the integer on the left. Missing: other bases and exponents, see C47. -/
theorem _root_.Algebraics.C62_pow_partial (ln2 : ℕ → ℕ → DFI) (F : FactorCall) (fuel : ℕ) (v w : PyVal)
    (q : ℚ) (k : ℤ) (hv : v.Is q) (hw : w.Is k) (hn : v.IsNumber ∨ w.IsNumber) (hq : q ≠ 0) :
    ∃ c, pow ln2 F fuel false v w = .ok c ∧ c.Represents ((q : ℝ) ^ k) := by
  obtain ⟨a, b, ha, hb, -, -, hop, -⟩ := operands hv hw hn
  obtain ⟨c, h1, h2⟩ := C47_integer_power_rational ln2 F fuel a q ha hq k
  refine ⟨c, (hop _ _ fun _ _ => rfl).trans ?_, h2⟩
  unfold dunderPow tryArithmetic
  beta_reduce
  have hb' : b.Represents ((k : ℚ) : ℝ) := by simpa using hb
  rw [if_neg (by simp), hb'.toRational_rat]
  simp [run, bind, Except.bind, pure, Except.pure, h1]

/-- `2 ** RealAlgebraicNumber(-3)` -/
example (ln2 : ℕ → ℕ → DFI) (F : FactorCall) (fuel : ℕ) :
    ∃ c, pow ln2 F fuel false (.int 2) (.number (ofInt (-3))) = .ok c ∧
      c.Represents (((2 : ℚ) : ℝ) ^ (-3 : ℤ)) :=
  C62_pow_partial ln2 F fuel _ _ 2 (-3) (by show ((2 : ℚ) : ℝ) = (2 : ℤ); norm_num)
    (ofInt_represents (-3)) (Or.inr ⟨_, rfl⟩) (by norm_num)

/-! ## Operands of other types, and consistency of comparisons -/

/-- C62: with an instance and an operand that is neither a number nor an integer the arithmetic operators and the order
raise `TypeError`; `==` is false and `!=` true. -/
theorem _root_.Algebraics.C62_type_errors (ln2 : ℕ → ℕ → DFI) (F : FactorCall) (fuel : ℕ) (v w : PyVal)
    (h : ((v = .other ∨ v = .pyNone) ∧ w.IsNumber) ∨ (v.IsNumber ∧ (w = .other ∨ w = .pyNone))) :
    add F fuel v w = .error .typeError ∧ sub F fuel v w = .error .typeError ∧
    mul F fuel v w = .error .typeError ∧ truediv F fuel v w = .error .typeError ∧
    pow ln2 F fuel false v w = .error .typeError ∧
    compare F fuel .lt v w = .error .typeError ∧ compare F fuel .le v w = .error .typeError ∧
    compare F fuel .gt v w = .error .typeError ∧ compare F fuel .ge v w = .error .typeError ∧
    compare F fuel .eq v w = .ok false ∧ compare F fuel .ne v w = .ok true := by
  rcases h with ⟨rfl | rfl, w, rfl⟩ | ⟨⟨v, rfl⟩, rfl | rfl⟩ <;>
    exact ⟨rfl, rfl, rfl, rfl, rfl, rfl, rfl, rfl, rfl, rfl, rfl⟩

/-- C62, in part: even where a comparison of two instances is wrong, the six comparisons do not contradict
each other: there are real numbers of which all six are true. With the code's own factoring and fair random
numbers, for numbers of moderate size with small leading coefficients. Missing: other numbers. -/
theorem _root_.Algebraics.C62_comparisons_consistent_partial (choose : ℕ → List ℕ → ℕ)
    (hc : Poly.HeapOrder choose) (rng : ℕ → ℕ) (hfair : Fair rng) (a b : RealAlg) (x y : ℝ)
    (ha : a.Represents x) (hb : b.Represents y)
    (hl : |a.poly.toPoly.leadingCoeff| ^ b.poly.toPoly.natDegree *
      |b.poly.toPoly.leadingCoeff| ^ a.poly.toPoly.natDegree ≤ 4) (hm : a.poly.ModeratePair b.poly) :
    ∃ M, ∀ ffuel ≥ M, ∃ N, ∀ fuel ≥ N, ∃ x' y' : ℝ, ∀ op : CompareOp,
      ∃ r, compare (factorCall choose rng ffuel) fuel op (.number a) (.number b) = .ok r ∧
        (r = true ↔ op.Holds x' y') := by
  obtain ⟨n, h1, h2, -⟩ := hb.neg
  obtain ⟨M, hM⟩ := factorCall_returns_option choose hc rng hfair (addResultant a.poly n.poly)
    fun R h _ => addResultant_moderate _ _ R ha.ne_zero h2.ne_zero (moderate_neg hb h1 _ hm) h
  refine ⟨M, fun ffuel hf => ?_⟩
  obtain ⟨N, hN⟩ := C44_sub_partial (factorCall choose rng ffuel) a b x y ha hb (fun n' R h hR => by
    rw [h1] at h
    cases h
    refine factorCall_right choose hc rng ffuel R ?_
      (hM ffuel hf R hR (addResultant_ne_zero _ _ R ha.ne_zero h2.ne_zero hR))
    rw [addResultant_leading _ _ R ha.ne_zero h2.ne_zero hR, abs_mul, abs_pow, abs_pow, neg_leading hb h1,
      neg_natDegree hb h1]
    exact hl)
  refine ⟨N, fun fuel hf => ?_⟩
  obtain ⟨c, h3, h4⟩ := hN fuel hf
  obtain ⟨z, hz⟩ : ∃ z, c.Represents z := by
    rcases h4 with h4 | ⟨q, rfl, -⟩
    · exact ⟨_, h4⟩
    · exact ⟨_, ofRat_represents q⟩
  refine ⟨z, 0, fun op => ?_⟩
  obtain ⟨h5, h6⟩ := cmp_of_sub _ a b c z 0 fuel h3 (by rwa [sub_zero])
  exact richcmp_spec h5 h6 op

/-- the six comparisons of `√2`, held with the interval `[0, 2]`, with its negation -/
example (rng : ℕ → ℕ) (hfair : Fair rng) : ∃ n, neg wideSqrtTwo = .ok n ∧
    ∃ M, ∀ ffuel ≥ M, ∃ N, ∀ fuel ≥ N, ∃ x' y' : ℝ, ∀ op : CompareOp,
      ∃ r, compare (factorCall firstSmallest rng ffuel) fuel op (.number wideSqrtTwo) (.number n) = .ok r ∧
        (r = true ↔ op.Holds x' y') := by
  obtain ⟨n, h1, h2⟩ := C40_neg _ _ wideSqrtTwo_represents
  have h3 : wideSqrtTwo.neg = .ok ⟨Poly.ofCoeffs [-2, 0, 1], ⟨-2, 0, 0⟩⟩ := by decide +kernel
  rw [h3] at h1
  cases h1
  refine ⟨_, by rw [neg, h3]; rfl, C62_comparisons_consistent_partial firstSmallest firstSmallest_order rng hfair
    wideSqrtTwo _ _ _ wideSqrtTwo_represents h2 ?_
    (moderatePair_of_lists [-2, 0, 1] [-2, 0, 1] 2 2 (by decide) (by decide) (by norm_num))⟩
  have hm : (X ^ 2 + C 0 * X + C (-2) : ℤ[X]).leadingCoeff = 1 := by
    have : (X ^ 2 + C 0 * X + C (-2) : ℤ[X]).Monic := by monicity!
    exact this
  rw [show wideSqrtTwo.poly.toPoly = _ from toPoly_quadratic 0 (-2), toPoly_quadratic 0 (-2), hm]
  norm_num

/-- C62 is false in full: `√2`, held with the isolating interval `[0, 2]`, and its negation compare as
equal in Python. -/
theorem _root_.Algebraics.C62_eq_false (choose : ℕ → List ℕ → ℕ) (hc : Poly.HeapOrder choose) (rng : ℕ → ℕ)
    (ffuel fuel : ℕ) : ∃ n, neg wideSqrtTwo = .ok n ∧ wideSqrtTwo.Represents (√2) ∧ n.Represents (-√2) ∧
      √2 ≠ -√2 ∧
      compare (factorCall choose rng ffuel) (fuel + 1) .eq (.number wideSqrtTwo) (.number n) = .ok true := by
  obtain ⟨h1, n, h2, h3, h4, -, h5⟩ := C46_eq_false choose hc rng ffuel fuel
  refine ⟨n, by rw [neg, h2]; rfl, h1, h3, h5, ?_⟩
  show run _ = _
  rw [h4]
  rfl

end Python

end Algebraics
