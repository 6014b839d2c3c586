import Verif.Lemmas.MachinePolyCut

/-!
# C83: polynomials over machine integers

With overflow checks whatever is returned is exact; without them it is the exact result with every coefficient cut to
the width of the type.
-/

namespace Algebraics

open Polynomial

open MachinePoly

/-- C83: with overflow checks, whatever sum, difference, negation, product, scalar sum, scalar difference, scalar
product, derivative or value at a point is returned, it is the exact one. -/
theorem C83_checks (w : ℕ) (hw : 0 < w) (a b : List ℤ) (ha : Valid w a) (r : ℤ) :
    (∀ c, add w .panics a b = some c → Valid w c ∧ listPoly c = listPoly a + listPoly b) ∧
    (∀ c, sub w .panics a b = some c → Valid w c ∧ listPoly c = listPoly a - listPoly b) ∧
    (∀ c, neg w .panics a = some c → Valid w c ∧ listPoly c = -listPoly a) ∧
    (∀ c, mul w .panics a b = some c → Valid w c ∧ listPoly c = listPoly a * listPoly b) ∧
    (∀ c, addCoeff w .panics a r = some c → Valid w c ∧ listPoly c = listPoly a + C r) ∧
    (∀ c, subCoeff w .panics a r = some c → Valid w c ∧ listPoly c = listPoly a - C r) ∧
    (∀ c, mulCoeff w .panics a r = some c → Valid w c ∧ listPoly c = listPoly a * C r) ∧
    (∀ c, derivative w .panics a = some c → Valid w c ∧ listPoly c = Polynomial.derivative (listPoly a)) ∧
    (∀ v, eval w .panics a r = some v → InRange w v ∧ v = (listPoly a).eval r) := by
  have hb := blind_panics w
  refine ⟨fun c h => ⟨add_valid hw _ _ _ h, exact_of_hom (add_hom hb _ _ _ h)⟩,
    fun c h => ⟨sub_valid hw _ _ _ h, exact_of_hom (sub_hom hb _ _ _ h)⟩,
    fun c h => ⟨neg_valid hw _ _ h, exact_of_hom (neg_hom hb _ _ h)⟩,
    fun c h => ⟨mul_valid hw _ _ _ h, exact_of_hom (mul_hom hb _ _ _ h)⟩,
    fun c h => ⟨addSubSingle_valid hw _ _ ha _ _ h, exact_of_hom (addCoeff_hom hb _ _ _ h)⟩,
    fun c h => ⟨addSubSingle_valid hw _ _ ha _ _ h, exact_of_hom (subCoeff_hom hb _ _ _ h)⟩,
    fun c h => ⟨mulCoeff_valid hw _ _ _ h, exact_of_hom (mulCoeff_hom hb _ _ _ h)⟩,
    fun c h => ⟨derivative_valid hw _ _ h, exact_of_hom (derivative_hom hb _ _ h)⟩,
    fun v h => ⟨eval_fit hw _ _ _ h, by simpa using eval_hom hb _ _ _ h⟩⟩

/-- C83: without overflow checks there is always a result, and it is the exact one with every coefficient cut to
`w` bits. -/
theorem C83_wraps (w : ℕ) (hw : 0 < w) (a b : List ℤ) (ha : Valid w a) (r : ℤ) :
    (∃ c, add w .wraps a b = some c ∧ CutFrom w c (listPoly a + listPoly b)) ∧
    (∃ c, sub w .wraps a b = some c ∧ CutFrom w c (listPoly a - listPoly b)) ∧
    (∃ c, neg w .wraps a = some c ∧ CutFrom w c (-listPoly a)) ∧
    (∃ c, mul w .wraps a b = some c ∧ CutFrom w c (listPoly a * listPoly b)) ∧
    (∃ c, addCoeff w .wraps a r = some c ∧ CutFrom w c (listPoly a + C r)) ∧
    (∃ c, subCoeff w .wraps a r = some c ∧ CutFrom w c (listPoly a - C r)) ∧
    (∃ c, mulCoeff w .wraps a r = some c ∧ CutFrom w c (listPoly a * C r)) ∧
    (∃ v, eval w .wraps a r = some v ∧ v = ((listPoly a).eval r).bmod (2 ^ w)) := by
  have hb := blind_wraps w
  refine ⟨?_, ?_, ?_, ?_, ?_, ?_, ?_, ?_⟩
  · obtain ⟨c, hc⟩ := addSubElems_wraps (w := w) (· + ·) a b
    have h : add w .wraps a b = some (normalize c) := by rw [add, hc]; rfl
    exact ⟨_, h, cut_of_hom hw (add_valid hw _ _ _ h) (add_hom hb _ _ _ h)⟩
  · obtain ⟨c, hc⟩ := addSubElems_wraps (w := w) (· - ·) a b
    have h : sub w .wraps a b = some (normalize c) := by rw [sub, hc]; rfl
    exact ⟨_, h, cut_of_hom hw (sub_valid hw _ _ _ h) (sub_hom hb _ _ _ h)⟩
  · obtain ⟨c, hc⟩ := mapM_wraps (w := w) (fun c => -c) a
    have h : neg w .wraps a = some (normalize c) := by rw [neg, hc]; rfl
    exact ⟨_, h, cut_of_hom hw (neg_valid hw _ _ h) (neg_hom hb _ _ h)⟩
  · obtain ⟨c, h⟩ := mul_wraps (w := w) a b
    exact ⟨_, h, cut_of_hom hw (mul_valid hw _ _ _ h) (mul_hom hb _ _ _ h)⟩
  · obtain ⟨c, h⟩ : ∃ c, addCoeff w .wraps a r = some c := by
      cases a <;> simp [addCoeff, addSubSingle, fit_wraps]
    exact ⟨_, h, cut_of_hom hw (addSubSingle_valid hw _ _ ha _ _ h) (addCoeff_hom hb _ _ _ h)⟩
  · obtain ⟨c, h⟩ : ∃ c, subCoeff w .wraps a r = some c := by
      cases a <;> simp [subCoeff, addSubSingle, fit_wraps]
    exact ⟨_, h, cut_of_hom hw (addSubSingle_valid hw _ _ ha _ _ h) (subCoeff_hom hb _ _ _ h)⟩
  · obtain ⟨c, hc⟩ := mapM_wraps (w := w) (fun c => c * r) a
    have h : mulCoeff w .wraps a r = some (normalize c) := by rw [mulCoeff, hc]; rfl
    exact ⟨_, h, cut_of_hom hw (mulCoeff_valid hw _ _ _ h) (mulCoeff_hom hb _ _ _ h)⟩
  · obtain ⟨v, h⟩ := eval_wraps (w := w) a r
    exact ⟨v, h, cut_coeff hw (eval_fit hw _ _ _ h) (eval_hom hb _ _ _ h)⟩

example : Valid 8 [100, -3, 2] ∧ add 8 .panics [100, -3, 2] [27, 1, -2] = some [127, -2] ∧
    add 8 .wraps [100, -3, 2] [28, 1, -2] = some [-128, -2] ∧
    mul 8 .panics [3, 5] [-2, 7] = some [-6, 11, 35] ∧ mul 8 .wraps [16, 16] [16, 8] = some [0, -128, -128] ∧
    eval 8 .panics [1, 2, 3] 6 = some 121 ∧ eval 8 .wraps [1, 2, 3] 7 = some (-94) := by
  refine ⟨⟨by unfold InRange; decide, by decide⟩, ?_, ?_, ?_, ?_, ?_, ?_⟩ <;>
    first | decide +kernel | (simp only [checkedAdd, add, addSubElems]; decide +kernel)

/-- C83: exactly when the operations panic with overflow checks on: a sum, a difference, a negation or a scalar
product when a coefficient of the result does not fit; a scalar sum when the constant coefficient does not. -/
theorem C83_panics_iff (w : ℕ) (hw : 0 < w) (a b : List ℤ) (ha : Valid w a) (hb : Valid w b) (r : ℤ)
    (hr : InRange w r) :
    (add w .panics a b = none ↔ ∃ n, ¬ InRange w ((listPoly a + listPoly b).coeff n)) ∧
    (sub w .panics a b = none ↔ ∃ n, ¬ InRange w ((listPoly a - listPoly b).coeff n)) ∧
    (neg w .panics a = none ↔ ∃ n, ¬ InRange w ((-listPoly a).coeff n)) ∧
    (addCoeff w .panics a r = none ↔ ¬ InRange w ((listPoly a + C r).coeff 0)) ∧
    (subCoeff w .panics a r = none ↔ ¬ InRange w ((listPoly a - C r).coeff 0)) ∧
    (mulCoeff w .panics a r = none ↔ ∃ n, ¬ InRange w ((listPoly a * C r).coeff n)) := by
  have h0 : InRange w 0 := zero_fits hw
  have hnone : ∀ {α : Type} (o : Option α), o = none ↔ ¬ o.isSome := by intro α o; cases o <;> simp
  have hall : ∀ (g : ℤ → ℤ), g 0 = 0 → ((∀ c ∈ a, InRange w (g c)) ↔ ∀ n, InRange w (g (a.getD n 0))) := by
    intro g hg
    constructor
    · intro h n
      by_cases hn : n < a.length
      · rw [List.getD_eq_getElem?_getD, List.getElem?_eq_getElem hn]
        exact h _ (List.getElem_mem hn)
      · rw [List.getD_eq_getElem?_getD, List.getElem?_eq_none (Nat.not_lt.mp hn)]
        simpa [hg] using h0
    · intro h c hc
      obtain ⟨n, hn, rfl⟩ := List.mem_iff_getElem.mp hc
      have := h n
      rwa [List.getD_eq_getElem?_getD, List.getElem?_eq_getElem hn] at this
  have hsingle : ∀ f : ℤ → ℤ → ℤ, (addSubSingle w .panics f a r = none ↔ ¬ InRange w (f (a.getD 0 0) r)) := by
    intro f
    cases a with
    | nil =>
      by_cases hc : InRange w (f 0 r)
      · simp [addSubSingle, fit_panics h0, fit_panics hr, fit_panics hc, hc]
      · simp [addSubSingle, fit_panics h0, fit_panics hr, fit_panics_none hc, hc]
    | cons c l =>
      have hcr : InRange w c := ha.1 c (by simp)
      by_cases hc : InRange w (f c r)
      · simp [addSubSingle, fit_panics hcr, fit_panics hr, fit_panics hc, hc]
      · simp [addSubSingle, fit_panics hcr, fit_panics hr, fit_panics_none hc, hc]
  refine ⟨?_, ?_, ?_, ?_, ?_, ?_⟩
  · rw [hnone, add, Option.isSome_map, addSubElems_isSome hw (· + ·) (by simp) _ _ ha.allFit hb.allFit, not_forall]
    simp only [coeff_add, listPoly_coeff]
  · rw [hnone, sub, Option.isSome_map, addSubElems_isSome hw (· - ·) (by simp) _ _ ha.allFit hb.allFit, not_forall]
    simp only [coeff_sub, listPoly_coeff]
  · rw [hnone, neg, Option.isSome_map, mapM_isSome (fun c => -c), hall (fun c => -c) (by simp), not_forall]
    simp only [coeff_neg, listPoly_coeff]
  · rw [addCoeff, hsingle, coeff_add, listPoly_coeff, coeff_C_zero]
  · rw [subCoeff, hsingle, coeff_sub, listPoly_coeff, coeff_C_zero]
  · rw [hnone, mulCoeff, Option.isSome_map, mapM_isSome (fun c => c * r), hall (fun c => c * r) (by simp), not_forall]
    simp only [coeff_mul_C, listPoly_coeff]

example : Valid 8 [100, -128] ∧ InRange 8 28 ∧ add 8 .panics [100, -128] [27, 127] = some [127, -1] ∧
    add 8 .panics [100, -128] [28] = none ∧ neg 8 .panics [100, -128] = none ∧
    addCoeff 8 .panics [100, -128] 28 = none ∧ mulCoeff 8 .panics [100, -128] (-1) = none := by
  refine ⟨⟨by unfold InRange; decide, by decide⟩, by unfold InRange; decide, ?_, ?_, ?_, ?_, ?_⟩ <;>
    first | decide +kernel | (simp only [checkedAdd, add, addSubElems]; decide +kernel)

/-- C83: exactly when a product panics with overflow checks on: when a product of two coefficients does not fit, or a
coefficient of the product of the lower part of `a` with `b`. -/
theorem C83_mul_panics_iff (w : ℕ) (a b : List ℤ) :
    mul w .panics a b = none ↔
      ∃ k < a.length, ∃ j < b.length, ¬ InRange w ((listPoly a).coeff k * (listPoly b).coeff j) ∨
        ¬ InRange w ((listPoly (a.take (k + 1)) * listPoly b).coeff (k + j)) := by
  have hnone : mul w .panics a b = none ↔ ¬ (mul w .panics a b).isSome := by cases mul w .panics a b <;> simp
  rw [hnone, mul_isSome]
  push Not
  simp only [listPoly_coeff]
  constructor
  · rintro ⟨k, hk, j, hj, h⟩
    exact ⟨k, hk, j, hj, by by_cases h1 : InRange w (a.getD k 0 * b.getD j 0); exacts [.inr (h h1), .inl h1]⟩
  · rintro ⟨k, hk, j, hj, h⟩
    exact ⟨k, hk, j, hj, fun h1 => h.resolve_left (not_not.mpr h1)⟩

/-- C83: exactly when the value at a point panics with overflow checks on: when one of the steps of Horner's scheme
does not fit. -/
theorem C83_eval_panics_iff (w : ℕ) (a : List ℤ) (x : ℤ) :
    eval w .panics a x = none ↔
      ∃ n < a.length, ¬ InRange w ((listPoly (a.drop (n + 1))).eval x * x) ∨
        ¬ InRange w ((listPoly (a.drop n)).eval x) := by
  have hnone : eval w .panics a x = none ↔ ¬ (eval w .panics a x).isSome := by cases eval w .panics a x <;> simp
  rw [hnone, eval_isSome]
  push Not
  constructor
  · rintro ⟨n, hn, h⟩
    exact ⟨n, hn, by by_cases h1 : InRange w ((listPoly (a.drop (n + 1))).eval x * x); exacts [.inr (h h1), .inl h1]⟩
  · rintro ⟨n, hn, h⟩
    exact ⟨n, hn, fun h1 => h.resolve_left (not_not.mpr h1)⟩

/-- C83: the exact result of a product or of a value may fit although the code panics on the way to it. -/
theorem C83_exact_fits_counterexample :
    (mul 8 .panics [64, 1] [-1, 2] = none ∧ Valid 8 [-64, 127, 2] ∧
      listPoly ([-64, 127, 2] : List ℤ) = listPoly [64, 1] * listPoly [-1, 2]) ∧
    (eval 8 .panics [-100, 0, 1] 15 = none ∧ (listPoly ([-100, 0, 1] : List ℤ)).eval 15 = 125 ∧ InRange 8 125) := by
  refine ⟨⟨by decide +kernel, ⟨by unfold InRange; decide, by decide⟩, ?_⟩, by decide +kernel, by norm_num, by
    unfold InRange; decide⟩
  simp only [listPoly_cons, listPoly_nil]
  have h1 : (C (-64) : ℤ[X]) = -64 := by simp
  have h2 : (C 127 : ℤ[X]) = 127 := by simp
  have h3 : (C 2 : ℤ[X]) = 2 := by simp
  have h4 : (C 64 : ℤ[X]) = 64 := by simp
  have h5 : (C (-1) : ℤ[X]) = -1 := by simp
  rw [h1, h2, h3, h4, h5, C_1]
  ring

/-- C83: the derivative.  Its multipliers are converted to the type of the coefficients, and that panics however the
program was compiled: without checks there is a result exactly when the degree is a number of the type, and then it is
the exact one cut to `w` bits; with checks every coefficient must fit as well. -/
theorem C83_derivative (w : ℕ) (hw : 0 < w) (a : List ℤ) :
    (MachinePoly.derivative w .wraps a = none ↔ (2 : ℤ) ^ (w - 1) < a.length) ∧
    (∀ c, derivative w .wraps a = some c → CutFrom w c (Polynomial.derivative (listPoly a))) ∧
    (derivative w .panics a = none ↔ (2 : ℤ) ^ (w - 1) < a.length ∨
      ∃ n, ¬ InRange w ((Polynomial.derivative (listPoly a)).coeff n)) := by
  have h0 : InRange w 0 := zero_fits hw
  have hpos : (0 : ℤ) < 2 ^ (w - 1) := by positivity
  have hnone : ∀ {α : Type} (o : Option α), o = none ↔ ¬ o.isSome := by intro α o; cases o <;> simp
  refine ⟨?_, fun c h => cut_of_hom hw (derivative_valid hw _ _ h) (derivative_hom (blind_wraps w) _ _ h), ?_⟩
  · cases a with
    | nil => simp [MachinePoly.derivative, hpos.le]
    | cons c es =>
      rw [hnone, MachinePoly.derivative, Option.isSome_map, derivElems_wraps_isSome]
      push Not
      constructor
      · rintro ⟨n, hn, h⟩
        by_contra hc
        apply h
        simp only [List.length_cons] at hc
        push_cast at hc ⊢
        have : (n : ℤ) < es.length := by exact_mod_cast hn
        exact ⟨by omega, by omega⟩
      · intro h
        simp only [List.length_cons] at h
        push_cast at h
        cases hl : es.length with
        | zero => rw [hl] at h; push_cast at h; omega
        | succ l =>
          refine ⟨l, by omega, fun hc => ?_⟩
          have := hc.2
          rw [hl] at h
          push_cast at this h
          omega
  · cases a with
    | nil =>
      simp [MachinePoly.derivative, h0, hpos.le]
    | cons c es =>
      have hco : ∀ n, (Polynomial.derivative (listPoly (c :: es))).coeff n = es.getD n 0 * ((n + 1 : ℕ) : ℤ) := by
        intro n
        rw [coeff_derivative, listPoly_coeff]
        simp
      rw [hnone, MachinePoly.derivative, Option.isSome_map, derivElems_isSome]
      simp only [hco, zero_add]
      push Not
      constructor
      · rintro ⟨n, hn, h⟩
        by_cases h1 : InRange w ((n + 1 : ℕ) : ℤ)
        · exact .inr ⟨n, h h1⟩
        · left
          by_contra hc
          apply h1
          simp only [List.length_cons] at hc
          push_cast at hc ⊢
          have : (n : ℤ) < es.length := by exact_mod_cast hn
          exact ⟨by omega, by omega⟩
      · rintro (h | ⟨n, h⟩)
        · simp only [List.length_cons] at h
          push_cast at h
          cases hl : es.length with
          | zero => rw [hl] at h; push_cast at h; omega
          | succ l =>
            refine ⟨l, by omega, fun hc => ?_⟩
            have := hc.2
            rw [hl] at h
            push_cast at this h
            omega
        · have hn : n < es.length := by
            by_contra hn
            apply h
            rw [List.getD_eq_getElem?_getD, List.getElem?_eq_none (Nat.not_lt.mp hn)]
            simpa using h0
          exact ⟨n, hn, fun _ => h⟩

example : derivative 8 .wraps (List.replicate 129 1) = none ∧
    derivative 8 .panics [5, 60, 64, 1] = none ∧ derivative 8 .wraps [5, 60, 64, 1] = some [60, -128, 3] ∧
    (derivative 8 .panics (List.replicate 128 1)).isSome := by
  refine ⟨?_, ?_, ?_, ?_⟩ <;> decide +kernel

/-- C83: powers.  Negative exponents and the power `0` of zero give `None`; with overflow checks whatever else is
returned is the exact power, without them it is the power with every coefficient cut to `w` bits. -/
theorem C83_pow (w : ℕ) (hw : 1 < w) (p : List ℤ) (hp : Valid w p) (e : ℤ) (m : Overflow) :
    (checkedPow w m p e = some none ↔ e < 0 ∨ e = 0 ∧ p = []) ∧
    (∀ c, checkedPow w .panics p e = some (some c) → 0 ≤ e ∧ Valid w c ∧ listPoly c = listPoly p ^ e.toNat) ∧
    (0 < e → ∃ c, checkedPow w .wraps p e = some (some c) ∧ CutFrom w c (listPoly p ^ e.toNat)) := by
  have hone : Valid w [1] := by
    refine ⟨fun c hc => ?_, by simp⟩
    rw [List.mem_singleton.mp hc]
    refine ⟨?_, one_lt_pow₀ (by norm_num) (by omega)⟩
    have : (0 : ℤ) ≤ 2 ^ (w - 1) := by positivity
    omega
  have hloop : ∀ (m : Overflow) (R : Type) [CommRing R] [DecidableEq R] (φ : ℤ →+* R), Blind w m φ → 0 < e →
      ∀ o, checkedPow w m p e = some o →
      ∃ c, o = some c ∧ Valid w c ∧ (listPoly c).map φ = (listPoly p ^ e.toNat).map φ := by
    intro m R _ _ φ hφ he o h
    unfold checkedPow at h
    rw [if_neg (by omega), if_neg (by omega)] at h
    split_ifs at h with h1
    · simp only [Option.some.injEq] at h
      subst h h1
      exact ⟨p, rfl, hp, by simp⟩
    · obtain ⟨c', rfl, hc'⟩ := powLoop_hom hφ _ _ _ _ _ (lt_trans (Nat.lt_succ_self _) Nat.lt_two_pow_self)
        (by omega) h
      exact ⟨c', rfl, powLoop_valid (by omega) _ _ _ _ _ hp (by simp) h, by simpa using hc'⟩
  refine ⟨?_, fun c h => ?_, fun he => ?_⟩
  · constructor
    · intro h
      by_contra hc
      push Not at hc
      rcases lt_or_eq_of_le hc.1 with he | he
      · cases m with
        | panics =>
          obtain ⟨c, hc, -⟩ := hloop _ ℤ _ (blind_panics w) he _ h
          cases hc
        | wraps =>
          obtain ⟨c, hc, -⟩ := hloop _ (ZMod (2 ^ w)) _ (blind_wraps w) he _ h
          cases hc
      · have hpe := hc.2 he.symm
        unfold checkedPow at h
        rw [if_neg (by omega), if_pos he.symm, if_neg (by simpa using hpe)] at h
        simp at h
    · rintro (h | ⟨rfl, rfl⟩)
      · unfold checkedPow; rw [if_pos h]
      · simp [checkedPow]
  · rcases lt_trichotomy e 0 with he | he | he
    · unfold checkedPow at h; rw [if_pos he] at h; cases h
    · subst he
      unfold checkedPow at h
      rw [if_neg (by omega), if_pos rfl] at h
      split_ifs at h
      · cases h
      · simp only [Option.some.injEq] at h
        subst h
        exact ⟨le_refl _, hone, by simp⟩
    · obtain ⟨c', hc', hv, hm⟩ := hloop _ ℤ _ (blind_panics w) he _ h
      simp only [Option.some.injEq] at hc'
      subst hc'
      exact ⟨he.le, hv, exact_of_hom hm⟩
  · have : ∃ o, checkedPow w .wraps p e = some o := by
      unfold checkedPow
      split_ifs
      any_goals exact ⟨_, rfl⟩
      exact powLoop_wraps _ _ _ _
    obtain ⟨o, ho⟩ := this
    obtain ⟨c, rfl, hv, hm⟩ := hloop _ (ZMod (2 ^ w)) _ (blind_wraps w) he _ ho
    exact ⟨c, ho, cut_of_hom (by omega) hv hm⟩

example : Valid 8 [1, 1] ∧ checkedPow 8 .panics [1, 1] 9 = some (some [1, 9, 36, 84, 126, 126, 84, 36, 9, 1]) ∧
    checkedPow 8 .panics [1, 1] 10 = none ∧
    checkedPow 8 .wraps [1, 1] 10 = some (some [1, 10, 45, 120, -46, -4, -46, 120, 45, 10, 1]) := by
  refine ⟨⟨by unfold InRange; decide, by decide⟩, ?_, ?_, ?_⟩ <;> decide +kernel

/-- C83: pseudo-division.  A zero divisor gives `None`; otherwise, with overflow checks, whatever is returned
satisfies the exact identity, and without them the identity holds for every coefficient up to a multiple of `2^w`. -/
theorem C83_pseudo_div_rem (w : ℕ) (hw : 1 < w) (p q : List ℤ) (hp : Valid w p) (hq : Valid w q) (m : Overflow) :
    (checkedPseudoDivRem w m p q = some none ↔ q = []) ∧
    (∀ quo rem f, checkedPseudoDivRem w .panics p q = some (some (quo, rem, f)) →
      Valid w quo ∧ Valid w rem ∧ InRange w f ∧ rem.length < q.length ∧
      f = (listPoly q).leadingCoeff ^ (p.length + 1 - q.length) ∧
      C f * listPoly p = listPoly quo * listPoly q + listPoly rem) ∧
    (q ≠ [] → ∃ quo rem f, checkedPseudoDivRem w .wraps p q = some (some (quo, rem, f)) ∧
      Valid w quo ∧ Valid w rem ∧ rem.length < q.length ∧
      f = ((listPoly q).leadingCoeff ^ (p.length + 1 - q.length)).bmod (2 ^ w) ∧
      ∀ n, (2 : ℤ) ^ w ∣ (C f * listPoly p - (listPoly quo * listPoly q + listPoly rem)).coeff n) := by
  have hnil : ∀ m, q = [] → checkedPseudoDivRem w m p q = some none := by
    rintro m rfl; simp [checkedPseudoDivRem]
  have hlead : q ≠ [] → (listPoly q).leadingCoeff = q.getLastD 0 := by
    intro h
    have hl : q.getLast h ≠ 0 := by
      intro e
      exact hq.2 (by rw [List.getLast?_eq_some_getLast h, e])
    rw [(listPoly_leading q h hl).2, List.getLastD_eq_getLast?, List.getLast?_eq_some_getLast h]
    rfl
  refine ⟨⟨fun h => ?_, hnil m⟩, fun quo rem f h => ?_, fun hq0 => ?_⟩
  · by_contra hq0
    cases m with
    | panics =>
      obtain ⟨_, _, _, h, -⟩ := checkedPseudoDivRem_hom hw (blind_panics w) p q hp hq hq0 _ h
      cases h
    | wraps =>
      obtain ⟨_, _, _, h, -⟩ := checkedPseudoDivRem_hom hw (blind_wraps w) p q hp hq hq0 _ h
      cases h
  · have hq0 : q ≠ [] := fun e => by rw [hnil _ e] at h; cases h
    obtain ⟨quo', rem', f', e, h1, h2, h3, h4, h5, h6⟩ :=
      checkedPseudoDivRem_hom hw (blind_panics w) p q hp hq hq0 _ h
    simp only [Option.some.injEq, Prod.mk.injEq] at e
    obtain ⟨rfl, rfl, rfl⟩ := e
    exact ⟨h1, h2, h3, h4, by rw [hlead hq0]; simpa using h5, by simpa using h6⟩
  · obtain ⟨o, ho⟩ := checkedPseudoDivRem_wraps (w := w) p q
    obtain ⟨quo, rem, f, rfl, h1, h2, h3, h4, h5, h6⟩ :=
      checkedPseudoDivRem_hom hw (blind_wraps w) p q hp hq hq0 _ ho
    refine ⟨quo, rem, f, ho, h1, h2, h4, ?_, fun n => ?_⟩
    · rw [hlead hq0]
      exact cut_coeff (by omega) h3 h5
    · have := congrArg (fun p => p.coeff n) h6
      simp only [coeff_map, eq_intCast] at this
      rw [ZMod.intCast_eq_intCast_iff, Int.modEq_comm, Int.modEq_iff_dvd] at this
      rw [coeff_sub]
      exact_mod_cast this

example : Valid 8 [3, 0, 5, 2] ∧ Valid 8 [1, 3] ∧
    checkedPseudoDivRem 8 .panics [3, 0, 5, 2] [1, 3] = some (some ([-13, 39, 18], [94], 27)) ∧
    checkedPseudoDivRem 8 .panics [3, 0, 5, 2] [1, 7] = none ∧
    (checkedPseudoDivRem 8 .wraps [3, 0, 5, 2] [1, 7]).isSome := by
  refine ⟨⟨by unfold InRange; decide, by decide⟩, ⟨by unfold InRange; decide, by decide⟩, ?_, ?_, ?_⟩ <;>
    decide +kernel

/-- C83: `checked_add`, `checked_sub` and `checked_mul` never return `None`: what does not fit is a panic or a wrong
result. -/
theorem C83_checked_never_none (w : ℕ) (m : Overflow) (a b : List ℤ) :
    checkedAdd w m a b ≠ some none ∧ checkedSub w m a b ≠ some none ∧ checkedMul w m a b ≠ some none := by
  simp [checkedAdd, checkedSub, checkedMul]

/-- C83: so on overflow `checked_add` does not do what its trait promises ("if overflow happens, `None` is
returned"). -/
theorem C83_checked_add_counterexample :
    Valid 8 [127] ∧ Valid 8 [1] ∧ ¬ InRange 8 ((listPoly ([127] : List ℤ) + listPoly [1]).coeff 0) ∧
      checkedAdd 8 .panics [127] [1] = none ∧ checkedAdd 8 .wraps [127] [1] = some (some [-128]) := by
  refine ⟨⟨by unfold InRange; decide, by decide⟩, ⟨by unfold InRange; decide, by decide⟩, ?_, ?_, ?_⟩
  · rw [coeff_add, listPoly_coeff, listPoly_coeff]
    unfold InRange
    decide
  · simp only [checkedAdd, add, addSubElems]
    decide +kernel
  · simp only [checkedAdd, add, addSubElems]
    decide +kernel

end Algebraics
