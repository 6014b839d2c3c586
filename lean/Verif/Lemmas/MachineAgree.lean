import Verif.Lemmas.MachineGcd

/-!
# The two ways to compile agree as long as nothing overflows
-/

namespace Algebraics

open Polynomial

namespace MachinePoly

variable {w : ℕ}

/-- whatever an operation gives in the first setting it gives in the second, too: `m` and `m'` are the ways of
compiling, `w` and `w'` the widths -/
structure Refines (w : ℕ) (m : Overflow) (w' : ℕ) (m' : Overflow) : Prop where
  fit : ∀ {v c : ℤ}, m.fit w v = some c → m'.fit w' v = some c
  check : ∀ {v c : ℤ}, (IntTy.signed w).check v = some c → (IntTy.signed w').check v = some c
  div : ∀ {a b c : ℤ}, exactDivPrim (.signed w) a b = some c → exactDivPrim (.signed w') a b = some c

theorem refines_wraps (hw : 0 < w) : Refines w .panics w .wraps where
  fit := by
    intro v c h
    obtain ⟨h1, rfl⟩ := fit_panics_some.mp h
    rw [fit_wraps, bmod_of_inRange hw h1]
  check := id
  div := id

theorem inRange_mono {w' : ℕ} (h : w ≤ w') {v : ℤ} (hv : InRange w v) : InRange w' v := by
  have : (2 : ℤ) ^ (w - 1) ≤ 2 ^ (w' - 1) := pow_le_pow_right₀ (by norm_num) (by omega)
  exact ⟨by have := hv.1; omega, by have := hv.2; omega⟩

theorem refines_wider {w' : ℕ} (h : w ≤ w') : Refines w .panics w' .panics where
  fit := by
    intro v c hf
    obtain ⟨h1, rfl⟩ := fit_panics_some.mp hf
    exact fit_panics_some.mpr ⟨inRange_mono h h1, rfl⟩
  check := by
    intro v c hf
    obtain ⟨h1, rfl⟩ := fit_panics_some.mp hf
    exact fit_panics_some.mpr ⟨inRange_mono h h1, rfl⟩
  div := by
    intro a b c hd
    obtain ⟨e1, e2, e3⟩ := (C38_exact_div_machine (.signed w) a b c).2.mp hd
    exact (C38_exact_div_machine (.signed w') a b c).2.mpr ⟨e1, e2, inRange_mono h e3⟩

section

variable {m : Overflow} {w' : ℕ} {m' : Overflow}

theorem subRow_agree (hw : Refines w m w' m') (qc : ℤ) (ds : List ℤ) : ∀ rs c : List ℤ,
    subRow w m qc ds rs = some c → subRow w' m' qc ds rs = some c := by
  induction ds with
  | nil => intro rs c h; cases rs <;> simpa [subRow] using h
  | cons d ds ih =>
    intro rs c h
    cases rs with
    | nil => simpa [subRow] using h
    | cons r rs =>
      simp only [subRow, bind, Option.bind_eq_some_iff, pure, Option.some.injEq] at h ⊢
      obtain ⟨v, h1, e, h2, cs, h3, rfl⟩ := h
      exact ⟨v, hw.fit h1, e, hw.fit h2, cs, ih _ _ h3, rfl⟩

theorem subAt_agree (hw : Refines w m w' m') (qc : ℤ) (ds : List ℤ) (k : ℕ) : ∀ rs c : List ℤ,
    subAt w m qc ds k rs = some c → subAt w' m' qc ds k rs = some c := by
  induction k with
  | zero => intro rs c h; exact subRow_agree hw _ _ _ _ h
  | succ k ih =>
    intro rs c h
    cases rs with
    | nil => simpa [subAt] using h
    | cons r rs =>
      simp only [subAt, bind, Option.bind_eq_some_iff, pure, Option.some.injEq] at h ⊢
      obtain ⟨cs, h3, rfl⟩ := h
      exact ⟨cs, ih _ _ h3, rfl⟩

theorem pdrLoop_agree (hw : Refines w m w' m') (dl : ℤ) (den : List ℤ) (k : ℕ) : ∀ (rem q : List ℤ) (c : List ℤ × List ℤ),
    pdrLoop w m dl den k rem q = some c → pdrLoop w' m' dl den k rem q = some c := by
  induction k with
  | zero => intro rem q c h; exact h
  | succ k ih =>
    intro rem q c h
    simp only [pdrLoop, bind, Option.bind_eq_some_iff] at h ⊢
    obtain ⟨r1, h1, r2, h2, h3⟩ := h
    exact ⟨r1, mapM_mono (fun _ _ h => hw.fit h) _ _ h1, r2, subAt_agree hw _ _ _ _ _ h2, ih _ _ _ h3⟩

theorem scaleTail_agree (hw : Refines w m w' m') (dl : ℤ) (qs : List ℤ) : ∀ (f : ℤ) (c : List ℤ × ℤ),
    scaleTail w m dl f qs = some c → scaleTail w' m' dl f qs = some c := by
  induction qs with
  | nil => intro f c h; exact h
  | cons q qs ih =>
    intro f c h
    simp only [scaleTail, bind, Option.bind_eq_some_iff, pure, Option.some.injEq] at h ⊢
    obtain ⟨v, h1, g, h2, s, h3, rfl⟩ := h
    exact ⟨v, hw.fit h1, g, hw.fit h2, s, ih _ _ h3, rfl⟩

theorem pseudoDivRem_agree (hw : Refines w m w' m') {p q : List ℤ} {c : List ℤ × List ℤ × ℤ}
    (h : pseudoDivRem w m p q = some c) : pseudoDivRem w' m' p q = some c := by
  simp only [pseudoDivRem, bind, Option.bind_eq_some_iff] at h ⊢
  obtain ⟨o, h, rfl⟩ := h
  refine ⟨_, ?_, rfl⟩
  unfold checkedPseudoDivRem at h ⊢
  by_cases hq : q.isEmpty = true
  · rw [if_pos hq] at h; simp at h
  rw [if_neg hq] at h ⊢
  cases hl : Poly.quotientLen p.length q.length with
  | none => rw [hl] at h; exact h
  | some ql =>
    rw [hl] at h
    simp only [bind, Option.bind_eq_some_iff, pure, Option.some.injEq] at h ⊢
    obtain ⟨r, h1, h2⟩ := h
    refine ⟨r, ?_, h2⟩
    simp only [elementPseudoDivRem, bind, Option.bind_eq_some_iff] at h1 ⊢
    obtain ⟨qr, h3, h4⟩ := h1
    refine ⟨qr, pdrLoop_agree hw _ _ _ _ _ _ h3, ?_⟩
    match hq : qr.1 with
    | [] => rw [hq] at h4; exact h4
    | q0 :: qs =>
      rw [hq] at h4
      simp only [Option.bind_eq_some_iff, pure, Option.some.injEq] at h4 ⊢
      obtain ⟨s, h5, h6⟩ := h4
      exact ⟨s, scaleTail_agree hw _ _ _ _ h5, h6⟩

theorem neg_agree (hw : Refines w m w' m') {p q : List ℤ} (h : neg w m p = some q) : neg w' m' p = some q := by
  simp only [neg, Option.map_eq_some_iff] at h ⊢
  obtain ⟨d, h, rfl⟩ := h
  exact ⟨d, mapM_mono (fun _ _ h => hw.fit h) _ _ h, rfl⟩

theorem derivElems_agree (hw : Refines w m w' m') (es : List ℤ) : ∀ (i : ℕ) (c : List ℤ), derivElems w m i es = some c →
    derivElems w' m' i es = some c := by
  induction es with
  | nil => intro i c h; exact h
  | cons e es ih =>
    intro i c h
    simp only [derivElems, bind, Option.bind_eq_some_iff, pure, Option.some.injEq] at h ⊢
    obtain ⟨k, h1, v, h2, cs, h3, rfl⟩ := h
    exact ⟨k, hw.check h1, v, hw.fit h2, cs, ih _ _ h3, rfl⟩

theorem derivative_agree (hw : Refines w m w' m') {p q : List ℤ} (h : MachinePoly.derivative w m p = some q) :
    MachinePoly.derivative w' m' p = some q := by
  cases p with
  | nil => exact h
  | cons a es =>
    simp only [MachinePoly.derivative, Option.map_eq_some_iff] at h ⊢
    obtain ⟨d, h, rfl⟩ := h
    exact ⟨d, derivElems_agree hw _ _ _ h, rfl⟩

theorem nonzeroContent_agree (hw : Refines w m w' m') {p : List ℤ} {o : Option ℤ} (h : nonzeroContent w m p = some o) :
    nonzeroContent w' m' p = some o := by
  cases p with
  | nil => exact h
  | cons a as =>
    simp only [nonzeroContent, bind, Option.bind_eq_some_iff] at h ⊢
    obtain ⟨r, h1, h2⟩ := h
    refine ⟨r, foldlM_mono (fun _ _ _ h => hw.fit h) _ _ _ h1, ?_⟩
    by_cases hc : ((a :: as).getLastD 0 < 0) ≠ (r < 0)
    · rw [if_pos hc] at h2 ⊢
      simp only [Option.bind_eq_some_iff] at h2 ⊢
      obtain ⟨x, h3, h4⟩ := h2
      exact ⟨x, hw.fit h3, h4⟩
    · rw [if_neg hc] at h2 ⊢
      exact h2

theorem divCoeff_agree (hw : Refines w m w' m') {p q : List ℤ} {c : ℤ} (h : divCoeff w p c = some q) :
    divCoeff w' p c = some q := by
  simp only [divCoeff, bind, Option.bind_eq_some_iff] at h ⊢
  obtain ⟨d, h1, h2⟩ := h
  exact ⟨d, mapM_mono (fun _ _ h => hw.div h) _ _ h1, h2⟩

theorem coeffPow_agree (hw : Refines w m w' m') {b r : ℤ} {e : ℕ} (h : coeffPow w m b e = some r) :
    coeffPow w' m' b e = some r := by
  unfold coeffPow at h ⊢
  split_ifs at h ⊢
  · exact h
  · simp only [bind, Option.bind_eq_some_iff] at h ⊢
    obtain ⟨o, h1, h2⟩ := h
    exact ⟨o, powLoop_mono (fun _ _ _ h => hw.fit h) _ _ _ _ _ h1, h2⟩

theorem exactMul_agree (hw : Refines w m w' m') {f b r : ℤ} {p n : ℕ} (h : exactMulBySignedPower w m f b p n = some r) :
    exactMulBySignedPower w' m' f b p n = some r := by
  unfold exactMulBySignedPower at h ⊢
  split_ifs at h ⊢
  · simp only [bind, Option.bind_eq_some_iff] at h ⊢
    obtain ⟨x, h1, h2⟩ := h
    exact ⟨x, coeffPow_agree hw h1, hw.fit h2⟩
  · simp only [bind, Option.bind_eq_some_iff] at h ⊢
    obtain ⟨x, h1, h2⟩ := h
    exact ⟨x, coeffPow_agree hw h1, hw.div h2⟩

theorem subresultantLoop_agree (hw : Refines w m w' m') (fuel : ℕ) : ∀ (f2 : List ℤ) (n2 : ℕ) (a2 c2 : ℤ) (f1 : List ℤ) (n1 : ℕ)
    (r : List ℤ), subresultantLoop w m fuel f2 n2 a2 c2 f1 n1 = some r →
    subresultantLoop w' m' fuel f2 n2 a2 c2 f1 n1 = some r := by
  induction fuel with
  | zero => intro f2 n2 a2 c2 f1 n1 r h; exact h
  | succ fuel ih =>
    intro f2 n2 a2 c2 f1 n1 r h
    simp only [subresultantLoop, bind, Option.bind_eq_some_iff] at h ⊢
    obtain ⟨pr, h1, a2', h2, c2', h3, c3, h4, d, h5, f, h6, h⟩ := h
    refine ⟨pr, pseudoDivRem_agree hw h1, a2', hw.fit h2, c2', hw.fit h3, c3, coeffPow_agree hw h4, d,
      hw.fit h5, f, divCoeff_agree hw h6, ?_⟩
    split_ifs at h ⊢
    · exact h
    · simp only [Option.bind_eq_some_iff] at h ⊢
      obtain ⟨a1, h7, e, h8, c1, h9, h⟩ := h
      exact ⟨a1, h7, e, coeffPow_agree hw h8, c1, exactMul_agree hw h9, ih _ _ _ _ _ _ _ h⟩

theorem subresultantGcd_agree (hw : Refines w m w' m') {l r g : List ℤ} (h : subresultantGcd w m l r = some g) :
    subresultantGcd w' m' l r = some g := by
  have ord : ∀ (l r : List ℤ) (b : Bool), subresultantGcdOrdered w m l r b = some g →
      subresultantGcdOrdered w' m' l r b = some g := by
    intro l r b h
    unfold subresultantGcdOrdered at h ⊢
    by_cases hr : r.isEmpty = true
    · rw [if_pos hr] at h ⊢; exact h
    rw [if_neg hr] at h ⊢
    simp only [bind, Option.bind_eq_some_iff] at h ⊢
    obtain ⟨f, h1, h2⟩ := h
    refine ⟨f, subresultantLoop_agree hw _ _ _ _ _ _ _ _ h1, ?_⟩
    cases b with
    | false => exact h2
    | true => exact neg_agree hw h2
  unfold subresultantGcd at h ⊢
  split_ifs at h ⊢ <;> exact ord _ _ _ h

theorem negIf_agree (hw : Refines w m w' m') {b : Bool} {x r : ℤ} (h : negIf w m b x = some r) :
    negIf w' m' b x = some r := by
  unfold negIf at h ⊢
  split_ifs at h ⊢
  · exact hw.fit h
  · exact h

theorem resultantPsi_agree (hw : Refines w m w' m') {f psiP r : ℤ} {dp : ℕ} (h : resultantPsi w m f dp psiP = some r) :
    resultantPsi w' m' f dp psiP = some r := by
  match dp with
  | 0 => exact h
  | 1 => exact h
  | dp + 2 =>
    simp only [resultantPsi, bind, Option.bind_eq_some_iff] at h ⊢
    obtain ⟨nf, h1, a, h2, b, h3, h4⟩ := h
    exact ⟨nf, hw.fit h1, a, coeffPow_agree hw h2, b, coeffPow_agree hw h3, hw.div h4⟩

theorem resultantPsiBeta_agree (hw : Refines w m w' m') {u : List ℤ} {i d dp : ℕ} {psiP : ℤ} {r : ℤ × ℤ}
    (h : resultantPsiBeta w m u i d dp psiP = some r) : resultantPsiBeta w' m' u i d dp psiP = some r := by
  unfold resultantPsiBeta at h ⊢
  by_cases hi : i = 1
  · rw [if_pos hi] at h ⊢
    simp only [bind, Option.bind_eq_some_iff] at h ⊢
    obtain ⟨psi, h1, beta, h2, h3⟩ := h
    exact ⟨psi, hw.fit h1, beta, negIf_agree hw h2, h3⟩
  · rw [if_neg hi] at h ⊢
    simp only [bind, Option.bind_eq_some_iff] at h ⊢
    obtain ⟨f, h1, psi, h2, nf, h3, b, h4, beta, h5, h6⟩ := h
    exact ⟨f, h1, psi, resultantPsi_agree hw h2, nf, hw.fit h3, b, coeffPow_agree hw h4, beta, hw.fit h5,
      h6⟩

theorem resultantLoop_agree (hw : Refines w m w' m') (fuel : ℕ) : ∀ (u v : List ℤ) (i dp : ℕ) (psiP : ℤ) (r : Option ℤ),
    resultantLoop w m fuel u v i dp psiP = some r → resultantLoop w' m' fuel u v i dp psiP = some r := by
  induction fuel with
  | zero => intro u v i dp psiP r h; exact h
  | succ fuel ih =>
    intro u v i dp psiP r h
    rw [resultantLoop] at h ⊢
    by_cases hz : (u.isEmpty || v.isEmpty) = true
    · rw [if_pos hz] at h; cases h
    rw [if_neg hz] at h ⊢
    simp only at h ⊢
    by_cases h1 : u.length - 1 < v.length - 1
    · rw [if_pos h1] at h ⊢
      simp only [bind, Option.bind_eq_some_iff] at h ⊢
      obtain ⟨o, h2, h3⟩ := h
      refine ⟨o, ih _ _ _ _ _ _ h2, ?_⟩
      cases o with
      | none => exact h3
      | some x =>
        simp only [Option.bind_eq_some_iff] at h3 ⊢
        obtain ⟨y, h4, h5⟩ := h3
        exact ⟨y, negIf_agree hw h4, h5⟩
    rw [if_neg h1] at h ⊢
    by_cases h2 : v.length - 1 = 0
    · rw [if_pos h2] at h ⊢
      simp only [bind, Option.bind_eq_some_iff] at h ⊢
      obtain ⟨c, h3, x, h4, h5⟩ := h
      exact ⟨c, h3, x, coeffPow_agree hw h4, h5⟩
    rw [if_neg h2] at h ⊢
    simp only [bind, Option.bind_eq_some_iff] at h ⊢
    obtain ⟨pr, h3, h⟩ := h
    refine ⟨pr, pseudoDivRem_agree hw h3, ?_⟩
    by_cases h4 : pr.2.1.isEmpty = true
    · rw [if_pos h4] at h ⊢; exact h
    rw [if_neg h4] at h ⊢
    simp only [Option.bind_eq_some_iff] at h ⊢
    obtain ⟨pb, h5, q, h6, l, h7, h⟩ := h
    refine ⟨pb, resultantPsiBeta_agree hw h5, q, divCoeff_agree hw h6, l, h7, ?_⟩
    by_cases h8 : q.isEmpty = true
    · rw [if_pos h8] at h; cases h
    rw [if_neg h8] at h ⊢
    simp only [Option.bind_eq_some_iff] at h ⊢
    obtain ⟨x, h9, x', h10, y, h11, h⟩ := h
    refine ⟨x, coeffPow_agree hw h9, x', negIf_agree hw h10, y, ih _ _ _ _ _ _ h11, ?_⟩
    cases y with
    | none => exact h
    | some y =>
      simp only [Option.bind_eq_some_iff] at h ⊢
      obtain ⟨z, h12, f, h13, t, h14, h15⟩ := h
      exact ⟨z, hw.fit h12, f, coeffPow_agree hw h13, t, hw.div h14, h15⟩

theorem nonzeroResultant_agree (hw : Refines w m w' m') {u v : List ℤ} {r : Option ℤ}
    (h : nonzeroResultant w m u v = some r) : nonzeroResultant w' m' u v = some r := by
  unfold nonzeroResultant at h ⊢
  split_ifs at h ⊢
  · exact h
  · exact resultantLoop_agree hw _ _ _ _ _ _ _ h

theorem primitiveDerivative_agree (hw : Refines w m w' m') {p q : List ℤ} (h : primitiveDerivative w m p = some q) :
    primitiveDerivative w' m' p = some q := by
  simp only [primitiveDerivative, bind, Option.bind_eq_some_iff] at h ⊢
  obtain ⟨d, h1, c, h2, h⟩ := h
  refine ⟨d, derivative_agree hw h1, c, nonzeroContent_agree hw h2, ?_⟩
  cases c with
  | none => exact h
  | some c =>
    simp only at h ⊢
    by_cases hc : c < 0
    · rw [if_pos hc] at h ⊢
      simp only [Option.bind_eq_some_iff] at h ⊢
      obtain ⟨c', h3, h4⟩ := h
      exact ⟨c', hw.fit h3, divCoeff_agree hw h4⟩
    · rw [if_neg hc] at h ⊢
      exact divCoeff_agree hw h

theorem primitiveRemainder_agree (hw : Refines w m w' m') {a b q : List ℤ} (h : primitiveRemainder w m a b = some q) :
    primitiveRemainder w' m' a b = some q := by
  simp only [primitiveRemainder, bind, Option.bind_eq_some_iff] at h ⊢
  obtain ⟨pr, h1, c, h2, h⟩ := h
  refine ⟨pr, pseudoDivRem_agree hw h1, c, nonzeroContent_agree hw h2, ?_⟩
  cases c with
  | none => exact h
  | some c =>
    simp only [Option.bind_eq_some_iff] at h ⊢
    obtain ⟨r, h3, h⟩ := h
    refine ⟨r, divCoeff_agree hw h3, ?_⟩
    by_cases hc : (decide (pr.2.2 < 0) != decide (c < 0)) = true
    · rw [if_pos hc] at h ⊢
      exact neg_agree hw h
    · rw [if_neg hc] at h ⊢
      exact h

theorem sturmLoop_agree (hw : Refines w m w' m') (k : ℕ) : ∀ (a b : List ℤ) (l : List (List ℤ)),
    sturmLoop w m (primitiveRemainder w m) k a b = some l →
    sturmLoop w' m' (primitiveRemainder w' m') k a b = some l := by
  induction k with
  | zero => intro a b l h; exact h
  | succ k ih =>
    intro a b l h
    rw [sturmLoop] at h ⊢
    by_cases hz : b.isEmpty = true
    · rw [if_pos hz] at h ⊢; exact h
    rw [if_neg hz] at h ⊢
    simp only [bind, Option.bind_eq_some_iff] at h ⊢
    obtain ⟨r, h1, r', h2, l', h3, h4⟩ := h
    exact ⟨r, primitiveRemainder_agree hw h1, r', neg_agree hw h2, l', ih _ _ _ h3, h4⟩

theorem primitiveSturm_agree (hw : Refines w m w' m') {p : List ℤ} {l : List (List ℤ)}
    (h : primitiveSturmSequence w m p = some l) : primitiveSturmSequence w' m' p = some l := by
  unfold primitiveSturmSequence at h ⊢
  match hl : p.length with
  | 0 => rw [hl] at h; exact h
  | 1 => rw [hl] at h; exact h
  | n + 2 =>
    rw [hl] at h
    simp only [bind, Option.bind_eq_some_iff] at h ⊢
    obtain ⟨d, h1, l', h2, h3⟩ := h
    exact ⟨d, primitiveDerivative_agree hw h1, l', sturmLoop_agree hw _ _ _ _ h2, h3⟩

theorem addSubElems_agree (hw : Refines w m w' m') (f : ℤ → ℤ → ℤ) (l : List ℤ) : ∀ (r c : List ℤ),
    addSubElems w m f l r = some c → addSubElems w' m' f l r = some c := by
  induction l with
  | nil =>
    intro r
    induction r with
    | nil => intro c h; simpa [addSubElems] using h
    | cons b bs ih =>
      intro c h
      simp only [addSubElems, bind, Option.bind_eq_some_iff] at h ⊢
      obtain ⟨x, h1, y, h2, z, h3, cs, h4, h5⟩ := h
      exact ⟨x, hw.fit h1, y, hw.fit h2, z, hw.fit h3, cs, ih _ h4, h5⟩
  | cons a as ih =>
    intro r c h
    cases r with
    | nil =>
      simp only [addSubElems, bind, Option.bind_eq_some_iff] at h ⊢
      obtain ⟨x, h1, cs, h4, h5⟩ := h
      exact ⟨x, hw.fit h1, cs, ih _ _ h4, h5⟩
    | cons b bs =>
      simp only [addSubElems, bind, Option.bind_eq_some_iff] at h ⊢
      obtain ⟨x, h1, y, h2, z, h3, cs, h4, h5⟩ := h
      exact ⟨x, hw.fit h1, y, hw.fit h2, z, hw.fit h3, cs, ih _ _ h4, h5⟩

theorem add_agree (hw : Refines w m w' m') {l r c : List ℤ} (h : add w m l r = some c) : add w' m' l r = some c := by
  simp only [add, Option.map_eq_some_iff] at h ⊢
  obtain ⟨d, h, rfl⟩ := h
  exact ⟨d, addSubElems_agree hw _ _ _ _ h, rfl⟩

theorem sub_agree (hw : Refines w m w' m') {l r c : List ℤ} (h : sub w m l r = some c) : sub w' m' l r = some c := by
  simp only [sub, Option.map_eq_some_iff] at h ⊢
  obtain ⟨d, h, rfl⟩ := h
  exact ⟨d, addSubElems_agree hw _ _ _ _ h, rfl⟩

theorem addSubSingle_agree (hw : Refines w m w' m') {f : ℤ → ℤ → ℤ} {l c : List ℤ} {r : ℤ}
    (h : addSubSingle w m f l r = some c) : addSubSingle w' m' f l r = some c := by
  cases l <;>
  · simp only [addSubSingle, bind, Option.bind_eq_some_iff] at h ⊢
    obtain ⟨x, h1, y, h2, z, h3, h5⟩ := h
    exact ⟨x, hw.fit h1, y, hw.fit h2, z, hw.fit h3, h5⟩

theorem mulStep_agree (hw : Refines w m w' m') {acc c : List ℤ} {i : ℕ} {v : ℤ} (h : mulStep w m acc i v = some c) :
    mulStep w' m' acc i v = some c := by
  unfold mulStep at h ⊢
  by_cases hi : i = acc.length
  · rw [if_pos hi] at h ⊢; exact h
  · rw [if_neg hi] at h ⊢
    simp only [bind, Option.bind_eq_some_iff] at h ⊢
    obtain ⟨x, h1, h2⟩ := h
    exact ⟨x, hw.fit h1, h2⟩

theorem mulRow_agree (hw : Refines w m w' m') (a : ℤ) (bs : List ℤ) : ∀ (i : ℕ) (acc c : List ℤ),
    mulRow w m a i bs acc = some c → mulRow w' m' a i bs acc = some c := by
  induction bs with
  | nil => intro i acc c h; exact h
  | cons b bs ih =>
    intro i acc c h
    simp only [mulRow, bind, Option.bind_eq_some_iff] at h ⊢
    obtain ⟨v, h1, x, h2, h3⟩ := h
    exact ⟨v, hw.fit h1, x, mulStep_agree hw h2, ih _ _ _ h3⟩

theorem mulRows_agree (hw : Refines w m w' m') (r : List ℤ) (l : List ℤ) : ∀ (i : ℕ) (acc c : List ℤ),
    mulRows w m r i l acc = some c → mulRows w' m' r i l acc = some c := by
  induction l with
  | nil => intro i acc c h; exact h
  | cons b bs ih =>
    intro i acc c h
    simp only [mulRows, bind, Option.bind_eq_some_iff] at h ⊢
    obtain ⟨x, h2, h3⟩ := h
    exact ⟨x, mulRow_agree hw _ _ _ _ _ h2, ih _ _ _ h3⟩

theorem mul_agree (hw : Refines w m w' m') {l r c : List ℤ} (h : mul w m l r = some c) : mul w' m' l r = some c := by
  unfold mul at h ⊢
  split_ifs at h ⊢
  · exact h
  · simp only [Option.map_eq_some_iff] at h ⊢
    obtain ⟨d, h, rfl⟩ := h
    exact ⟨d, mulRows_agree hw _ _ _ _ _ h, rfl⟩

theorem mulCoeff_agree (hw : Refines w m w' m') {l c : List ℤ} {r : ℤ} (h : mulCoeff w m l r = some c) :
    mulCoeff w' m' l r = some c := by
  simp only [mulCoeff, Option.map_eq_some_iff] at h ⊢
  obtain ⟨d, h, rfl⟩ := h
  exact ⟨d, mapM_mono (fun _ _ h => hw.fit h) _ _ h, rfl⟩

theorem checkedPow_agree (hw : Refines w m w' m') {p : List ℤ} {e : ℤ} {c : Option (List ℤ)}
    (h : checkedPow w m p e = some c) : checkedPow w' m' p e = some c := by
  unfold checkedPow at h ⊢
  by_cases h1 : e < 0
  · rw [if_pos h1] at h ⊢; exact h
  rw [if_neg h1] at h ⊢
  by_cases h2 : e = 0
  · rw [if_pos h2] at h ⊢; exact h
  rw [if_neg h2] at h ⊢
  by_cases h3 : e = 1
  · rw [if_pos h3] at h ⊢; exact h
  rw [if_neg h3] at h ⊢
  exact powLoop_mono (fun _ _ _ h => mul_agree hw h) _ _ _ _ _ h

theorem eval_agree (hw : Refines w m w' m') {p : List ℤ} {x c : ℤ} (h : MachinePoly.eval w m p x = some c) :
    MachinePoly.eval w' m' p x = some c := by
  unfold MachinePoly.eval at h ⊢
  refine foldlM_mono (fun a b c hc => ?_) _ _ _ h
  simp only [bind, Option.bind_eq_some_iff] at hc ⊢
  obtain ⟨v, h1, h2⟩ := hc
  exact ⟨v, hw.fit h1, hw.fit h2⟩

theorem content_agree (hw : Refines w m w' m') {p : List ℤ} {c : ℤ} (h : MachinePoly.content w m p = some c) :
    MachinePoly.content w' m' p = some c := by
  simp only [MachinePoly.content, bind, Option.bind_eq_some_iff] at h ⊢
  obtain ⟨v, h1, h2⟩ := h
  exact ⟨v, nonzeroContent_agree hw h1, h2⟩

theorem primitivePart_agree (hw : Refines w m w' m') {p q : List ℤ} (h : primitivePart w m p = some q) :
    primitivePart w' m' p = some q := by
  simp only [primitivePart, bind, Option.bind_eq_some_iff] at h ⊢
  obtain ⟨v, h1, h2⟩ := h
  refine ⟨v, nonzeroContent_agree hw h1, ?_⟩
  cases v with
  | none => exact h2
  | some c =>
    simp only [Option.bind_eq_some_iff] at h2 ⊢
    obtain ⟨d, h3, h4⟩ := h2
    exact ⟨d, mapM_mono (fun _ _ h => hw.div h) _ _ h3, h4⟩

theorem maxNorm_agree (hw : Refines w m w' m') {p : List ℤ} {c : ℤ} (h : maxNorm w m p = some c) :
    maxNorm w' m' p = some c := by
  simp only [maxNorm, bind, Option.bind_eq_some_iff] at h ⊢
  obtain ⟨v, h1, h2⟩ := h
  refine ⟨v, mapM_mono (fun _ _ h => hw.fit h) _ _ h1, ?_⟩
  cases v <;> exact h2

theorem manhattanNorm_agree (hw : Refines w m w' m') {p : List ℤ} {c : ℤ} (h : manhattanNorm w m p = some c) :
    manhattanNorm w' m' p = some c := by
  cases p with
  | nil => exact h
  | cons a as =>
    simp only [manhattanNorm, bind, Option.bind_eq_some_iff] at h ⊢
    obtain ⟨v, h1, h2⟩ := h
    refine ⟨v, hw.fit h1, foldlM_mono (fun a b c hc => ?_) _ _ _ h2⟩
    simp only [Option.bind_eq_some_iff] at hc ⊢
    obtain ⟨v, h1, h2⟩ := hc
    exact ⟨v, hw.fit h1, hw.fit h2⟩

end

end MachinePoly

end Algebraics
