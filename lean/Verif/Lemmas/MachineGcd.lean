import Verif.Model.MachineGcd
import Verif.Lemmas.MachineContent
import Verif.Lemmas.PolySturm

/-!
# Gcd, resultant and Sturm sequences over machine integers: the run with overflow checks

As long as nothing overflows, the run is the one over the unlimited integers (`Poly ℤ`).
-/

namespace Algebraics

open Polynomial

namespace MachinePoly

variable {w : ℕ}

/-- the same polynomial over the unlimited integers -/
abbrev lift (p : List ℤ) : Poly ℤ := Poly.ofCoeffs p

theorem strip_valid {p : List ℤ} (hp : Valid w p) : stripZeros p = p := by
  unfold stripZeros
  rw [List.rdropWhile_eq_self_iff]
  intro h
  have := hp.2
  rw [List.getLast?_eq_some_getLast h] at this
  simpa using this

theorem elements_lift {p : List ℤ} (hp : Valid w p) : (lift p).raw.elements = p := strip_valid hp

theorem coeffs_lift {p : List ℤ} (hp : Valid w p) : (lift p).coeffs = p := by
  rw [Poly.coeffs_ofCoeffs, strip_valid hp]

theorem len_lift {p : List ℤ} (hp : Valid w p) : (lift p).len = p.length := by
  rw [Poly.len_eq, coeffs_lift hp]

theorem isZero_lift {p : List ℤ} (hp : Valid w p) : (lift p).isZero = p.isEmpty := by
  rw [Poly.isZero, elements_lift hp]

theorem degree_lift {p : List ℤ} (hp : Valid w p) :
    (lift p).degree = if p.length = 0 then none else some (p.length - 1) := by
  rw [Poly.degree, len_lift hp]

theorem last_lift {p : List ℤ} (hp : Valid w p) : (lift p).nonzeroHighestPowerCoefficient = p.getLast? := by
  rw [Poly.nonzeroHighestPowerCoefficient, len_lift hp, Poly.nonzeroCoefficient_eq, coeffs_lift hp]
  by_cases h : p = []
  · simp [h]
  · rw [if_neg (by simpa using h), List.getLast?_eq_getElem?]

theorem lift_normalize (p : List ℤ) : lift (normalize p) = lift p := by
  apply Poly.toPoly_injective
  rw [Poly.toPoly_ofCoeffs, Poly.toPoly_ofCoeffs, normalize, listPoly_stripZeros]

theorem powLoop_mono {α : Type} {f g : α → α → Option α} (h : ∀ a b c, f a b = some c → g a b = some c) (fuel : ℕ) :
    ∀ (base : α) (e : ℕ) (r c : Option α), Poly.powLoop f fuel base e r = some c →
      Poly.powLoop g fuel base e r = some c := by
  induction fuel with
  | zero => intro base e r c hc; exact hc
  | succ fuel ih =>
    intro base e r c hc
    rw [Poly.powLoop] at hc ⊢
    cases hs : Poly.powStep f (e % 2 == 1) base r with
    | none => rw [hs] at hc; cases hc
    | some r' =>
      have hs' : Poly.powStep g (e % 2 == 1) base r = some r' := by
        unfold Poly.powStep at hs ⊢
        split_ifs at hs ⊢ with ho
        · cases r with
          | none => exact hs
          | some v =>
            simp only [Option.map_eq_some_iff] at hs ⊢
            obtain ⟨a, h1, h2⟩ := hs
            exact ⟨a, h _ _ _ h1, h2⟩
        · exact hs
      rw [hs] at hc
      rw [hs']
      simp only at hc ⊢
      split_ifs at hc ⊢ with h2
      · exact hc
      · cases hb : f base base with
        | none => rw [hb] at hc; cases hc
        | some b =>
          rw [hb] at hc
          rw [h _ _ _ hb]
          exact ih _ _ _ _ hc

theorem fit_exact {v c : ℤ} (h : Overflow.panics.fit w v = some c) : c = v := (fit_panics_some.mp h).2

theorem coeffPow_exact {b r : ℤ} {e : ℕ} (h : coeffPow w .panics b e = some r) : Poly.coeffPow b e = r := by
  unfold coeffPow at h
  unfold Poly.coeffPow
  split_ifs at h ⊢ with he
  · simpa using h
  · simp only [bind, Option.bind_eq_some_iff] at h
    obtain ⟨o, h1, h2⟩ := h
    rw [powLoop_mono (g := fun a b => some (a * b)) (fun a b c hc => by rw [fit_exact hc]) _ _ _ _ _ h1, h2]

theorem exactDivPrim_exact {a b q : ℤ} (h : exactDivPrim (.signed w) a b = some q) :
    InRange w q ∧ ExactDivCoeff.exactDiv a b = some q := by
  obtain ⟨e1, e2, e3⟩ := (C38_exact_div_machine (.signed w) a b q).2.mp h
  exact ⟨e3, by rw [← e2]; exact LawfulExactDiv.exactDiv_complete q b e1⟩

theorem exactMul_exact {f b r : ℤ} {p n : ℕ} (h : exactMulBySignedPower w .panics f b p n = some r) :
    Poly.exactMulBySignedPower f b p n = some r := by
  unfold exactMulBySignedPower at h
  unfold Poly.exactMulBySignedPower
  split_ifs at h ⊢ with hc
  · simp only [bind, Option.bind_eq_some_iff] at h
    obtain ⟨x, h1, h2⟩ := h
    rw [coeffPow_exact h1, fit_exact h2]
  · simp only [bind, Option.bind_eq_some_iff] at h
    obtain ⟨x, h1, h2⟩ := h
    rw [coeffPow_exact h1, (exactDivPrim_exact h2).2]

theorem mapM_mono {α β : Type} {f g : α → Option β} (h : ∀ a c, f a = some c → g a = some c) (l : List α) :
    ∀ c, l.mapM f = some c → l.mapM g = some c := by
  induction l with
  | nil => intro c hc; simpa using hc
  | cons a l ih =>
    intro c hc
    simp only [List.mapM_cons, bind, Option.bind_eq_some_iff, pure, Option.some.injEq] at hc ⊢
    obtain ⟨b, h1, cs, h2, rfl⟩ := hc
    exact ⟨b, h _ _ h1, cs, ih _ h2, rfl⟩

theorem divCoeff_exact {p : List ℤ} (hp : Valid w p) {c : ℤ} {q : List ℤ} (h : divCoeff w p c = some q) :
    Valid w q ∧ q.length ≤ p.length ∧ (lift p).divCoeff c = some (lift q) := by
  simp only [divCoeff, bind, Option.bind_eq_some_iff, pure, Option.some.injEq] at h
  obtain ⟨q', h1, rfl⟩ := h
  obtain ⟨d1, -, d2, -⟩ := divMap_some _ _ h1
  refine ⟨AllFit.valid d1, ?_, ?_⟩
  · rw [← d2, normalize, stripZeros]
    exact (List.rdropWhile_prefix _ q').length_le
  · rw [Poly.divCoeff, coeffs_lift hp, mapM_mono (fun a c h => (exactDivPrim_exact h).2) _ _ h1, lift_normalize]
    rfl

theorem pseudoDivRem_exact (hw : 1 < w) {p q : List ℤ} (hp : Valid w p) (hq : Valid w q) {r : List ℤ × List ℤ × ℤ}
    (h : pseudoDivRem w .panics p q = some r) :
    Valid w r.2.1 ∧ r.2.1.length < q.length ∧ (lift p).pseudoDivRem (lift q) = some ⟨lift r.1, lift r.2.1, r.2.2⟩ := by
  simp only [pseudoDivRem, bind, Option.bind_eq_some_iff] at h
  obtain ⟨o, h1, rfl⟩ := h
  have hq0 : q ≠ [] := by
    rintro rfl
    simp [checkedPseudoDivRem] at h1
  obtain ⟨quo, rem, f, h2, h3, h4, h5, h6, -⟩ := checkedPseudoDivRem_hom hw (blind_panics w) p q hp hq hq0 _ h1
  simp only [Option.some.injEq] at h2
  subst h2
  refine ⟨h4, h6, ?_⟩
  unfold checkedPseudoDivRem at h1
  unfold Poly.pseudoDivRem
  rw [if_neg (by simpa using hq0)] at h1
  rw [if_neg (by rw [isZero_lift hq]; simpa using hq0), len_lift hp, len_lift hq]
  cases hl : Poly.quotientLen p.length q.length with
  | none =>
    rw [hl] at h1
    simp only [Option.some.injEq, Prod.mk.injEq] at h1
    obtain ⟨rfl, rfl, rfl⟩ := h1
    rfl
  | some ql =>
    rw [hl] at h1
    simp only [bind, Option.bind_eq_some_iff, pure, Option.some.injEq, Prod.mk.injEq] at h1
    obtain ⟨⟨a, b, c⟩, h7, rfl, rfl, rfl⟩ := h1
    have e := elementPseudoDivRem_hom (blind_panics w) _ _ _ _ h7
    simp only [RingHom.id_apply, RingHom.coe_id, List.map_id] at e
    simp only [elements_lift hp, elements_lift hq]
    erw [← e]
    rw [lift_normalize, lift_normalize]
    rfl

theorem neg_exact (hw : 0 < w) {p q : List ℤ} (h : neg w .panics p = some q) : Valid w q ∧ -lift p = lift q := by
  refine ⟨neg_valid hw _ _ h, Poly.toPoly_injective ?_⟩
  rw [Poly.toPoly_neg, Poly.toPoly_ofCoeffs, Poly.toPoly_ofCoeffs, exact_of_hom (neg_hom (blind_panics w) _ _ h)]

theorem subresultantLoop_exact (hw : 1 < w) (fuel : ℕ) : ∀ (f2 f1 : List ℤ) (a2 c2 : ℤ) (r : List ℤ), Valid w f2 →
    Valid w f1 → f1 ≠ [] → f1.length ≤ f2.length →
    subresultantLoop w .panics fuel f2 (f2.length - 1) a2 c2 f1 (f1.length - 1) = some r →
    Valid w r ∧ Poly.subresultantLoop fuel (lift f2) (f2.length - 1) a2 c2 (lift f1) (f1.length - 1) =
      some (lift r) := by
  induction fuel with
  | zero => intro f2 f1 a2 c2 r _ _ _ _ h; cases h
  | succ fuel ih =>
    intro f2 f1 a2 c2 r hf2 hf1 hne hlen h
    simp only [subresultantLoop, bind, Option.bind_eq_some_iff] at h
    obtain ⟨pr, h1, a2', h2, c2', h3, c3, h4, d, h5, f, h6, h⟩ := h
    obtain ⟨p1, p2, p3⟩ := pseudoDivRem_exact hw hf2 hf1 h1
    obtain ⟨d1, d2, d3⟩ := divCoeff_exact p1 h6
    have hd : d = -a2 * Poly.coeffPow (-c2) (f2.length - 1 - (f1.length - 1)) := by
      rw [fit_exact h5, fit_exact h2, ← coeffPow_exact h4, fit_exact h3]
    rw [Poly.subresultantLoop, if_neg (by omega), p3]
    simp only
    rw [← hd, d3]
    simp only
    rw [degree_lift d1, last_lift hf1]
    by_cases he : f = []
    · subst he
      simp only [List.isEmpty_nil, if_true, pure, Option.some.injEq] at h
      subst h
      exact ⟨hf1, by simp⟩
    · rw [if_neg (by simpa using he)] at h
      simp only [Option.bind_eq_some_iff] at h
      obtain ⟨a1, h7, e, h8, c1, h9, h⟩ := h
      rw [if_neg (by simpa using he), h7]
      simp only
      rw [coeffPow_exact h8, exactMul_exact h9]
      exact ih f1 f a1 c1 r hf1 d1 he (by omega) h

theorem subresultantGcd_exact (hw : 1 < w) {l r g : List ℤ} (hl : Valid w l) (hr : Valid w r)
    (h : subresultantGcd w .panics l r = some g) :
    Valid w g ∧ Poly.subresultantGcd (lift l) (lift r) = some (lift g) := by
  have ord : ∀ (l r : List ℤ) (b : Bool), Valid w l → Valid w r → r.length ≤ l.length →
      subresultantGcdOrdered w .panics l r b = some g →
      Valid w g ∧ Poly.subresultantGcdOrdered (lift l) (lift r) b = some (lift g) := by
    intro l r b hl hr hlen h
    unfold subresultantGcdOrdered at h
    unfold Poly.subresultantGcdOrdered
    rw [isZero_lift hr]
    by_cases hc : r.isEmpty = true
    · rw [if_pos hc] at h ⊢
      simp only [Option.some.injEq] at h
      subst h
      exact ⟨hl, rfl⟩
    · rw [if_neg hc] at h ⊢
      have hc' : r ≠ [] := by simpa using hc
      have hrl := List.length_pos_of_ne_nil hc'
      simp only [bind, Option.bind_eq_some_iff] at h
      obtain ⟨f, h1, h2⟩ := h
      obtain ⟨i1, i2⟩ := subresultantLoop_exact hw _ _ _ _ _ _ hl hr hc' hlen h1
      rw [degree_lift hl, degree_lift hr, if_neg (by omega), if_neg (by omega)]
      simp only
      rw [len_lift hr, i2, Option.map_some]
      cases b with
      | false =>
        simp only [Bool.false_eq_true, if_false, pure, Option.some.injEq] at h2 ⊢
        subst h2
        exact ⟨i1, rfl⟩
      | true =>
        simp only [if_true] at h2 ⊢
        obtain ⟨n1, n2⟩ := neg_exact (by omega) h2
        exact ⟨n1, by rw [n2]⟩
  have hd : ∀ p : List ℤ, Valid w p → (lift p).degree.getD 0 = p.length - 1 := by
    intro p hp
    rw [degree_lift hp]
    split_ifs with h0 <;> simp [h0]
  unfold subresultantGcd at h
  unfold Poly.subresultantGcd
  rw [len_lift hl, len_lift hr, hd l hl, hd r hr]
  split_ifs at h ⊢ with hc
  · exact ord r l _ hr hl hc.le h
  · exact ord l r _ hl hr (by omega) h

/-! ## resultant -/

theorem resultantPsi_exact {f psiP r : ℤ} {dp : ℕ} (h : resultantPsi w .panics f dp psiP = some r) :
    Poly.resultantPsi f dp psiP = some r := by
  match dp with
  | 0 => cases h
  | 1 => exact h
  | dp + 2 =>
    simp only [resultantPsi, bind, Option.bind_eq_some_iff] at h
    obtain ⟨nf, h1, a, h2, b, h3, h4⟩ := h
    rw [Poly.resultantPsi, ← fit_exact h1, coeffPow_exact h2, coeffPow_exact h3, (exactDivPrim_exact h4).2]

theorem negIf_exact {b : Bool} {x r : ℤ} (h : negIf w .panics b x = some r) : r = if b then -x else x := by
  unfold negIf at h
  split_ifs at h ⊢
  · exact fit_exact h
  · exact (Option.some.inj h).symm

theorem resultantPsiBeta_exact {u : List ℤ} (hu : Valid w u) {i d dp : ℕ} {psiP : ℤ} {r : ℤ × ℤ}
    (h : resultantPsiBeta w .panics u i d dp psiP = some r) :
    Poly.resultantPsiBeta (lift u) i d dp psiP = some r := by
  unfold resultantPsiBeta at h
  unfold Poly.resultantPsiBeta
  by_cases hi : i = 1
  · rw [if_pos hi] at h ⊢
    simp only [bind, Option.bind_eq_some_iff, pure, Option.some.injEq] at h
    obtain ⟨psi, h1, beta, h2, rfl⟩ := h
    rw [fit_exact h1, negIf_exact h2]
    simp only [beq_iff_eq]
  · rw [if_neg hi] at h ⊢
    simp only [bind, Option.bind_eq_some_iff, pure, Option.some.injEq] at h
    obtain ⟨f, h1, psi, h2, nf, h3, b, h4, beta, h5, rfl⟩ := h
    rw [last_lift hu, h1]
    simp only
    rw [resultantPsi_exact h2]
    simp only
    rw [coeffPow_exact h4, fit_exact h5, fit_exact h3]

theorem resultantLoop_exact (hw : 1 < w) (fuel : ℕ) : ∀ (u v : List ℤ) (i dp : ℕ) (psiP : ℤ) (r : Option ℤ),
    Valid w u → Valid w v → resultantLoop w .panics fuel u v i dp psiP = some r →
    Poly.resultantLoop fuel (lift u) (lift v) i dp psiP = some r := by
  induction fuel with
  | zero => intro u v i dp psiP r _ _ h; cases h
  | succ fuel ih =>
    intro u v i dp psiP r hu hv h
    rw [resultantLoop] at h
    rw [Poly.resultantLoop]
    by_cases hz : (u.isEmpty || v.isEmpty) = true
    · rw [if_pos hz] at h; cases h
    rw [if_neg hz] at h
    simp only [Bool.or_eq_true, List.isEmpty_iff, not_or] at hz
    rw [degree_lift hu, degree_lift hv, if_neg (by simpa using hz.1), if_neg (by simpa using hz.2)]
    simp only at h ⊢
    by_cases h1 : u.length - 1 < v.length - 1
    · rw [if_pos h1] at h ⊢
      simp only [bind, Option.bind_eq_some_iff] at h
      obtain ⟨o, h2, h3⟩ := h
      rw [ih _ _ _ _ _ _ hv hu h2]
      cases o with
      | none => simpa using h3
      | some x =>
        simp only [Option.bind_eq_some_iff, pure, Option.some.injEq] at h3
        obtain ⟨y, h4, rfl⟩ := h3
        rw [negIf_exact h4]
        simp only
        split_ifs <;> rfl
    rw [if_neg h1] at h ⊢
    by_cases h2 : v.length - 1 = 0
    · rw [if_pos h2] at h ⊢
      simp only [bind, Option.bind_eq_some_iff, pure, Option.some.injEq] at h
      obtain ⟨c, h3, x, h4, rfl⟩ := h
      rw [coeffs_lift hv]
      cases v with
      | nil => cases h3
      | cons a as =>
        simp only [List.head?_cons, Option.some.injEq] at h3
        subst h3
        simp only
        rw [coeffPow_exact h4]
    rw [if_neg h2] at h ⊢
    simp only [bind, Option.bind_eq_some_iff] at h
    obtain ⟨pr, h3, h⟩ := h
    obtain ⟨p1, p2, p3⟩ := pseudoDivRem_exact hw hu hv h3
    rw [p3]
    simp only
    rw [isZero_lift p1]
    by_cases h4 : pr.2.1.isEmpty = true
    · rw [if_pos h4] at h ⊢
      simpa using h
    rw [if_neg h4] at h ⊢
    simp only [Option.bind_eq_some_iff] at h
    obtain ⟨pb, h5, q, h6, l, h7, h⟩ := h
    rw [resultantPsiBeta_exact hu h5]
    obtain ⟨d1, d2, d3⟩ := divCoeff_exact p1 h6
    simp only
    rw [d3, last_lift hv, h7]
    simp only
    by_cases h8 : q.isEmpty = true
    · rw [if_pos h8] at h; cases h
    rw [if_neg h8] at h
    rw [degree_lift d1, if_neg (by simpa using h8)]
    simp only [Option.bind_eq_some_iff] at h
    obtain ⟨x, h9, x', h10, y, h11, h⟩ := h
    simp only
    rw [ih _ _ _ _ _ _ hv d1 h11]
    cases y with
    | none => simpa using h
    | some y =>
      simp only [Option.bind_eq_some_iff, pure, Option.some.injEq] at h
      obtain ⟨z, h12, f, h13, t, h14, rfl⟩ := h
      simp only
      have hx : z = (if ((u.length - 1) % 2 == 1 && (v.length - 1) % 2 == 1) = true then
          -Poly.coeffPow pb.2 (v.length - 1) else Poly.coeffPow pb.2 (v.length - 1)) * y := by
        rw [fit_exact h12, negIf_exact h10, ← coeffPow_exact h9]
      rw [← hx, coeffPow_exact h13, (exactDivPrim_exact h14).2, if_neg]
      have e1 : 1 ≤ v.length - 1 := by omega
      generalize v.length - 1 = n at *
      obtain ⟨k, hk⟩ : ∃ k, u.length - 1 = n + k := ⟨u.length - 1 - n, by omega⟩
      rw [hk, show n + k + 1 - n = k + 1 by omega]
      nlinarith

theorem powLoop_inRange (hw : 0 < w) {m : Overflow} (fuel : ℕ) : ∀ (base : ℤ) (e : ℕ) (r : Option ℤ) (c : ℤ),
    InRange w base → (∀ x, r = some x → InRange w x) →
    Poly.powLoop (fun a b => m.fit w (a * b)) fuel base e r = some (some c) → InRange w c := by
  induction fuel with
  | zero => intro base e r c _ hr h; exact hr c (Option.some.inj h)
  | succ fuel ih =>
    intro base e r c hb hr h
    rw [Poly.powLoop] at h
    cases hs : Poly.powStep (fun a b => m.fit w (a * b)) (e % 2 == 1) base r with
    | none => rw [hs] at h; cases h
    | some r' =>
      have hr' : ∀ x, r' = some x → InRange w x := by
        rintro x rfl
        unfold Poly.powStep at hs
        split_ifs at hs with ho
        · cases r with
          | none => simp only [Option.some.injEq] at hs; exact hs ▸ hb
          | some v =>
            simp only [Option.map_eq_some_iff, Option.some.injEq] at hs
            obtain ⟨a, h1, rfl⟩ := hs
            exact fits_of_fit hw h1
        · exact hr x (Option.some.inj hs)
      rw [hs] at h
      simp only at h
      split_ifs at h with h2
      · exact hr' c (Option.some.inj h)
      · cases hb' : m.fit w (base * base) with
        | none => rw [hb'] at h; cases h
        | some b =>
          rw [hb'] at h
          exact ih b _ _ _ (fits_of_fit hw hb') hr' h

theorem one_inRange (hw : 1 < w) : InRange w 1 := by
  have : (1 : ℤ) < 2 ^ (w - 1) := one_lt_pow₀ (by norm_num) (by omega)
  exact ⟨by omega, this⟩

theorem coeffPow_inRange (hw : 1 < w) {m : Overflow} {b r : ℤ} {e : ℕ} (hb : InRange w b)
    (h : coeffPow w m b e = some r) : InRange w r := by
  unfold coeffPow at h
  split_ifs at h with he
  · simp only [Option.some.injEq] at h
    exact h ▸ one_inRange hw
  · simp only [bind, Option.bind_eq_some_iff] at h
    obtain ⟨o, h1, rfl⟩ := h
    exact powLoop_inRange (by omega) _ _ _ _ _ hb (by simp) h1

theorem negIf_inRange (hw : 0 < w) {m : Overflow} {b : Bool} {x r : ℤ} (hx : InRange w x)
    (h : negIf w m b x = some r) : InRange w r := by
  unfold negIf at h
  split_ifs at h
  · exact fits_of_fit hw h
  · exact Option.some.inj h ▸ hx

theorem resultantLoop_inRange (hw : 1 < w) {m : Overflow} (fuel : ℕ) : ∀ (u v : List ℤ) (i dp : ℕ) (psiP : ℤ) (r : ℤ),
    Valid w u → Valid w v → resultantLoop w m fuel u v i dp psiP = some (some r) → InRange w r := by
  induction fuel with
  | zero => intro u v i dp psiP r _ _ h; cases h
  | succ fuel ih =>
    intro u v i dp psiP r hu hv h
    rw [resultantLoop] at h
    by_cases hz : (u.isEmpty || v.isEmpty) = true
    · rw [if_pos hz] at h; cases h
    rw [if_neg hz] at h
    simp only at h
    by_cases h1 : u.length - 1 < v.length - 1
    · rw [if_pos h1] at h
      simp only [bind, Option.bind_eq_some_iff] at h
      obtain ⟨o, h2, h3⟩ := h
      cases o with
      | none => simp at h3
      | some x =>
        simp only [Option.bind_eq_some_iff, pure, Option.some.injEq] at h3
        obtain ⟨y, h4, rfl⟩ := h3
        exact negIf_inRange (by omega) (ih _ _ _ _ _ _ hv hu h2) h4
    rw [if_neg h1] at h
    by_cases h2 : v.length - 1 = 0
    · rw [if_pos h2] at h
      simp only [bind, Option.bind_eq_some_iff, pure, Option.some.injEq] at h
      obtain ⟨c, h3, x, h4, rfl⟩ := h
      exact coeffPow_inRange hw (hv.1 c (List.mem_of_mem_head? h3)) h4
    rw [if_neg h2] at h
    simp only [bind, Option.bind_eq_some_iff] at h
    obtain ⟨pr, -, h⟩ := h
    by_cases h4 : pr.2.1.isEmpty = true
    · rw [if_pos h4] at h; simp at h
    rw [if_neg h4] at h
    simp only [Option.bind_eq_some_iff] at h
    obtain ⟨pb, -, q, -, l, -, h⟩ := h
    by_cases h8 : q.isEmpty = true
    · rw [if_pos h8] at h; cases h
    rw [if_neg h8] at h
    simp only [Option.bind_eq_some_iff] at h
    obtain ⟨x, -, x', -, y, -, h⟩ := h
    cases y with
    | none => simp at h
    | some y =>
      simp only [Option.bind_eq_some_iff, pure, Option.some.injEq] at h
      obtain ⟨z, -, f, -, t, h14, rfl⟩ := h
      exact (exactDivPrim_exact h14).1

theorem nonzeroResultant_exact (hw : 1 < w) {u v : List ℤ} (hu : Valid w u) (hv : Valid w v) {r : Option ℤ}
    (h : nonzeroResultant w .panics u v = some r) : Poly.nonzeroResultant (lift u) (lift v) = some r := by
  unfold nonzeroResultant at h
  unfold Poly.nonzeroResultant
  rw [isZero_lift hu, isZero_lift hv, len_lift hu, len_lift hv]
  split_ifs at h ⊢ with hc
  · exact h
  · exact resultantLoop_exact hw _ _ _ _ _ _ _ hu hv h

/-! ## Sturm sequence -/

theorem foldlM_mono {α β : Type} {f g : β → α → Option β} (h : ∀ a b c, f a b = some c → g a b = some c)
    (l : List α) : ∀ a c, l.foldlM f a = some c → l.foldlM g a = some c := by
  induction l with
  | nil => intro a c hc; simpa using hc
  | cons x l ih =>
    intro a c hc
    simp only [List.foldlM_cons, bind, Option.bind_eq_some_iff] at hc ⊢
    obtain ⟨b, h1, h2⟩ := hc
    exact ⟨b, h _ _ _ h1, ih _ _ h2⟩

theorem foldl_of_foldlM {α β : Type} (g : β → α → β) (l : List α) :
    ∀ a, l.foldlM (fun a b => some (g a b)) a = some (l.foldl g a) := by
  induction l with
  | nil => intro a; rfl
  | cons x l ih => intro a; simpa using ih _

theorem nonzeroContent_exact {p : List ℤ} (hp : Valid w p) {o : Option ℤ}
    (h : nonzeroContent w .panics p = some o) : (lift p).nonzeroContent Poly.intGcd = o := by
  unfold Poly.nonzeroContent
  rw [coeffs_lift hp]
  cases p with
  | nil => simpa [nonzeroContent] using h
  | cons a as =>
    simp only [nonzeroContent, bind, Option.bind_eq_some_iff] at h
    obtain ⟨r, h1, h2⟩ := h
    have e := foldlM_mono (g := fun a b => some (Poly.intGcd a b))
      (fun a b c hc => by rw [fit_exact hc]; rfl) _ _ _ h1
    rw [foldl_of_foldlM, Option.some.injEq] at e
    simp only
    rw [e, Poly.highestPowerCoefficient, last_lift hp]
    rw [show ((a :: as).getLast?).getD 0 = (a :: as).getLastD 0 by rw [List.getLastD_eq_getLast?]]
    by_cases hc : ((a :: as).getLastD 0 < 0) ≠ (r < 0)
    · rw [if_pos hc] at h2
      simp only [Option.bind_eq_some_iff, pure, Option.some.injEq] at h2
      obtain ⟨x, h3, rfl⟩ := h2
      rw [fit_exact h3, if_pos]
      simpa using hc
    · rw [if_neg hc] at h2
      simp only [pure, Option.some.injEq] at h2
      subst h2
      rw [if_neg]
      simpa using hc

theorem primitiveDerivative_exact (hw : 1 < w) {p q : List ℤ} (h : primitiveDerivative w .panics p = some q) :
    Valid w q ∧ Poly.primitiveDerivative Poly.intGcd (lift p) = some (lift q) := by
  simp only [primitiveDerivative, bind, Option.bind_eq_some_iff] at h
  obtain ⟨d, h1, c, h2, h⟩ := h
  have hd := derivative_valid (by omega) _ _ h1
  have e : (lift p).derivative = lift d := by
    apply Poly.toPoly_injective
    rw [Poly.toPoly_derivative, Poly.toPoly_ofCoeffs, Poly.toPoly_ofCoeffs,
      exact_of_hom (derivative_hom (blind_panics w) _ _ h1)]
  unfold Poly.primitiveDerivative
  rw [e, nonzeroContent_exact hd h2]
  cases c with
  | none =>
    simp only [pure, Option.some.injEq] at h
    subst h
    exact ⟨hd, rfl⟩
  | some c =>
    simp only at h ⊢
    by_cases hc : c < 0
    · rw [if_pos hc] at h ⊢
      simp only [Option.bind_eq_some_iff] at h
      obtain ⟨c', h3, h4⟩ := h
      obtain ⟨d1, -, d3⟩ := divCoeff_exact hd h4
      rw [fit_exact h3] at d3
      exact ⟨d1, d3⟩
    · rw [if_neg hc] at h ⊢
      obtain ⟨d1, -, d3⟩ := divCoeff_exact hd h
      exact ⟨d1, d3⟩

theorem primitiveRemainder_exact (hw : 1 < w) {a b q : List ℤ} (ha : Valid w a) (hb : Valid w b)
    (h : primitiveRemainder w .panics a b = some q) :
    Valid w q ∧ Poly.primitiveRemainder Poly.intGcd (lift a) (lift b) = some (lift q) := by
  simp only [primitiveRemainder, bind, Option.bind_eq_some_iff] at h
  obtain ⟨pr, h1, c, h2, h⟩ := h
  obtain ⟨p1, -, p3⟩ := pseudoDivRem_exact hw ha hb h1
  unfold Poly.primitiveRemainder
  rw [p3]
  simp only
  rw [nonzeroContent_exact p1 h2]
  cases c with
  | none =>
    simp only [pure, Option.some.injEq] at h
    subst h
    exact ⟨p1, rfl⟩
  | some c =>
    simp only [Option.bind_eq_some_iff] at h
    obtain ⟨r, h3, h⟩ := h
    obtain ⟨d1, -, d3⟩ := divCoeff_exact p1 h3
    simp only
    rw [d3]
    simp only
    by_cases hc : (decide (pr.2.2 < 0) != decide (c < 0)) = true
    · rw [if_pos hc] at h ⊢
      obtain ⟨n1, n2⟩ := neg_exact (by omega) h
      exact ⟨n1, by rw [n2]⟩
    · rw [if_neg hc] at h ⊢
      simp only [pure, Option.some.injEq] at h
      subst h
      exact ⟨d1, rfl⟩

theorem sturmLoop_exact (hw : 1 < w) (k : ℕ) : ∀ (a b : List ℤ) (l : List (List ℤ)), Valid w a → Valid w b →
    sturmLoop w .panics (primitiveRemainder w .panics) k a b = some l →
    (∀ p ∈ l, Valid w p) ∧
    Poly.sturmLoop (Poly.primitiveRemainder Poly.intGcd) k (lift a) (lift b) = some (l.map lift) := by
  induction k with
  | zero =>
    intro a b l _ _ h
    simp only [sturmLoop, Option.some.injEq] at h
    subst h
    exact ⟨by simp, rfl⟩
  | succ k ih =>
    intro a b l ha hb h
    rw [sturmLoop] at h
    rw [Poly.sturmLoop, isZero_lift hb]
    by_cases hz : b.isEmpty = true
    · rw [if_pos hz] at h ⊢
      simp only [Option.some.injEq] at h
      subst h
      exact ⟨by simp, rfl⟩
    · rw [if_neg hz] at h ⊢
      simp only [bind, Option.bind_eq_some_iff, pure, Option.some.injEq] at h
      obtain ⟨r, h1, r', h2, l', h3, rfl⟩ := h
      obtain ⟨q1, q2⟩ := primitiveRemainder_exact hw ha hb h1
      obtain ⟨n1, n2⟩ := neg_exact (by omega) h2
      obtain ⟨i1, i2⟩ := ih _ _ _ hb n1 h3
      rw [q2]
      simp only
      rw [n2, i2]
      refine ⟨fun p hp => ?_, rfl⟩
      rcases List.mem_cons.mp hp with rfl | hp
      exacts [n1, i1 p hp]

theorem primitiveSturm_exact (hw : 1 < w) {p : List ℤ} (hp : Valid w p) {l : List (List ℤ)}
    (h : primitiveSturmSequence w .panics p = some l) :
    (∀ q ∈ l, Valid w q) ∧ (lift p).primitiveSturmSequence Poly.intGcd = some (l.map lift) := by
  unfold Poly.primitiveSturmSequence Poly.genericSturm
  rw [len_lift hp]
  unfold primitiveSturmSequence at h
  match hl : p.length with
  | 0 =>
    rw [hl] at h
    simp only [Option.some.injEq] at h
    subst h
    exact ⟨by simp, rfl⟩
  | 1 =>
    rw [hl] at h
    simp only [Option.some.injEq] at h
    subst h
    exact ⟨by simpa using hp, rfl⟩
  | n + 2 =>
    rw [hl] at h
    simp only [bind, Option.bind_eq_some_iff, pure, Option.some.injEq] at h
    obtain ⟨d, h1, l', h2, rfl⟩ := h
    obtain ⟨d1, d2⟩ := primitiveDerivative_exact hw h1
    obtain ⟨s1, s2⟩ := sturmLoop_exact hw _ _ _ _ hp d1 h2
    simp only
    rw [d2]
    simp only
    rw [s2]
    refine ⟨fun q hq => ?_, rfl⟩
    rcases List.mem_cons.mp hq with rfl | hq
    · exact hp
    rcases List.mem_cons.mp hq with rfl | hq
    exacts [d1, s1 q hq]

end MachinePoly

end Algebraics
