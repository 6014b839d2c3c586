import Verif.Lemmas.MachineAgree
import Mathlib.Order.Filter.AtTopBot.Basic

/-!
# In a type that is wide enough nothing overflows

`∀ᶠ w in atTop` reads: for every width from some width on.
-/

namespace Algebraics

open Polynomial Filter

namespace MachinePoly

/-- the highest coefficient is not zero -/
abbrev Norm (p : List ℤ) : Prop := p.getLast? ≠ some 0

theorem inRange_ev (v : ℤ) : ∀ᶠ w in atTop, InRange w v := by
  refine eventually_atTop.mpr ⟨v.natAbs + 1, fun w hw => ?_⟩
  have h1 : v.natAbs < 2 ^ v.natAbs := Nat.lt_two_pow_self
  have h2 : 2 ^ v.natAbs ≤ 2 ^ (w - 1) := Nat.pow_le_pow_right (by norm_num) (by omega)
  have h3 : (v.natAbs : ℤ) < 2 ^ (w - 1) := by exact_mod_cast lt_of_lt_of_le h1 h2
  exact ⟨by omega, by omega⟩

theorem valid_ev {p : List ℤ} (hp : Norm p) : ∀ᶠ w in atTop, 1 < w ∧ Valid w p := by
  have : ∀ᶠ w in atTop, ∀ c ∈ p, InRange w c := by
    clear hp
    induction p with
    | nil => exact Eventually.of_forall (by simp)
    | cons a p ih =>
      filter_upwards [inRange_ev a, ih] with w h1 h2
      simpa using ⟨h1, h2⟩
  filter_upwards [this, eventually_gt_atTop 1] with w h1 h2
  exact ⟨h2, h1, hp⟩

theorem fit_ev (v : ℤ) : ∀ᶠ w in atTop, Overflow.panics.fit w v = some v := by
  filter_upwards [inRange_ev v] with w hw
  exact fit_panics_some.mpr ⟨hw, rfl⟩

theorem bind_ev {α β : Type} {F : ℕ → Option α} {G : ℕ → α → Option β} {a : α} {b : β}
    (h1 : ∀ᶠ w in atTop, F w = some a) (h2 : ∀ᶠ w in atTop, G w a = some b) :
    ∀ᶠ w in atTop, (F w).bind (G w) = some b := by
  filter_upwards [h1, h2] with w e1 e2
  rw [e1]; exact e2

theorem map_ev {α β : Type} {F : ℕ → Option α} {g : α → β} {a : α} (h1 : ∀ᶠ w in atTop, F w = some a) :
    ∀ᶠ w in atTop, (F w).map g = some (g a) := by
  filter_upwards [h1] with w e1
  rw [e1]; rfl

theorem div_ev {a b q : ℤ} (h : ExactDivCoeff.exactDiv a b = some q) :
    ∀ᶠ w in atTop, exactDivPrim (.signed w) a b = some q := by
  obtain ⟨hb, hq⟩ := (exactDiv_eq_some_iff a b q).mp h
  filter_upwards [inRange_ev q] with w hw
  exact (C38_exact_div_machine (.signed w) a b q).2.mpr ⟨hb, hq.symm, hw⟩

theorem mapM_ev {α β : Type} {F : ℕ → α → Option β} {g : α → Option β}
    (h : ∀ a c, g a = some c → ∀ᶠ w in atTop, F w a = some c) (l : List α) :
    ∀ c, l.mapM g = some c → ∀ᶠ w in atTop, l.mapM (F w) = some c := by
  induction l with
  | nil => intro c hc; exact Eventually.of_forall fun w => by simpa using hc
  | cons a l ih =>
    intro c hc
    simp only [List.mapM_cons, Bind.bind, Option.bind_eq_some_iff, pure, Option.some.injEq] at hc
    obtain ⟨b, h1, cs, h2, rfl⟩ := hc
    filter_upwards [h _ _ h1, ih _ h2] with w e1 e2
    simp [List.mapM_cons, e1, e2]

theorem mapM_fit_ev (f : ℤ → ℤ) (l : List ℤ) :
    ∀ᶠ w in atTop, l.mapM (fun a => Overflow.panics.fit w (f a)) = some (l.map f) := by
  refine mapM_ev (g := fun a => some (f a)) (fun a c h => ?_) l _ ?_
  · simp only [Option.some.injEq] at h
    subst h
    exact fit_ev _
  · induction l with
    | nil => rfl
    | cons a l ih => simp [List.mapM_cons, ih]

theorem powLoop_ev (fuel : ℕ) : ∀ (base : ℤ) (e : ℕ) (r : Option ℤ), ∃ c, ∀ᶠ w in atTop,
    Poly.powLoop (fun a b => Overflow.panics.fit w (a * b)) fuel base e r = some c := by
  induction fuel with
  | zero => intro base e r; exact ⟨r, Eventually.of_forall fun w => rfl⟩
  | succ fuel ih =>
    intro base e r
    have hs : ∃ r', ∀ᶠ w in atTop,
        Poly.powStep (fun a b => Overflow.panics.fit w (a * b)) (e % 2 == 1) base r = some r' := by
      unfold Poly.powStep
      by_cases ho : (e % 2 == 1) = true
      · cases r with
        | none => exact ⟨some base, Eventually.of_forall fun w => by rw [if_pos ho]⟩
        | some v =>
          refine ⟨some (v * base), ?_⟩
          filter_upwards [fit_ev (v * base)] with w hw
          rw [if_pos ho]
          simp only [hw, Option.map_some]
      · exact ⟨r, Eventually.of_forall fun w => by rw [if_neg ho]⟩
    obtain ⟨r', hs⟩ := hs
    by_cases h2 : e / 2 = 0
    · refine ⟨r', ?_⟩
      filter_upwards [hs] with w hw
      rw [Poly.powLoop, hw]
      simp only [h2, if_true]
    · obtain ⟨c, hc⟩ := ih (base * base) (e / 2) r'
      refine ⟨c, ?_⟩
      filter_upwards [hs, hc, fit_ev (base * base)] with w hw hc hb
      rw [Poly.powLoop, hw]
      simp only [h2, if_false, hb]
      exact hc

theorem powLoop_isSome {α : Type} {f : α → α → Option α} (fuel : ℕ) : ∀ (base : α) (e : ℕ) (r c : Option α), e ≠ 0 →
    e < fuel → Poly.powLoop f fuel base e r = some c → c ≠ none := by
  induction fuel with
  | zero => intro base e r c _ h; omega
  | succ fuel ih =>
    intro base e r c he hf h
    rw [Poly.powLoop] at h
    cases hs : Poly.powStep f (e % 2 == 1) base r with
    | none => rw [hs] at h; cases h
    | some r' =>
      rw [hs] at h
      simp only at h
      split_ifs at h with h2
      · have e1 : e = 1 := by omega
        subst e1
        simp only [Option.some.injEq] at h
        subst h
        rintro rfl
        unfold Poly.powStep at hs
        cases r <;> simp at hs
      · cases hb : f base base with
        | none => rw [hb] at h; cases h
        | some b =>
          rw [hb] at h
          exact ih _ _ _ _ h2 (by omega) h

theorem coeffPow_ev (b : ℤ) (e : ℕ) : ∀ᶠ w in atTop, coeffPow w .panics b e = some (Poly.coeffPow b e) := by
  have : ∃ c, ∀ᶠ w in atTop, coeffPow w .panics b e = some c := by
    unfold coeffPow
    by_cases he : e = 0
    · exact ⟨1, Eventually.of_forall fun w => by rw [if_pos he]⟩
    · obtain ⟨c, hc⟩ := powLoop_ev (e + 1) b e none
      obtain ⟨w, hw⟩ := hc.exists
      have := powLoop_isSome _ _ _ _ _ he (Nat.lt_succ_self e) hw
      obtain ⟨d, rfl⟩ := Option.ne_none_iff_exists'.mp this
      refine ⟨d, ?_⟩
      filter_upwards [hc] with w hw
      rw [if_neg he, hw]
      rfl
  obtain ⟨c, hc⟩ := this
  filter_upwards [hc] with w hw
  rw [hw, coeffPow_exact hw]

theorem exactMul_ev {f b r : ℤ} {p n : ℕ} (h : Poly.exactMulBySignedPower f b p n = some r) :
    ∀ᶠ w in atTop, exactMulBySignedPower w .panics f b p n = some r := by
  unfold Poly.exactMulBySignedPower at h
  unfold exactMulBySignedPower
  by_cases hc : n ≤ p
  · simp only [if_pos hc, Option.some.injEq] at h ⊢
    rw [← h]
    exact bind_ev (coeffPow_ev _ _) (fit_ev _)
  · simp only [if_neg hc] at h ⊢
    exact bind_ev (coeffPow_ev _ _) (div_ev h)

theorem divCoeff_ev {p : List ℤ} (hp : Norm p) {c : ℤ} {X : Poly ℤ} (h : (lift p).divCoeff c = some X) :
    ∃ q, (∀ᶠ w in atTop, divCoeff w p c = some q) ∧ Norm q ∧ q.length ≤ p.length ∧ X = lift q := by
  obtain ⟨w₀, -, hv⟩ := (valid_ev hp).exists
  have h' := h
  rw [Poly.divCoeff, coeffs_lift hv, Option.map_eq_some_iff] at h'
  obtain ⟨q, h1, -⟩ := h'
  have h2 : ∀ᶠ w in atTop, divCoeff w p c = some (normalize q) :=
    bind_ev (mapM_ev (fun a c h => div_ev h) _ _ h1) (Eventually.of_forall fun w => rfl)
  obtain ⟨w, ⟨-, hw⟩, hd⟩ := ((valid_ev hp).and h2).exists
  obtain ⟨d1, d2, d3⟩ := divCoeff_exact hw hd
  refine ⟨_, h2, d1.2, d2, ?_⟩
  rw [h, Option.some.injEq] at d3
  exact d3

theorem subRow_ev (qc : ℤ) (ds : List ℤ) : ∀ rs : List ℤ, ∃ c, ∀ᶠ w in atTop, subRow w .panics qc ds rs = some c := by
  induction ds with
  | nil => intro rs; exact ⟨rs, Eventually.of_forall fun w => by cases rs <;> simp [subRow]⟩
  | cons d ds ih =>
    intro rs
    cases rs with
    | nil => exact ⟨[], Eventually.of_forall fun w => by simp [subRow]⟩
    | cons r rs =>
      obtain ⟨c, hc⟩ := ih rs
      refine ⟨(r - qc * d) :: c, ?_⟩
      filter_upwards [fit_ev (qc * d), fit_ev (r - qc * d), hc] with w h1 h2 h3
      simp [subRow, h1, h2, h3]

theorem subAt_ev (qc : ℤ) (ds : List ℤ) (k : ℕ) : ∀ rs : List ℤ, ∃ c, ∀ᶠ w in atTop,
    subAt w .panics qc ds k rs = some c := by
  induction k with
  | zero => intro rs; exact subRow_ev _ _ _
  | succ k ih =>
    intro rs
    cases rs with
    | nil => exact ⟨[], Eventually.of_forall fun w => by simp [subAt]⟩
    | cons r rs =>
      obtain ⟨c, hc⟩ := ih rs
      refine ⟨r :: c, ?_⟩
      filter_upwards [hc] with w h3
      simp [subAt, h3]

theorem pdrLoop_ev (dl : ℤ) (den : List ℤ) (k : ℕ) : ∀ rem q : List ℤ, ∃ c, ∀ᶠ w in atTop,
    pdrLoop w .panics dl den k rem q = some c := by
  induction k with
  | zero => intro rem q; exact ⟨_, Eventually.of_forall fun w => rfl⟩
  | succ k ih =>
    intro rem q
    obtain ⟨c, hc⟩ := subAt_ev (rem.getLastD 0) den.dropLast k (rem.dropLast.map fun e => e * dl)
    obtain ⟨d, hd⟩ := ih c (rem.getLastD 0 :: q)
    refine ⟨d, ?_⟩
    filter_upwards [mapM_fit_ev (fun e => e * dl) rem.dropLast, hc, hd] with w h1 h2 h3
    simp only [pdrLoop, Bind.bind, Option.bind, h1, h2, h3]

theorem scaleTail_ev (dl : ℤ) (qs : List ℤ) : ∀ f : ℤ, ∃ c, ∀ᶠ w in atTop, scaleTail w .panics dl f qs = some c := by
  induction qs with
  | nil => intro f; exact ⟨_, Eventually.of_forall fun w => rfl⟩
  | cons q qs ih =>
    intro f
    obtain ⟨c, hc⟩ := ih (f * dl)
    refine ⟨(q * f :: c.1, c.2), ?_⟩
    filter_upwards [fit_ev (q * f), fit_ev (f * dl), hc] with w h1 h2 h3
    simp [scaleTail, h1, h2, h3]

theorem pseudoDivRem_ev {p q : List ℤ} (hp : Norm p) (hq : Norm q) (hq0 : q ≠ []) :
    ∃ r, (∀ᶠ w in atTop, pseudoDivRem w .panics p q = some r) ∧ Norm r.2.1 ∧ r.2.1.length < q.length ∧
      (lift p).pseudoDivRem (lift q) = some ⟨lift r.1, lift r.2.1, r.2.2⟩ := by
  have : ∃ r, ∀ᶠ w in atTop, pseudoDivRem w .panics p q = some r := by
    unfold pseudoDivRem checkedPseudoDivRem
    simp only [if_neg (show ¬ q.isEmpty = true by simpa using hq0)]
    cases hl : Poly.quotientLen p.length q.length with
    | none => exact ⟨([], p, 1), Eventually.of_forall fun w => rfl⟩
    | some ql =>
      have he : ∃ r, ∀ᶠ w in atTop, elementPseudoDivRem w .panics p q ql = some r := by
        unfold elementPseudoDivRem
        obtain ⟨c, hc⟩ := pdrLoop_ev (q.getLastD 0) q ql p []
        match hc1 : c.1 with
        | [] =>
          refine ⟨([], c.2, q.getLastD 0), ?_⟩
          filter_upwards [hc] with w h1
          simp only [Bind.bind, Option.bind, h1, hc1]; rfl
        | q0 :: qs =>
          obtain ⟨s, hs⟩ := scaleTail_ev (q.getLastD 0) qs (q.getLastD 0)
          refine ⟨(q0 :: s.1, c.2, s.2), ?_⟩
          filter_upwards [hc, hs] with w h1 h2
          simp only [Bind.bind, Option.bind, h1, hc1, h2]; rfl
      obtain ⟨r, hr⟩ := he
      refine ⟨(normalize r.1, normalize r.2.1, r.2.2), ?_⟩
      filter_upwards [hr] with w h1
      simp [h1]
  obtain ⟨r, hr⟩ := this
  obtain ⟨w, h1, ⟨h2, h3⟩, -, h4⟩ := (hr.and ((valid_ev hp).and (valid_ev hq))).exists
  obtain ⟨e1, e2, e3⟩ := pseudoDivRem_exact h2 h3 h4 h1
  exact ⟨r, hr, e1.2, e2, e3⟩

theorem neg_ev {p : List ℤ} : ∃ q, (∀ᶠ w in atTop, neg w .panics p = some q) ∧ Norm q ∧ -lift p = lift q := by
  have := map_ev (g := normalize) (mapM_fit_ev (fun c => -c) p)
  refine ⟨_, this, ?_⟩
  obtain ⟨w, h1, h2⟩ := (this.and (eventually_gt_atTop 0)).exists
  obtain ⟨e1, e2⟩ := neg_exact h2 h1
  exact ⟨e1.2, e2⟩

theorem subresultantLoop_ev (fuel : ℕ) : ∀ (f2 f1 : List ℤ) (a2 c2 : ℤ) (X : Poly ℤ), Norm f2 → Norm f1 → f1 ≠ [] →
    f1.length ≤ f2.length →
    Poly.subresultantLoop fuel (lift f2) (f2.length - 1) a2 c2 (lift f1) (f1.length - 1) = some X →
    ∃ r, ∀ᶠ w in atTop,
      subresultantLoop w .panics fuel f2 (f2.length - 1) a2 c2 f1 (f1.length - 1) = some r := by
  induction fuel with
  | zero => intro f2 f1 a2 c2 X _ _ _ _ h; cases h
  | succ fuel ih =>
    intro f2 f1 a2 c2 X hf2 hf1 hne hlen h
    obtain ⟨pr, h1, p1, p2, p3⟩ := pseudoDivRem_ev hf2 hf1 hne
    rw [Poly.subresultantLoop, if_neg (by omega), p3] at h
    simp only at h
    cases hd : (lift pr.2.1).divCoeff (-a2 * Poly.coeffPow (-c2) (f2.length - 1 - (f1.length - 1))) with
    | none => rw [hd] at h; cases h
    | some F =>
      rw [hd] at h
      simp only at h
      obtain ⟨f, h6, d1, d2, rfl⟩ := divCoeff_ev p1 hd
      obtain ⟨w₀, ⟨-, v1⟩, -, v2⟩ := ((valid_ev d1).and (valid_ev hf1)).exists
      rw [degree_lift v1, last_lift v2] at h
      by_cases he : f = []
      · subst he
        refine ⟨f1, ?_⟩
        filter_upwards [h1, fit_ev (-a2), fit_ev (-c2), coeffPow_ev (-c2) (f2.length - 1 - (f1.length - 1)),
          fit_ev (-a2 * Poly.coeffPow (-c2) (f2.length - 1 - (f1.length - 1))), h6] with w e1 e2 e3 e4 e5 e6
        simp [subresultantLoop, e1, e2, e3, e4, -neg_mul, e5, e6]
      · rw [if_neg (by simpa using he)] at h
        simp only at h
        cases ha : f1.getLast? with
        | none => rw [ha] at h; cases h
        | some a1 =>
          rw [ha] at h
          simp only at h
          cases hc : Poly.exactMulBySignedPower (Poly.coeffPow a1 (f2.length - 1 - (f1.length - 1))) c2
              (f1.length - 1 + 1) (f2.length - 1) with
          | none => rw [hc] at h; cases h
          | some c1 =>
            rw [hc] at h
            simp only at h
            obtain ⟨r, hr⟩ := ih f1 f a1 c1 X hf1 d1 he (by omega) h
            refine ⟨r, ?_⟩
            filter_upwards [h1, fit_ev (-a2), fit_ev (-c2), coeffPow_ev (-c2) (f2.length - 1 - (f1.length - 1)),
              fit_ev (-a2 * Poly.coeffPow (-c2) (f2.length - 1 - (f1.length - 1))), h6,
              coeffPow_ev a1 (f2.length - 1 - (f1.length - 1)), exactMul_ev hc, hr] with w e1 e2 e3 e4 e5 e6 e7 e8 e9
            have hfe : f.isEmpty = false := by simpa using he
            simp only [subresultantLoop, Bind.bind, Option.bind, e1, e2, e3, e4, e5, e6, hfe, ha, e7, e8, e9]
            simp

theorem subresultantGcd_ev {l r : List ℤ} (hl : Norm l) (hr : Norm r) {X : Poly ℤ}
    (h : Poly.subresultantGcd (lift l) (lift r) = some X) :
    ∃ g, ∀ᶠ w in atTop, subresultantGcd w .panics l r = some g := by
  have ord : ∀ (l r : List ℤ) (b : Bool), Norm l → Norm r → r.length ≤ l.length →
      Poly.subresultantGcdOrdered (lift l) (lift r) b = some X →
      ∃ g, ∀ᶠ w in atTop, subresultantGcdOrdered w .panics l r b = some g := by
    intro l r b hl hr hlen h
    obtain ⟨w₀, ⟨-, v1⟩, -, v2⟩ := ((valid_ev hl).and (valid_ev hr)).exists
    unfold Poly.subresultantGcdOrdered at h
    unfold subresultantGcdOrdered
    rw [isZero_lift v2] at h
    by_cases hc : r.isEmpty = true
    · exact ⟨l, Eventually.of_forall fun w => by rw [if_pos hc]⟩
    · rw [if_neg hc] at h
      have hc' : r ≠ [] := by simpa using hc
      have hrl := List.length_pos_of_ne_nil hc'
      rw [degree_lift v1, degree_lift v2, if_neg (by omega), if_neg (by omega)] at h
      simp only [len_lift v2, Option.map_eq_some_iff] at h
      obtain ⟨F, h1, -⟩ := h
      obtain ⟨f, hf⟩ := subresultantLoop_ev _ _ _ _ _ _ hl hr hc' hlen h1
      simp only [if_neg hc]
      cases b with
      | false => exact ⟨f, bind_ev hf (Eventually.of_forall fun w => rfl)⟩
      | true =>
        obtain ⟨q, hq, -⟩ := neg_ev (p := f)
        exact ⟨q, bind_ev hf hq⟩
  obtain ⟨w₀, ⟨-, v1⟩, -, v2⟩ := ((valid_ev hl).and (valid_ev hr)).exists
  have hd : ∀ p : List ℤ, Valid w₀ p → (lift p).degree.getD 0 = p.length - 1 := by
    intro p hp
    rw [degree_lift hp]
    split_ifs with h0 <;> simp [h0]
  unfold Poly.subresultantGcd at h
  rw [len_lift v1, len_lift v2, hd l v1, hd r v2] at h
  unfold subresultantGcd
  by_cases hc : l.length < r.length
  · simp only [if_pos hc] at h ⊢
    exact ord r l _ hr hl hc.le h
  · simp only [if_neg hc] at h ⊢
    exact ord l r _ hl hr (by omega) h

/-! ## resultant -/

theorem negIf_ev (b : Bool) (x : ℤ) : ∀ᶠ w in atTop, negIf w .panics b x = some (if b then -x else x) := by
  unfold negIf
  cases b with
  | false => exact Eventually.of_forall fun w => rfl
  | true => exact fit_ev _

theorem resultantPsi_ev {f psiP r : ℤ} {dp : ℕ} (h : Poly.resultantPsi f dp psiP = some r) :
    ∀ᶠ w in atTop, resultantPsi w .panics f dp psiP = some r := by
  match dp with
  | 0 => cases h
  | 1 => exact Eventually.of_forall fun w => h
  | dp + 2 =>
    rw [Poly.resultantPsi] at h
    filter_upwards [fit_ev (-f), coeffPow_ev (-f) (dp + 1), coeffPow_ev psiP dp, div_ev h] with w e1 e2 e3 e4
    simp only [resultantPsi, Bind.bind, Option.bind, e1, e2, e3, e4]

theorem resultantPsiBeta_ev {u : List ℤ} (hu : Norm u) {i d dp : ℕ} {psiP : ℤ} {r : ℤ × ℤ}
    (h : Poly.resultantPsiBeta (lift u) i d dp psiP = some r) :
    ∀ᶠ w in atTop, resultantPsiBeta w .panics u i d dp psiP = some r := by
  obtain ⟨w₀, -, hv⟩ := (valid_ev hu).exists
  unfold Poly.resultantPsiBeta at h
  unfold resultantPsiBeta
  by_cases hi : i = 1
  · simp only [if_pos hi, Option.some.injEq] at h ⊢
    subst h
    filter_upwards [fit_ev (-1), negIf_ev (d % 2 == 1) 1] with w e1 e2
    simp only [Bind.bind, Option.bind, e1, e2]
    simp
  · simp only [if_neg hi] at h ⊢
    rw [last_lift hv] at h
    cases hf : u.getLast? with
    | none => rw [hf] at h; cases h
    | some f =>
      rw [hf] at h
      simp only at h
      cases hp : Poly.resultantPsi f dp psiP with
      | none => rw [hp] at h; cases h
      | some psi =>
        rw [hp] at h
        simp only [Option.some.injEq] at h
        subst h
        filter_upwards [resultantPsi_ev hp, fit_ev (-f), coeffPow_ev psi (d - 1),
          fit_ev (-f * Poly.coeffPow psi (d - 1))] with w e1 e2 e3 e4
        simp only [Bind.bind, Option.bind, e1, e2, e3, e4]
        rfl

theorem resultantLoop_ev (fuel : ℕ) : ∀ (u v : List ℤ) (i dp : ℕ) (psiP : ℤ) (r : Option ℤ), Norm u → Norm v →
    Poly.resultantLoop fuel (lift u) (lift v) i dp psiP = some r →
    ∀ᶠ w in atTop, resultantLoop w .panics fuel u v i dp psiP = some r := by
  induction fuel with
  | zero => intro u v i dp psiP r _ _ h; cases h
  | succ fuel ih =>
    intro u v i dp psiP r hu hv h
    obtain ⟨w₀, ⟨-, v1⟩, -, v2⟩ := ((valid_ev hu).and (valid_ev hv)).exists
    rw [Poly.resultantLoop, degree_lift v1, degree_lift v2] at h
    by_cases hz1 : u.length = 0
    · rw [if_pos hz1] at h; cases h
    by_cases hz2 : v.length = 0
    · rw [if_pos hz2, if_neg hz1] at h; cases h
    rw [if_neg hz1, if_neg hz2] at h
    have hz : ¬ (u.isEmpty || v.isEmpty) = true := by
      simp only [Bool.or_eq_true, List.isEmpty_iff, not_or]
      exact ⟨by rintro rfl; simp at hz1, by rintro rfl; simp at hz2⟩
    simp only at h
    simp only [resultantLoop, if_neg hz]
    by_cases h1 : u.length - 1 < v.length - 1
    · simp only [if_pos h1] at h ⊢
      cases ho : Poly.resultantLoop fuel (lift v) (lift u) i dp psiP with
      | none => rw [ho] at h; cases h
      | some o =>
        rw [ho] at h
        have e := ih _ _ _ _ _ _ hv hu ho
        cases o with
        | none =>
          simp only [Option.some.injEq] at h
          subst h
          exact bind_ev e (Eventually.of_forall fun w => rfl)
        | some x =>
          simp only at h
          refine bind_ev e ?_
          simp only
          rw [show r = some (if ((u.length - 1) % 2 == 1 && (v.length - 1) % 2 == 1) = true then -x else x) by
            split_ifs at h ⊢ <;> exact (Option.some.inj h).symm]
          exact bind_ev (negIf_ev _ _) (Eventually.of_forall fun w => rfl)
    simp only [if_neg h1] at h ⊢
    by_cases h2 : v.length - 1 = 0
    · simp only [if_pos h2] at h ⊢
      rw [coeffs_lift v2] at h
      cases v with
      | nil => cases h
      | cons a as =>
        simp only [Option.some.injEq] at h
        subst h
        exact bind_ev (a := a) (Eventually.of_forall fun w => rfl)
          (bind_ev (coeffPow_ev _ _) (Eventually.of_forall fun w => rfl))
    simp only [if_neg h2] at h ⊢
    obtain ⟨pr, h3, p1, p2, p3⟩ := pseudoDivRem_ev hu hv (by rintro rfl; simp at hz2)
    obtain ⟨w₁, -, v3⟩ := (valid_ev p1).exists
    rw [p3] at h
    simp only at h
    rw [isZero_lift v3] at h
    refine bind_ev h3 ?_
    by_cases h4 : pr.2.1.isEmpty = true
    · simp only [if_pos h4] at h ⊢
      exact Eventually.of_forall fun w => h
    simp only [if_neg h4] at h ⊢
    cases hpb : Poly.resultantPsiBeta (lift u) i (u.length - 1 + 1 - (v.length - 1)) dp psiP with
    | none => rw [hpb] at h; cases h
    | some pb =>
      rw [hpb] at h
      simp only at h
      refine bind_ev (resultantPsiBeta_ev hu hpb) ?_
      cases hd : (lift pr.2.1).divCoeff pb.2 with
      | none => rw [hd] at h; simp at h
      | some F =>
        obtain ⟨q, h6, d1, d2, rfl⟩ := divCoeff_ev p1 hd
        obtain ⟨w₂, -, v4⟩ := (valid_ev d1).exists
        refine bind_ev h6 ?_
        rw [hd, last_lift v2] at h
        cases hl : v.getLast? with
        | none => rw [hl] at h; cases h
        | some l =>
          rw [hl] at h
          simp only at h
          refine bind_ev (a := l) (Eventually.of_forall fun w => rfl) ?_
          rw [degree_lift v4] at h
          by_cases h8 : q.length = 0
          · rw [if_pos h8] at h; cases h
          rw [if_neg h8] at h
          simp only at h
          have h8' : ¬ q.isEmpty = true := by
            rw [List.isEmpty_iff]; rintro rfl; simp at h8
          simp only [if_neg h8']
          refine bind_ev (coeffPow_ev _ _) (bind_ev (negIf_ev _ _) ?_)
          cases hy : Poly.resultantLoop fuel (lift v) (lift q) (i + 1) (u.length - 1 + 1 - (v.length - 1)) pb.1 with
          | none => rw [hy] at h; cases h
          | some y =>
            rw [hy] at h
            refine bind_ev (ih _ _ _ _ _ _ hv d1 hy) ?_
            cases y with
            | none =>
              simp only at h ⊢
              exact Eventually.of_forall fun w => h
            | some y =>
              simp only at h ⊢
              by_cases h9 : (v.length - 1) * (u.length - 1 + 1 - (v.length - 1)) + (q.length - 1) < u.length - 1
              · rw [if_pos h9] at h; cases h
              · rw [if_neg h9] at h
                cases hq : ExactDivCoeff.exactDiv ((if ((u.length - 1) % 2 == 1 && (v.length - 1) % 2 == 1) = true then
                    -Poly.coeffPow pb.2 (v.length - 1) else Poly.coeffPow pb.2 (v.length - 1)) * y)
                    (Poly.coeffPow l ((v.length - 1) * (u.length - 1 + 1 - (v.length - 1)) + (q.length - 1) -
                      (u.length - 1))) with
                | none => rw [hq] at h; cases h
                | some z =>
                  rw [hq] at h
                  simp only [Option.some.injEq] at h
                  subst h
                  exact bind_ev (fit_ev _) (bind_ev (coeffPow_ev _ _) (bind_ev (div_ev hq)
                    (Eventually.of_forall fun w => rfl)))

theorem nonzeroResultant_ev {u v : List ℤ} (hu : Norm u) (hv : Norm v) {r : Option ℤ}
    (h : Poly.nonzeroResultant (lift u) (lift v) = some r) :
    ∀ᶠ w in atTop, nonzeroResultant w .panics u v = some r := by
  obtain ⟨w₀, ⟨-, v1⟩, -, v2⟩ := ((valid_ev hu).and (valid_ev hv)).exists
  unfold Poly.nonzeroResultant at h
  unfold nonzeroResultant
  rw [isZero_lift v1, isZero_lift v2, len_lift v1, len_lift v2] at h
  by_cases hc : (u.isEmpty || v.isEmpty) = true
  · simp only [if_pos hc] at h ⊢
    exact Eventually.of_forall fun w => h
  · simp only [if_neg hc] at h ⊢
    exact resultantLoop_ev _ _ _ _ _ _ _ hu hv h

/-! ## Sturm sequence -/

theorem foldlM_gcd_ev (l : List ℤ) : ∀ a : ℤ, ∃ c, ∀ᶠ w in atTop, l.foldlM (gcd w .panics) a = some c := by
  induction l with
  | nil => intro a; exact ⟨a, Eventually.of_forall fun w => rfl⟩
  | cons x l ih =>
    intro a
    obtain ⟨c, hc⟩ := ih (Int.gcd a x)
    refine ⟨c, ?_⟩
    simp only [List.foldlM_cons]
    exact bind_ev (fit_ev _) hc

theorem nonzeroContent_ev {p : List ℤ} (hp : Norm p) :
    ∀ᶠ w in atTop, nonzeroContent w .panics p = some ((lift p).nonzeroContent Poly.intGcd) := by
  have : ∃ o, ∀ᶠ w in atTop, nonzeroContent w .panics p = some o := by
    cases p with
    | nil => exact ⟨none, Eventually.of_forall fun w => rfl⟩
    | cons a as =>
      obtain ⟨c, hc⟩ := foldlM_gcd_ev as a
      simp only [nonzeroContent]
      by_cases hs : ((a :: as).getLastD 0 < 0) ≠ (c < 0)
      · refine ⟨some (0 - c), bind_ev hc ?_⟩
        simp only [if_pos hs]
        exact bind_ev (fit_ev _) (Eventually.of_forall fun w => rfl)
      · refine ⟨some c, bind_ev hc ?_⟩
        simp only [if_neg hs]
        exact Eventually.of_forall fun w => rfl
  obtain ⟨o, ho⟩ := this
  filter_upwards [ho, valid_ev hp] with w h1 h2
  rw [h1, nonzeroContent_exact h2.2 h1]

theorem derivElems_ev (es : List ℤ) : ∀ i : ℕ, ∃ c, ∀ᶠ w in atTop, derivElems w .panics i es = some c := by
  induction es with
  | nil => intro i; exact ⟨[], Eventually.of_forall fun w => rfl⟩
  | cons e es ih =>
    intro i
    obtain ⟨c, hc⟩ := ih (i + 1)
    refine ⟨e * ((i : ℤ) + 1) :: c, ?_⟩
    simp only [derivElems]
    exact bind_ev (fit_ev _) (bind_ev (fit_ev _) (bind_ev hc (Eventually.of_forall fun w => rfl)))

theorem derivative_ev (p : List ℤ) : ∃ q, (∀ᶠ w in atTop, MachinePoly.derivative w .panics p = some q) ∧ Norm q ∧
    (lift p).derivative = lift q := by
  have : ∃ q, ∀ᶠ w in atTop, MachinePoly.derivative w .panics p = some q := by
    cases p with
    | nil => exact ⟨[], Eventually.of_forall fun w => rfl⟩
    | cons a es =>
      obtain ⟨c, hc⟩ := derivElems_ev es 0
      exact ⟨_, map_ev hc⟩
  obtain ⟨q, hq⟩ := this
  obtain ⟨w, h1, h2⟩ := (hq.and (eventually_gt_atTop 0)).exists
  refine ⟨q, hq, (derivative_valid h2 _ _ h1).2, ?_⟩
  apply Poly.toPoly_injective
  rw [Poly.toPoly_derivative, Poly.toPoly_ofCoeffs, Poly.toPoly_ofCoeffs,
    exact_of_hom (derivative_hom (blind_panics w) _ _ h1)]

theorem primitiveDerivative_ev {p : List ℤ} {X : Poly ℤ}
    (h : Poly.primitiveDerivative Poly.intGcd (lift p) = some X) :
    ∃ q, (∀ᶠ w in atTop, primitiveDerivative w .panics p = some q) ∧ Norm q ∧ X = lift q := by
  obtain ⟨d, h1, h2, h3⟩ := derivative_ev p
  unfold Poly.primitiveDerivative at h
  rw [h3] at h
  have h4 := nonzeroContent_ev h2
  unfold primitiveDerivative
  cases hc : (lift d).nonzeroContent Poly.intGcd with
  | none =>
    rw [hc] at h h4
    simp only [Option.some.injEq] at h
    exact ⟨d, bind_ev h1 (bind_ev h4 (Eventually.of_forall fun w => rfl)), h2, h.symm⟩
  | some c =>
    rw [hc] at h h4
    simp only at h
    by_cases hn : c < 0
    · rw [if_pos hn] at h
      obtain ⟨q, e1, e2, -, e3⟩ := divCoeff_ev h2 h
      refine ⟨q, bind_ev h1 (bind_ev h4 ?_), e2, e3⟩
      simp only [if_pos hn]
      exact bind_ev (fit_ev _) e1
    · rw [if_neg hn] at h
      obtain ⟨q, e1, e2, -, e3⟩ := divCoeff_ev h2 h
      refine ⟨q, bind_ev h1 (bind_ev h4 ?_), e2, e3⟩
      simp only [if_neg hn]
      exact e1

theorem primitiveRemainder_ev {a b : List ℤ} (ha : Norm a) (hb : Norm b) (hb0 : b ≠ []) {X : Poly ℤ}
    (h : Poly.primitiveRemainder Poly.intGcd (lift a) (lift b) = some X) :
    ∃ q, (∀ᶠ w in atTop, primitiveRemainder w .panics a b = some q) ∧ Norm q ∧ X = lift q := by
  obtain ⟨pr, h1, h2, -, h3⟩ := pseudoDivRem_ev ha hb hb0
  unfold Poly.primitiveRemainder at h
  rw [h3] at h
  simp only at h
  have h4 := nonzeroContent_ev h2
  unfold primitiveRemainder
  cases hc : (lift pr.2.1).nonzeroContent Poly.intGcd with
  | none =>
    rw [hc] at h h4
    simp only [Option.some.injEq] at h
    exact ⟨pr.2.1, bind_ev h1 (bind_ev h4 (Eventually.of_forall fun w => rfl)), h2, h.symm⟩
  | some c =>
    rw [hc] at h h4
    simp only at h
    cases hd : (lift pr.2.1).divCoeff c with
    | none => rw [hd] at h; cases h
    | some F =>
      rw [hd] at h
      simp only at h
      obtain ⟨q, e1, e2, -, rfl⟩ := divCoeff_ev h2 hd
      by_cases hs : (decide (pr.2.2 < 0) != decide (c < 0)) = true
      · rw [if_pos hs] at h
        obtain ⟨n, n1, n2, n3⟩ := neg_ev (p := q)
        refine ⟨n, bind_ev h1 (bind_ev h4 (bind_ev e1 ?_)), n2, ?_⟩
        · simp only [if_pos hs]; exact n1
        · rw [← n3]; exact (Option.some.inj h).symm
      · rw [if_neg hs] at h
        refine ⟨q, bind_ev h1 (bind_ev h4 (bind_ev e1 ?_)), e2, (Option.some.inj h).symm⟩
        simp only [if_neg hs]
        exact Eventually.of_forall fun w => rfl

theorem sturmLoop_ev (k : ℕ) : ∀ (a b : List ℤ) (X : List (Poly ℤ)), Norm a → Norm b →
    Poly.sturmLoop (Poly.primitiveRemainder Poly.intGcd) k (lift a) (lift b) = some X →
    ∃ l, ∀ᶠ w in atTop, sturmLoop w .panics (primitiveRemainder w .panics) k a b = some l := by
  induction k with
  | zero => intro a b X _ _ _; exact ⟨[], Eventually.of_forall fun w => rfl⟩
  | succ k ih =>
    intro a b X ha hb h
    obtain ⟨w₀, -, hv⟩ := (valid_ev hb).exists
    rw [Poly.sturmLoop, isZero_lift hv] at h
    simp only [sturmLoop]
    by_cases hz : b.isEmpty = true
    · exact ⟨[], Eventually.of_forall fun w => by rw [if_pos hz]⟩
    · simp only [if_neg hz] at h ⊢
      cases hr : Poly.primitiveRemainder Poly.intGcd (lift a) (lift b) with
      | none => rw [hr] at h; cases h
      | some F =>
        rw [hr] at h
        simp only at h
        obtain ⟨q, e1, e2, rfl⟩ := primitiveRemainder_ev ha hb (by simpa using hz) hr
        obtain ⟨n, n1, n2, n3⟩ := neg_ev (p := q)
        rw [n3, Option.map_eq_some_iff] at h
        obtain ⟨Y, h1, -⟩ := h
        obtain ⟨l, hl⟩ := ih _ _ _ hb n2 h1
        exact ⟨n :: l, bind_ev e1 (bind_ev n1 (bind_ev hl (Eventually.of_forall fun w => rfl)))⟩

theorem primitiveSturm_ev {p : List ℤ} (hp : Norm p) {X : List (Poly ℤ)}
    (h : (lift p).primitiveSturmSequence Poly.intGcd = some X) :
    ∃ l, ∀ᶠ w in atTop, primitiveSturmSequence w .panics p = some l := by
  obtain ⟨w₀, -, hv⟩ := (valid_ev hp).exists
  unfold Poly.primitiveSturmSequence Poly.genericSturm at h
  rw [len_lift hv] at h
  unfold primitiveSturmSequence
  match hl : p.length with
  | 0 => exact ⟨_, Eventually.of_forall fun w => rfl⟩
  | 1 => exact ⟨_, Eventually.of_forall fun w => rfl⟩
  | n + 2 =>
    rw [hl] at h
    simp only at h
    cases hd : Poly.primitiveDerivative Poly.intGcd (lift p) with
    | none => rw [hd] at h; cases h
    | some D =>
      rw [hd] at h
      simp only [Option.map_eq_some_iff] at h
      obtain ⟨Y, h1, -⟩ := h
      obtain ⟨d, e1, e2, rfl⟩ := primitiveDerivative_ev hd
      obtain ⟨l, e3⟩ := sturmLoop_ev _ _ _ _ hp e2 h1
      exact ⟨p :: d :: l, bind_ev e1 (bind_ev e3 (Eventually.of_forall fun w => rfl))⟩

end MachinePoly

end Algebraics
