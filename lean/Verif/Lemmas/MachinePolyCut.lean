import Verif.Lemmas.MachinePolyFit

/-!
# Results of machine polynomials: exact, cut to the width, or a panic
-/

namespace Algebraics

open Polynomial

namespace MachinePoly

variable {w : ℕ} {m : Overflow}

theorem exact_of_hom {c : List ℤ} {q : ℤ[X]} (h : (listPoly c).map (RingHom.id ℤ) = q.map (RingHom.id ℤ)) :
    listPoly c = q := by
  simpa using h

theorem bmod_of_inRange (hw : 0 < w) {z : ℤ} (h : InRange w z) : z.bmod (2 ^ w) = z := by
  have hp : (2 : ℕ) ^ w = 2 * 2 ^ (w - 1) := by
    rw [← pow_succ']; congr 1; omega
  refine Int.bmod_eq_of_le_mul_two ?_ ?_
  all_goals
    rw [hp]
    have := h.1
    have := h.2
    push_cast
    omega

theorem cut_coeff (hw : 0 < w) {x y : ℤ} (hx : InRange w x)
    (h : Int.castRingHom (ZMod (2 ^ w)) x = Int.castRingHom (ZMod (2 ^ w)) y) : x = y.bmod (2 ^ w) := by
  simp only [eq_intCast] at h
  rw [ZMod.intCast_eq_intCast_iff] at h
  rw [← bmod_of_inRange hw hx]
  rw [← Int.emod_bmod x, ← Int.emod_bmod y, h.eq]

theorem cut_of_hom (hw : 0 < w) {c : List ℤ} {q : ℤ[X]} (hc : Valid w c)
    (h : (listPoly c).map (Int.castRingHom (ZMod (2 ^ w))) = q.map (Int.castRingHom (ZMod (2 ^ w)))) :
    CutFrom w c q := by
  refine ⟨hc, fun n => ?_⟩
  have hn := congrArg (fun p => p.coeff n) h
  simp only [coeff_map] at hn
  refine cut_coeff hw ?_ hn
  rw [listPoly_coeff]
  by_cases hl : n < c.length
  · rw [List.getD_eq_getElem?_getD, List.getElem?_eq_getElem hl]
    exact hc.1 _ (List.getElem_mem hl)
  · rw [List.getD_eq_getElem?_getD, List.getElem?_eq_none (Nat.not_lt.mp hl)]
    exact zero_fits hw

theorem fit_wraps (v : ℤ) : Overflow.wraps.fit w v = some (v.bmod (2 ^ w)) := rfl

theorem add_valid (hw : 0 < w) (l r c : List ℤ) (h : add w m l r = some c) : Valid w c := by
  simp only [add, Option.map_eq_some_iff] at h
  obtain ⟨d, h, rfl⟩ := h
  exact (addSubElems_fit hw _ _ _ _ h).valid

theorem sub_valid (hw : 0 < w) (l r c : List ℤ) (h : sub w m l r = some c) : Valid w c := by
  simp only [sub, Option.map_eq_some_iff] at h
  obtain ⟨d, h, rfl⟩ := h
  exact (addSubElems_fit hw _ _ _ _ h).valid

theorem neg_valid (hw : 0 < w) (p c : List ℤ) (h : neg w m p = some c) : Valid w c := by
  simp only [neg, Option.map_eq_some_iff] at h
  obtain ⟨d, h, rfl⟩ := h
  exact (mapM_fit hw (fun c => -c) _ _ h).valid

theorem mulCoeff_valid (hw : 0 < w) (p : List ℤ) (r : ℤ) (c : List ℤ) (h : mulCoeff w m p r = some c) :
    Valid w c := by
  simp only [mulCoeff, Option.map_eq_some_iff] at h
  obtain ⟨d, h, rfl⟩ := h
  exact (mapM_fit hw (fun a => a * r) _ _ h).valid

theorem derivative_valid (hw : 0 < w) (p c : List ℤ) (h : derivative w m p = some c) : Valid w c := by
  cases p with
  | nil => simp [derivative] at h; subst h; exact valid_nil
  | cons a es =>
    simp only [derivative, Option.map_eq_some_iff] at h
    obtain ⟨d, h, rfl⟩ := h
    exact (derivElems_fit hw es 0 d h).valid

theorem eval_fit (hw : 0 < w) (p : List ℤ) (x r : ℤ) (h : eval w m p x = some r) : InRange w r := by
  cases p with
  | nil => simp [eval] at h; subst h; exact zero_fits hw
  | cons c l =>
    unfold eval at h
    rw [List.reverse_cons, List.foldlM_append] at h
    simp only [bind, Option.bind_eq_some_iff, List.foldlM_cons, List.foldlM_nil, pure] at h
    obtain ⟨r', h1, r'', ⟨v, h2, h3⟩, h4⟩ := h
    simp only [Option.some.injEq] at h4
    subst h4
    exact fits_of_fit hw h3

theorem addCoeff_hom {R : Type} [CommRing R] [DecidableEq R] {φ : ℤ →+* R} (hφ : Blind w m φ) (l : List ℤ) (r : ℤ)
    (c : List ℤ) (h : addCoeff w m l r = some c) : (listPoly c).map φ = (listPoly l + C r).map φ := by
  rw [addSubSingle_hom hφ (· + ·) 1 (by intros; simp) l r c h]
  simp

theorem subCoeff_hom {R : Type} [CommRing R] [DecidableEq R] {φ : ℤ →+* R} (hφ : Blind w m φ) (l : List ℤ) (r : ℤ)
    (c : List ℤ) (h : subCoeff w m l r = some c) : (listPoly c).map φ = (listPoly l - C r).map φ := by
  rw [addSubSingle_hom hφ (· - ·) (-1) (by intros; simp; ring) l r c h]
  simp; ring

/-! ## without overflow checks there is no panic (but for the derivative) -/

theorem addSubElems_wraps (f : ℤ → ℤ → ℤ) (l r : List ℤ) : ∃ c, addSubElems w .wraps f l r = some c := by
  induction l generalizing r with
  | nil =>
    induction r with
    | nil => exact ⟨[], by simp [addSubElems]⟩
    | cons b bs ih => obtain ⟨c, hc⟩ := ih; simp [addSubElems, fit_wraps, hc]
  | cons a as ih =>
    cases r with
    | nil => obtain ⟨c, hc⟩ := ih []; simp [addSubElems, fit_wraps, hc]
    | cons b bs => obtain ⟨c, hc⟩ := ih bs; simp [addSubElems, fit_wraps, hc]

theorem mapM_wraps (g : ℤ → ℤ) (l : List ℤ) : ∃ c, l.mapM (fun a => Overflow.wraps.fit w (g a)) = some c := by
  induction l with
  | nil => exact ⟨[], rfl⟩
  | cons a l ih => obtain ⟨c, hc⟩ := ih; exact ⟨_, by rw [List.mapM_cons, hc, fit_wraps]; rfl⟩

theorem mulRow_wraps (a : ℤ) (bs : List ℤ) : ∀ (i : ℕ) (acc : List ℤ), ∃ c, mulRow w .wraps a i bs acc = some c := by
  induction bs with
  | nil => intro i acc; exact ⟨acc, rfl⟩
  | cons b bs ih =>
    intro i acc
    have : ∃ d, mulStep w .wraps acc i ((a * b).bmod (2 ^ w)) = some d := by
      unfold mulStep
      split_ifs
      · exact ⟨_, rfl⟩
      · simp [fit_wraps]
    obtain ⟨d, hd⟩ := this
    obtain ⟨c, hc⟩ := ih (i + 1) d
    exact ⟨c, by simp [mulRow, fit_wraps, hd, hc]⟩

theorem mulRows_wraps (r as : List ℤ) : ∀ (i : ℕ) (acc : List ℤ), ∃ c, mulRows w .wraps r i as acc = some c := by
  induction as with
  | nil => intro i acc; exact ⟨acc, rfl⟩
  | cons a as ih =>
    intro i acc
    obtain ⟨d, hd⟩ := mulRow_wraps (w := w) a r i acc
    obtain ⟨c, hc⟩ := ih (i + 1) d
    exact ⟨c, by simp [mulRows, hd, hc]⟩

theorem mul_wraps (l r : List ℤ) : ∃ c, mul w .wraps l r = some c := by
  unfold mul
  split_ifs
  · exact ⟨_, rfl⟩
  · obtain ⟨c, hc⟩ := mulRows_wraps (w := w) r l 0 []
    exact ⟨_, by rw [hc]; rfl⟩

theorem powLoop_wraps (fuel : ℕ) : ∀ (base : List ℤ) (e : ℕ) (r : Option (List ℤ)),
    ∃ c, Poly.powLoop (mul w .wraps) fuel base e r = some c := by
  induction fuel with
  | zero => intro base e r; exact ⟨r, rfl⟩
  | succ fuel ih =>
    intro base e r
    rw [Poly.powLoop]
    have : ∃ r', Poly.powStep (mul w .wraps) (e % 2 == 1) base r = some r' := by
      unfold Poly.powStep
      split
      · cases r with
        | none => exact ⟨_, rfl⟩
        | some v => obtain ⟨c, hc⟩ := mul_wraps (w := w) v base; exact ⟨some c, by simp [hc]⟩
      · exact ⟨_, rfl⟩
    obtain ⟨r', hr'⟩ := this
    rw [hr']
    simp only
    split
    · exact ⟨_, rfl⟩
    · obtain ⟨b, hb⟩ := mul_wraps (w := w) base base
      rw [hb]
      exact ih _ _ _

theorem eval_wraps (p : List ℤ) (x : ℤ) : ∃ r, eval w .wraps p x = some r := by
  unfold eval
  generalize p.reverse = l
  generalize (0 : ℤ) = z
  induction l generalizing z with
  | nil => exact ⟨z, rfl⟩
  | cons a l ih => simp only [List.foldlM_cons, fit_wraps, bind, Option.bind_some]; exact ih _

theorem subRow_wraps (qc : ℤ) (ds : List ℤ) : ∀ rs : List ℤ, ∃ c, subRow w .wraps qc ds rs = some c := by
  induction ds with
  | nil => intro rs; cases rs <;> simp [subRow]
  | cons d ds ih =>
    intro rs
    cases rs with
    | nil => simp [subRow]
    | cons r rs => obtain ⟨c, hc⟩ := ih rs; simp [subRow, fit_wraps, hc]

theorem subAt_wraps (qc : ℤ) (ds : List ℤ) (k : ℕ) : ∀ rs : List ℤ, ∃ c, subAt w .wraps qc ds k rs = some c := by
  induction k with
  | zero => intro rs; simpa [subAt] using subRow_wraps qc ds rs
  | succ k ih =>
    intro rs
    cases rs with
    | nil => simp [subAt]
    | cons r rs => obtain ⟨c, hc⟩ := ih rs; simp [subAt, hc]

theorem pdrLoop_wraps (dl : ℤ) (den : List ℤ) (k : ℕ) : ∀ rem q : List ℤ,
    ∃ c, pdrLoop w .wraps dl den k rem q = some c := by
  induction k with
  | zero => intro rem q; exact ⟨_, rfl⟩
  | succ k ih =>
    intro rem q
    obtain ⟨r1, h1⟩ := mapM_wraps (w := w) (fun e => e * dl) rem.dropLast
    obtain ⟨r2, h2⟩ := subAt_wraps (w := w) (rem.getLastD 0) den.dropLast k r1
    obtain ⟨c, hc⟩ := ih r2 (rem.getLastD 0 :: q)
    exact ⟨c, by simp only [pdrLoop, bind, h1, h2, Option.bind_some, hc]⟩

theorem scaleTail_wraps (dl : ℤ) (qs : List ℤ) : ∀ f : ℤ, ∃ c, scaleTail w .wraps dl f qs = some c := by
  induction qs with
  | nil => intro f; exact ⟨_, rfl⟩
  | cons q qs ih =>
    intro f
    obtain ⟨c, hc⟩ := ih ((f * dl).bmod (2 ^ w))
    exact ⟨((q * f).bmod (2 ^ w) :: c.1, c.2), by simp only [scaleTail, bind, fit_wraps, hc, Option.bind_some, pure]⟩

theorem elementPseudoDivRem_wraps (num den : List ℤ) (ql : ℕ) :
    ∃ c, elementPseudoDivRem w .wraps num den ql = some c := by
  obtain ⟨⟨q, r⟩, h1⟩ := pdrLoop_wraps (w := w) (den.getLastD 0) den ql num []
  unfold elementPseudoDivRem
  simp only [bind, h1, Option.bind_some]
  cases q with
  | nil => exact ⟨_, rfl⟩
  | cons q0 qs =>
    obtain ⟨s, hs⟩ := scaleTail_wraps (w := w) (den.getLastD 0) qs (den.getLastD 0)
    exact ⟨_, by simp only [hs, Option.bind_some]; rfl⟩

/-! ## when the checked operations panic -/

theorem fit_panics_some {v c : ℤ} : Overflow.panics.fit w v = some c ↔ InRange w v ∧ c = v := by
  simp only [Overflow.fit, IntTy.check, InRange, IntTy.fits]
  split_ifs with h
  · simp [h, eq_comm]
  · simp [h]

theorem fit_panics {v : ℤ} (h : InRange w v) : Overflow.panics.fit w v = some v := fit_panics_some.mpr ⟨h, rfl⟩

theorem fit_panics_none {v : ℤ} (h : ¬ InRange w v) : Overflow.panics.fit w v = none := by
  cases hc : Overflow.panics.fit w v with
  | none => rfl
  | some c => exact absurd (fit_panics_some.mp hc).1 h

/-- the sums of the elements are all in range exactly when the loop gets to its end -/
theorem addSubElems_isSome (hw : 0 < w) (f : ℤ → ℤ → ℤ) (hf : ∀ a, f a 0 = a) (l r : List ℤ) (hl : AllFit w l)
    (hr : AllFit w r) :
    (addSubElems w .panics f l r).isSome ↔ ∀ n, InRange w (f (l.getD n 0) (r.getD n 0)) := by
  have h0 : InRange w 0 := zero_fits hw
  induction l generalizing r with
  | nil =>
    induction r with
    | nil => simp [addSubElems, hf, h0]
    | cons b bs ih =>
      have hb : InRange w b := hr b (by simp)
      have ih := ih (fun x hx => hr x (by simp [hx]))
      by_cases hc : InRange w (f 0 b)
      · have : (addSubElems w .panics f [] (b :: bs)).isSome = (addSubElems w .panics f [] bs).isSome := by
          simp only [addSubElems, mul_one, fit_panics h0, fit_panics hb, fit_panics hc, bind,
            Option.bind_some, pure]
          cases addSubElems w .panics f [] bs <;> rfl
        rw [this]
        refine ih.trans ?_
        constructor
        · intro h n
          cases n with
          | zero => simpa using hc
          | succ n => simpa using h n
        · intro h n
          simpa using h (n + 1)
      · have : addSubElems w .panics f [] (b :: bs) = none := by
          simp only [addSubElems, mul_one, fit_panics h0, fit_panics hb, fit_panics_none hc, bind,
            Option.bind_some, Option.bind_none]
        rw [this]
        simp only [Option.isSome_none, Bool.false_eq_true, false_iff]
        intro h
        exact hc (by simpa using h 0)
  | cons a as ih =>
    have ha : InRange w a := hl a (by simp)
    cases r with
    | nil =>
      have ih := ih [] (fun x hx => hl x (by simp [hx])) hr
      have : (addSubElems w .panics f (a :: as) []).isSome = (addSubElems w .panics f as []).isSome := by
        simp only [addSubElems, mul_one, fit_panics ha, bind, Option.bind_some, pure]
        cases addSubElems w .panics f as [] <;> rfl
      rw [this]
      refine ih.trans ?_
      constructor
      · intro h n
        cases n with
        | zero => simpa [hf] using ha
        | succ n => simpa using h n
      · intro h n
        simpa using h (n + 1)
    | cons b bs =>
      have hb : InRange w b := hr b (by simp)
      have ih := ih bs (fun x hx => hl x (by simp [hx])) (fun x hx => hr x (by simp [hx]))
      by_cases hc : InRange w (f a b)
      · have : (addSubElems w .panics f (a :: as) (b :: bs)).isSome = (addSubElems w .panics f as bs).isSome := by
          simp only [addSubElems, mul_one, fit_panics ha, fit_panics hb, fit_panics hc, bind,
            Option.bind_some, pure]
          cases addSubElems w .panics f as bs <;> rfl
        rw [this]
        refine ih.trans ?_
        constructor
        · intro h n
          cases n with
          | zero => simpa using hc
          | succ n => simpa using h n
        · intro h n
          simpa using h (n + 1)
      · have : addSubElems w .panics f (a :: as) (b :: bs) = none := by
          simp only [addSubElems, mul_one, fit_panics ha, fit_panics hb, fit_panics_none hc, bind,
            Option.bind_some, Option.bind_none]
        rw [this]
        simp only [Option.isSome_none, Bool.false_eq_true, false_iff]
        intro h
        exact hc (by simpa using h 0)

theorem mapM_isSome (g : ℤ → ℤ) (l : List ℤ) :
    (l.mapM fun a => Overflow.panics.fit w (g a)).isSome ↔ ∀ a ∈ l, InRange w (g a) := by
  induction l with
  | nil => simp
  | cons a l ih =>
    by_cases hc : InRange w (g a)
    · have : ((a :: l).mapM fun a => Overflow.panics.fit w (g a)).isSome =
          (l.mapM fun a => Overflow.panics.fit w (g a)).isSome := by
        rw [List.mapM_cons, fit_panics hc]
        simp only [bind, Option.bind_some, pure]
        cases l.mapM fun a => Overflow.panics.fit w (g a) <;> rfl
      rw [this, ih]
      simp [hc]
    · have : ((a :: l).mapM fun a => Overflow.panics.fit w (g a)) = none := by
        rw [List.mapM_cons, fit_panics_none hc]; rfl
      rw [this]
      simp [hc]

/-- the derivative loop, with checks: the multipliers fit the type and so do the products -/
theorem derivElems_isSome (es : List ℤ) : ∀ i : ℕ, (derivElems w .panics i es).isSome ↔
    ∀ n < es.length, InRange w ((i + n + 1 : ℕ) : ℤ) ∧ InRange w (es.getD n 0 * ((i + n + 1 : ℕ) : ℤ)) := by
  induction es with
  | nil => intro i; simp [derivElems]
  | cons e es ih =>
    intro i
    have hck : ∀ v : ℤ, (IntTy.signed w).check v = Overflow.panics.fit w v := fun v => rfl
    have key : (∀ n < (e :: es).length, InRange w ((i + n + 1 : ℕ) : ℤ) ∧
        InRange w ((e :: es).getD n 0 * ((i + n + 1 : ℕ) : ℤ))) ↔
        (InRange w ((i + 1 : ℕ) : ℤ) ∧ InRange w (e * ((i + 1 : ℕ) : ℤ))) ∧
        ∀ n < es.length, InRange w (((i + 1) + n + 1 : ℕ) : ℤ) ∧
          InRange w (es.getD n 0 * (((i + 1) + n + 1 : ℕ) : ℤ)) := by
      constructor
      · intro h
        refine ⟨by simpa using h 0 (by simp), fun n hn => ?_⟩
        have := h (n + 1) (by simpa using hn)
        rw [show i + 1 + n + 1 = i + (n + 1) + 1 by ring]
        simpa using this
      · rintro ⟨h0, h⟩ n hn
        cases n with
        | zero => simpa using h0
        | succ n =>
          have := h n (by simpa using hn)
          rw [show i + 1 + n + 1 = i + (n + 1) + 1 by ring] at this
          simpa using this
    rw [key, ← ih (i + 1)]
    by_cases h1 : InRange w ((i + 1 : ℕ) : ℤ)
    · by_cases h2 : InRange w (e * ((i + 1 : ℕ) : ℤ))
      · have h1' := h1
        have h2' := h2
        push_cast at h1' h2'
        have : (derivElems w .panics i (e :: es)).isSome = (derivElems w .panics (i + 1) es).isSome := by
          simp only [derivElems, hck, fit_panics h1', fit_panics h2', bind, Option.bind_some, pure]
          cases derivElems w .panics (i + 1) es <;> rfl
        rw [this]
        simp [h1', h2']
      · have h1' := h1
        have h2' := h2
        push_cast at h1' h2'
        have : derivElems w .panics i (e :: es) = none := by
          simp only [derivElems, hck, fit_panics h1', fit_panics_none h2', bind, Option.bind_some, Option.bind_none]
        rw [this]
        simp [h2']
    · have h1' := h1
      push_cast at h1'
      have : derivElems w .panics i (e :: es) = none := by
        simp only [derivElems, hck, fit_panics_none h1', bind, Option.bind_none]
      rw [this]
      simp [h1']

/-- the derivative loop, without checks: the multipliers fit the type -/
theorem derivElems_wraps_isSome (es : List ℤ) : ∀ i : ℕ, (derivElems w .wraps i es).isSome ↔
    ∀ n < es.length, InRange w ((i + n + 1 : ℕ) : ℤ) := by
  induction es with
  | nil => intro i; simp [derivElems]
  | cons e es ih =>
    intro i
    have hck : ∀ v : ℤ, (IntTy.signed w).check v = Overflow.panics.fit w v := fun v => rfl
    have key : (∀ n < (e :: es).length, InRange w ((i + n + 1 : ℕ) : ℤ)) ↔
        InRange w ((i + 1 : ℕ) : ℤ) ∧ ∀ n < es.length, InRange w (((i + 1) + n + 1 : ℕ) : ℤ) := by
      constructor
      · intro h
        refine ⟨by simpa using h 0 (by simp), fun n hn => ?_⟩
        have := h (n + 1) (by simpa using hn)
        rwa [show i + 1 + n + 1 = i + (n + 1) + 1 by ring]
      · rintro ⟨h0, h⟩ n hn
        cases n with
        | zero => simpa using h0
        | succ n =>
          have := h n (by simpa using hn)
          rwa [show i + 1 + n + 1 = i + (n + 1) + 1 by ring] at this
    rw [key, ← ih (i + 1)]
    by_cases h1 : InRange w ((i + 1 : ℕ) : ℤ)
    · have h1' := h1
      push_cast at h1'
      have : (derivElems w .wraps i (e :: es)).isSome = (derivElems w .wraps (i + 1) es).isSome := by
        simp only [derivElems, hck, fit_panics h1', fit_wraps, bind, Option.bind_some, pure]
        cases derivElems w .wraps (i + 1) es <;> rfl
      rw [this]
      simp [h1']
    · have h1' := h1
      push_cast at h1'
      have : derivElems w .wraps i (e :: es) = none := by
        simp only [derivElems, hck, fit_panics_none h1', bind, Option.bind_none]
      rw [this]
      simp [h1']

theorem mulStep_panics {acc : List ℤ} {i : ℕ} {v : ℤ} (hi : i ≤ acc.length) (hv : InRange w v) :
    (mulStep w .panics acc i v).isSome ↔ InRange w (acc.getD i 0 + v) := by
  unfold mulStep
  split_ifs with hc
  · rw [List.getD_eq_getElem?_getD, List.getElem?_eq_none hc.ge]
    simpa using hv
  · by_cases h : InRange w (acc.getD i 0 + v)
    · simp only [fit_panics h, bind, Option.bind_some, pure, Option.isSome_some, h]
    · simp only [fit_panics_none h, bind, Option.bind_none, Option.isSome_none, h, Bool.false_eq_true]

theorem mulRow_isSome (a : ℤ) (bs : List ℤ) : ∀ (i : ℕ) (acc : List ℤ), i ≤ acc.length →
    ((mulRow w .panics a i bs acc).isSome ↔
      ∀ j < bs.length, InRange w (a * bs.getD j 0) ∧ InRange w (acc.getD (i + j) 0 + a * bs.getD j 0)) := by
  induction bs with
  | nil => intro i acc hi; simp [mulRow]
  | cons b bs ih =>
    intro i acc hi
    by_cases h1 : InRange w (a * b)
    · by_cases h2 : InRange w (acc.getD i 0 + a * b)
      · obtain ⟨d, hd⟩ := Option.isSome_iff_exists.mp ((mulStep_panics hi h1).mpr h2)
        have hlen := mulStep_length hi hd
        have hcoef : ∀ j, d.getD (i + 1 + j) 0 = acc.getD (i + (j + 1)) 0 := by
          intro j
          have hp := exact_of_hom (q := listPoly acc + C (a * b) * X ^ i) (by
            rw [mulStep_hom (blind_panics w) hi hd]; simp)
          have := congrArg (fun p => p.coeff (i + 1 + j)) hp
          simp only [coeff_add, listPoly_coeff, coeff_C_mul, coeff_X_pow] at this
          rw [this, if_neg (by omega), show i + 1 + j = i + (j + 1) by ring]
          simp
        have : mulRow w .panics a i (b :: bs) acc = mulRow w .panics a (i + 1) bs d := by
          simp only [mulRow, fit_panics h1, hd, bind, Option.bind_some]
        rw [this, ih (i + 1) d hlen.2]
        constructor
        · intro h j hj
          cases j with
          | zero => simpa using ⟨h1, h2⟩
          | succ j =>
            have := h j (by simpa using hj)
            rw [hcoef] at this
            simpa using this
        · intro h j hj
          have := h (j + 1) (by simpa using hj)
          rw [hcoef]
          simpa using this
      · have hn : mulStep w .panics acc i (a * b) = none := by
          cases hs : mulStep w .panics acc i (a * b) with
          | none => rfl
          | some d => exact absurd ((mulStep_panics hi h1).mp (by rw [hs]; rfl)) h2
        have : mulRow w .panics a i (b :: bs) acc = none := by
          simp only [mulRow, fit_panics h1, hn, bind, Option.bind_some, Option.bind_none]
        rw [this]
        simp only [Option.isSome_none, Bool.false_eq_true, false_iff]
        intro h
        exact h2 (by simpa using (h 0 (by simp)).2)
    · have : mulRow w .panics a i (b :: bs) acc = none := by
        simp only [mulRow, fit_panics_none h1, bind, Option.bind_none]
      rw [this]
      simp only [Option.isSome_none, Bool.false_eq_true, false_iff]
      intro h
      exact h1 (by simpa using (h 0 (by simp)).1)

theorem mulRows_isSome (r : List ℤ) (hr : r ≠ []) (as : List ℤ) : ∀ (i : ℕ) (acc : List ℤ), i ≤ acc.length →
    ((mulRows w .panics r i as acc).isSome ↔
      ∀ k < as.length, ∀ j < r.length, InRange w (as.getD k 0 * r.getD j 0) ∧
        InRange w ((listPoly acc + X ^ i * listPoly (as.take (k + 1)) * listPoly r).coeff (i + k + j))) := by
  have hrl := List.length_pos_of_ne_nil hr
  induction as with
  | nil => intro i acc hi; simp [mulRows]
  | cons a as ih =>
    intro i acc hi
    have hfirst : ∀ j, (listPoly acc + X ^ i * listPoly ((a :: as).take (0 + 1)) * listPoly r).coeff (i + 0 + j) =
        acc.getD (i + j) 0 + a * r.getD j 0 := by
      intro j
      have e : listPoly ((a :: as).take (0 + 1)) = C a := by simp
      rw [e, mul_assoc, coeff_add, listPoly_coeff, add_zero, coeff_X_pow_mul', if_pos (by omega), coeff_C_mul,
        listPoly_coeff, show i + j - i = j by omega]
    cases hrow : mulRow w .panics a i r acc with
    | none =>
      have : mulRows w .panics r i (a :: as) acc = none := by
        simp only [mulRows, hrow, bind, Option.bind_none]
      rw [this]
      simp only [Option.isSome_none, Bool.false_eq_true, false_iff]
      intro h
      have := (mulRow_isSome (w := w) a r i acc hi).mpr (fun j hj => by
        have := h 0 (by simp) j hj
        rw [hfirst] at this
        simpa using this)
      rw [hrow] at this
      cases this
    | some d =>
      have hs := (mulRow_isSome (w := w) a r i acc hi).mp (by rw [hrow]; rfl)
      obtain ⟨hl, hp⟩ := mulRow_hom (blind_panics w) a r i acc d hi hrow
      have hp := exact_of_hom (q := listPoly acc + X ^ i * C a * listPoly r) (by rw [hp]; simp)
      have : mulRows w .panics r i (a :: as) acc = mulRows w .panics r (i + 1) as d := by
        simp only [mulRows, hrow, bind, Option.bind_some]
      rw [this, ih (i + 1) d (by omega), hp]
      have hnext : ∀ k, listPoly acc + X ^ i * C a * listPoly r +
          X ^ (i + 1) * listPoly (as.take (k + 1)) * listPoly r =
          listPoly acc + X ^ i * listPoly ((a :: as).take (k + 1 + 1)) * listPoly r := by
        intro k
        rw [List.take_succ_cons, listPoly_cons]
        ring
      constructor
      · intro h k hk j hj
        cases k with
        | zero => rw [hfirst]; simpa using hs j hj
        | succ k =>
          have := h k (by simpa using hk) j hj
          rw [hnext, show i + 1 + k + j = i + (k + 1) + j by ring] at this
          simpa using this
      · intro h k hk j hj
        have := h (k + 1) (by simpa using hk) j hj
        rw [hnext, show i + 1 + k + j = i + (k + 1) + j by ring]
        simpa using this

theorem mul_isSome (l r : List ℤ) : (mul w .panics l r).isSome ↔
    ∀ k < l.length, ∀ j < r.length, InRange w (l.getD k 0 * r.getD j 0) ∧
      InRange w ((listPoly (l.take (k + 1)) * listPoly r).coeff (k + j)) := by
  unfold mul
  split_ifs with hc
  · simp only [Bool.or_eq_true, List.isEmpty_iff] at hc
    rcases hc with rfl | rfl <;> simp
  · simp only [Bool.or_eq_true, List.isEmpty_iff, not_or] at hc
    rw [Option.isSome_map, mulRows_isSome r hc.2 l 0 [] (Nat.zero_le _)]
    simp

theorem eval_cons (c : ℤ) (l : List ℤ) (x : ℤ) :
    eval w m (c :: l) x = (eval w m l x).bind fun acc => (m.fit w (acc * x)).bind fun v => m.fit w (v + c) := by
  unfold eval
  rw [List.reverse_cons, List.foldlM_append]
  simp only [List.foldlM_cons, List.foldlM_nil, bind, pure]
  congr 1
  funext acc
  cases m.fit w (acc * x) <;> simp

theorem eval_isSome (p : List ℤ) (x : ℤ) : (eval w .panics p x).isSome ↔
    ∀ n < p.length, InRange w ((listPoly (p.drop (n + 1))).eval x * x) ∧
      InRange w ((listPoly (p.drop n)).eval x) := by
  induction p with
  | nil => simp [eval]
  | cons c l ih =>
    have key : (∀ n < (c :: l).length, InRange w ((listPoly ((c :: l).drop (n + 1))).eval x * x) ∧
        InRange w ((listPoly ((c :: l).drop n)).eval x)) ↔
        (InRange w ((listPoly l).eval x * x) ∧ InRange w ((listPoly l).eval x * x + c)) ∧
        ∀ n < l.length, InRange w ((listPoly (l.drop (n + 1))).eval x * x) ∧
          InRange w ((listPoly (l.drop n)).eval x) := by
      have e : (listPoly (c :: l)).eval x = (listPoly l).eval x * x + c := by simp; ring
      constructor
      · intro h
        refine ⟨by simpa [e, -listPoly_cons] using h 0 (by simp), fun n hn => ?_⟩
        simpa using h (n + 1) (by simpa using hn)
      · rintro ⟨h0, h⟩ n hn
        cases n with
        | zero => simpa [e, -listPoly_cons] using h0
        | succ n => simpa using h n (by simpa using hn)
    rw [key, ← ih, eval_cons]
    cases he : eval w .panics l x with
    | none => simp
    | some v =>
      have hv : v = (listPoly l).eval x := by simpa using eval_hom (blind_panics w) _ _ _ he
      subst hv
      simp only [Option.bind_some, Option.isSome_some, and_true]
      by_cases h1 : InRange w ((listPoly l).eval x * x)
      · rw [fit_panics h1]
        simp only [Option.bind_some, h1, true_and]
        by_cases h2 : InRange w ((listPoly l).eval x * x + c)
        · simp [fit_panics h2, h2]
        · simp [fit_panics_none h2, h2]
      · simp [fit_panics_none h1, h1]

section Div

attribute [local instance] PolyCoeff.selfCoeff

/-- pseudo-division, seen through a map that does not see the wrapping -/
theorem checkedPseudoDivRem_hom {R : Type} [CommRing R] [DecidableEq R] {φ : ℤ →+* R} (hw : 1 < w)
    (hφ : Blind w m φ) (p q : List ℤ) (hp : Valid w p) (hq : Valid w q) (hq0 : q ≠ [])
    (o : Option (List ℤ × List ℤ × ℤ)) (h : checkedPseudoDivRem w m p q = some o) :
    ∃ quo rem f, o = some (quo, rem, f) ∧ Valid w quo ∧ Valid w rem ∧ InRange w f ∧ rem.length < q.length ∧
      φ f = φ (q.getLastD 0 ^ (p.length + 1 - q.length)) ∧
      (C f * listPoly p).map φ = (listPoly quo * listPoly q + listPoly rem).map φ := by
  have hql := List.length_pos_of_ne_nil hq0
  unfold checkedPseudoDivRem Poly.quotientLen at h
  rw [if_neg (by simpa using hq0)] at h
  by_cases hlt : p.length < q.length
  · rw [if_pos hlt] at h
    simp only [Option.some.injEq] at h
    subst h
    refine ⟨[], p, 1, rfl, valid_nil, hp, ?_, hlt, ?_, by simp⟩
    · refine ⟨by have : (0 : ℤ) ≤ 2 ^ (w - 1) := by positivity
                 omega, ?_⟩
      exact one_lt_pow₀ (by norm_num) (by omega)
    · rw [show p.length + 1 - q.length = 0 by omega, pow_zero]
  · rw [if_neg hlt] at h
    simp only [bind, Option.bind_eq_some_iff, pure, Option.some.injEq] at h
    obtain ⟨r, hr, rfl⟩ := h
    obtain ⟨f1, f2, f3⟩ := elementPseudoDivRem_fit (by omega) _ _ hp.allFit hq.allFit _ _ hr
    have hh := elementPseudoDivRem_hom hφ _ _ _ _ hr
    have hs := Poly.elementPseudoDivRem_spec (T := R) (p.map φ) (q.map φ) (by simpa using hq0)
      (1 + p.length - q.length) (by omega) (by simp only [List.length_map]; omega)
    rw [← hh] at hs
    simp only [List.length_map] at hs
    obtain ⟨s1, s2, s3⟩ := hs
    have hstrip : (normalize r.2.1).length ≤ r.2.1.length := (List.rdropWhile_prefix _ r.2.1).length_le
    refine ⟨_, _, _, rfl, f1.valid, f2.valid, f3, by omega, ?_, ?_⟩
    · rw [s1, getLastD_map, map_pow]
      congr 1
      omega
    · rw [getLastD_map] at s1
      rw [getLastD_map] at s3
      rw [← s1, listPoly_map, listPoly_map, listPoly_map, listPoly_map] at s3
      rw [Polynomial.map_mul, Polynomial.map_C, s3, Polynomial.map_add, Polynomial.map_mul]
      simp only [normalize, listPoly_stripZeros]

theorem checkedPseudoDivRem_wraps (p q : List ℤ) : ∃ o, checkedPseudoDivRem w .wraps p q = some o := by
  unfold checkedPseudoDivRem
  split
  · exact ⟨_, rfl⟩
  · split
    · exact ⟨_, rfl⟩
    · rename_i ql _
      obtain ⟨r, hr⟩ := elementPseudoDivRem_wraps (w := w) p q ql
      exact ⟨_, by simp only [bind, hr, Option.bind_some]; rfl⟩

end Div

end MachinePoly

end Algebraics
