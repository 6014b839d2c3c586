import Verif.Props.MachinePow

/-!
# C83: exactly when a pseudo-division of polynomials over a machine type panics
-/

namespace Algebraics

namespace MachinePoly

open Polynomial

/-- One step of the pseudo-division by `Q`: `R` times the leading coefficient of `Q`, less the multiple of `X ^ k * Q`
that removes the leading term. -/
noncomputable def remStep (Q : ℤ[X]) (k : ℕ) (R : ℤ[X]) : ℤ[X] :=
  C Q.leadingCoeff * R - C (R.coeff (k + Q.natDegree)) * X ^ k * Q

/-- The leading terms removed by `k` steps, from the last to the first. -/
noncomputable def removed (Q : ℤ[X]) : ℕ → ℤ[X] → List ℤ
  | 0, _ => []
  | k + 1, R => removed Q k (remStep Q k R) ++ [R.coeff (k + Q.natDegree)]

/-- All numbers in `k` steps fit: the coefficients that stay, times the leading coefficient; the multiples of the
coefficients of `Q`; and the differences. -/
def StepsFit (w : ℕ) (Q : ℤ[X]) : ℕ → ℤ[X] → Prop
  | 0, _ => True
  | k + 1, R =>
    (∀ i < k + Q.natDegree, InRange w (R.coeff i * Q.leadingCoeff)) ∧
    (∀ i < Q.natDegree, InRange w (R.coeff (k + Q.natDegree) * Q.coeff i)) ∧
    (∀ i < Q.natDegree, InRange w ((remStep Q k R).coeff (k + i))) ∧
    StepsFit w Q k (remStep Q k R)

variable {w : ℕ}

theorem subRow_some (qc : ℤ) : ∀ (ds rs : List ℤ), ds.length ≤ rs.length →
    ((subRow w .panics qc ds rs).isSome ↔
      ∀ i < ds.length, InRange w (qc * ds.getD i 0) ∧ InRange w (rs.getD i 0 - qc * ds.getD i 0)) ∧
    ∀ c, subRow w .panics qc ds rs = some c →
      c.length = rs.length ∧ ∀ i, c.getD i 0 = rs.getD i 0 - qc * ds.getD i 0 := by
  intro ds
  induction ds with
  | nil =>
    intro rs h
    refine ⟨by cases rs <;> simp [subRow], fun c hc => ?_⟩
    have : c = rs := by cases rs <;> simp [subRow] at hc <;> first | exact hc.symm | exact hc
    subst this
    simp
  | cons d ds ih =>
    intro rs h
    cases rs with
    | nil => simp at h
    | cons r rs =>
      obtain ⟨ih1, ih2⟩ := ih rs (by simpa using h)
      constructor
      · by_cases h1 : InRange w (qc * d)
        · by_cases h2 : InRange w (r - qc * d)
          · have e : (subRow w .panics qc (d :: ds) (r :: rs)).isSome = (subRow w .panics qc ds rs).isSome := by
              simp only [subRow, fit_panics h1, fit_panics h2, bind, Option.bind_some]
              cases subRow w .panics qc ds rs <;> rfl
            rw [e, ih1]
            constructor
            · intro h i hi
              cases i with
              | zero => exact ⟨h1, h2⟩
              | succ i => simpa using h i (by simpa using hi)
            · intro h i hi
              simpa using h (i + 1) (by simpa using hi)
          · have e : subRow w .panics qc (d :: ds) (r :: rs) = none := by
              simp only [subRow, fit_panics h1, fit_panics_none h2, bind, Option.bind_some, Option.bind_none]
            rw [e]
            simp only [Option.isSome_none, Bool.false_eq_true, false_iff]
            intro h
            exact h2 (by simpa using (h 0 (by simp)).2)
        · have e : subRow w .panics qc (d :: ds) (r :: rs) = none := by
            simp only [subRow, fit_panics_none h1, bind, Option.bind_none]
          rw [e]
          simp only [Option.isSome_none, Bool.false_eq_true, false_iff]
          intro h
          exact h1 (by simpa using (h 0 (by simp)).1)
      · intro c hc
        simp only [subRow, bind, Option.bind_eq_some_iff, pure, Option.some.injEq] at hc
        obtain ⟨v, hv, x, hx, cs, hcs, rfl⟩ := hc
        obtain ⟨-, rfl⟩ := fit_panics_some.1 hv
        obtain ⟨-, rfl⟩ := fit_panics_some.1 hx
        obtain ⟨hl, hg⟩ := ih2 cs hcs
        refine ⟨by simp [hl], fun i => ?_⟩
        cases i with
        | zero => simp
        | succ i => simpa using hg i

theorem subAt_some (qc : ℤ) (ds : List ℤ) : ∀ (k : ℕ) (rs : List ℤ), k + ds.length ≤ rs.length →
    ((subAt w .panics qc ds k rs).isSome ↔
      ∀ i < ds.length, InRange w (qc * ds.getD i 0) ∧ InRange w (rs.getD (k + i) 0 - qc * ds.getD i 0)) ∧
    ∀ c, subAt w .panics qc ds k rs = some c →
      c.length = rs.length ∧
      ∀ i, c.getD i 0 = rs.getD i 0 - if k ≤ i then qc * ds.getD (i - k) 0 else 0 := by
  intro k
  induction k with
  | zero =>
    intro rs h
    obtain ⟨h1, h2⟩ := subRow_some (w := w) qc ds rs (by simpa using h)
    refine ⟨by simpa [subAt] using h1, fun c hc => ?_⟩
    simpa using h2 c (by simpa [subAt] using hc)
  | succ k ih =>
    intro rs h
    cases rs with
    | nil => simp at h
    | cons r rs =>
      obtain ⟨h1, h2⟩ := ih rs (by simp at h; omega)
      constructor
      · have e : (subAt w .panics qc ds (k + 1) (r :: rs)).isSome = (subAt w .panics qc ds k rs).isSome := by
          simp only [subAt, bind]
          cases subAt w .panics qc ds k rs <;> rfl
        rw [e, h1]
        simp only [show ∀ i, k + 1 + i = (k + i) + 1 from fun i => by omega, List.getD_cons_succ]
      · intro c hc
        simp only [subAt, bind, Option.bind_eq_some_iff, pure, Option.some.injEq] at hc
        obtain ⟨cs, hcs, rfl⟩ := hc
        obtain ⟨hl, hg⟩ := h2 cs hcs
        refine ⟨by simp [hl], fun i => ?_⟩
        cases i with
        | zero => simp
        | succ i => simpa using hg i

theorem mapM_some (dl : ℤ) (l c : List ℤ) (h : l.mapM (fun e => Overflow.panics.fit w (e * dl)) = some c) :
    c = l.map (· * dl) := by
  induction l generalizing c with
  | nil => simp at h; subst h; rfl
  | cons a l ih =>
    simp only [List.mapM_cons, bind, Option.bind_eq_some_iff, pure, Option.some.injEq] at h
    obtain ⟨b, h1, cs, h2, rfl⟩ := h
    rw [ih cs h2, (fit_panics_some.1 h1).2]
    rfl

/-- the loop of the pseudo-division -/
theorem pdrLoop_some (den : List ℤ) (hne : den ≠ []) (hdl : den.getLastD 0 = (listPoly den).leadingCoeff)
    (hdeg : (listPoly den).natDegree = den.length - 1) (k : ℕ) : ∀ (rem q : List ℤ),
    rem.length = k + (den.length - 1) →
    ((pdrLoop w .panics (den.getLastD 0) den k rem q).isSome ↔ StepsFit w (listPoly den) k (listPoly rem)) ∧
    ∀ c, pdrLoop w .panics (den.getLastD 0) den k rem q = some c →
      c.1 = removed (listPoly den) k (listPoly rem) ++ q := by
  induction k with
  | zero =>
    intro rem q _
    refine ⟨by simp [pdrLoop, StepsFit], fun c hc => ?_⟩
    simp only [pdrLoop, Option.some.injEq] at hc
    subst hc
    rfl
  | succ k ih =>
    intro rem q hlen
    set Q := listPoly den with hQ
    set R := listPoly rem with hR
    have hrne : rem ≠ [] := by
      intro h
      rw [h, List.length_nil] at hlen
      omega
    have hlast : rem.getLastD 0 = R.coeff (k + Q.natDegree) := by
      rw [hR, listPoly_coeff, hdeg, List.getLastD_eq_getLast?, List.getLast?_eq_getElem?, hlen,
        List.getD_eq_getElem?_getD, show k + 1 + (den.length - 1) - 1 = k + (den.length - 1) by omega]
    have hdrop : ∀ i < k + Q.natDegree, rem.dropLast.getD i 0 = R.coeff i := by
      intro i hi
      rw [hdeg] at hi
      rw [hR, listPoly_coeff, List.getD_eq_getElem?_getD, List.getD_eq_getElem?_getD, List.getElem?_dropLast,
        if_pos (by omega)]
    have hden : ∀ i < Q.natDegree, den.dropLast.getD i 0 = Q.coeff i := by
      intro i hi
      rw [hdeg] at hi
      rw [hQ, listPoly_coeff, List.getD_eq_getElem?_getD, List.getD_eq_getElem?_getD, List.getElem?_dropLast,
        if_pos (by omega)]
    have hden0 : ∀ i, Q.natDegree ≤ i → den.dropLast.getD i 0 = 0 := by
      intro i hi
      rw [hdeg] at hi
      rw [List.getD_eq_getElem?_getD, List.getElem?_eq_none (by simp; omega)]
      rfl
    have hdlen : den.dropLast.length = Q.natDegree := by rw [hdeg]; simp
    have hrlen : rem.dropLast.length = k + Q.natDegree := by rw [hdeg]; simp; omega
    have hmap : (rem.dropLast.mapM fun e => Overflow.panics.fit w (e * den.getLastD 0)).isSome ↔
        ∀ i < k + Q.natDegree, InRange w (R.coeff i * Q.leadingCoeff) := by
      rw [mapM_isSome (fun e => e * den.getLastD 0), hdl]
      constructor
      · intro h i hi
        rw [← hdrop i hi]
        apply h
        rw [List.getD_eq_getElem?_getD, List.getElem?_eq_getElem (by omega)]
        exact List.getElem_mem _
      · intro h a ha
        obtain ⟨i, hi, rfl⟩ := List.mem_iff_getElem.1 ha
        have := h i (by omega)
        rwa [← hdrop i (by omega), List.getD_eq_getElem?_getD, List.getElem?_eq_getElem hi] at this
    have hstepc : ∀ i < Q.natDegree, (remStep Q k R).coeff (k + i) =
        R.coeff (k + i) * Q.leadingCoeff - R.coeff (k + Q.natDegree) * Q.coeff i := by
      intro i _
      rw [remStep, coeff_sub, coeff_C_mul, mul_assoc, coeff_C_mul, add_comm k i, coeff_X_pow_mul]
      ring
    rw [pdrLoop]
    cases hm : rem.dropLast.mapM fun e => Overflow.panics.fit w (e * den.getLastD 0) with
    | none =>
      rw [hm] at hmap
      refine ⟨?_, fun c hc => by simp [bind] at hc⟩
      simp only [bind, Option.bind_none, Option.isSome_none, Bool.false_eq_true, false_iff]
      intro h
      exact absurd (hmap.2 h.1) (by simp)
    | some r1 =>
      have hm1 := hmap.1 (by rw [hm]; rfl)
      have hr1 := mapM_some _ _ _ hm
      have hr1len : r1.length = k + Q.natDegree := by rw [hr1]; simp [← hrlen]
      have hr1c : ∀ i < k + Q.natDegree, r1.getD i 0 = R.coeff i * Q.leadingCoeff := by
        intro i hi
        rw [← hdrop i hi, hr1, ← hdl]
        simp only [List.getD_eq_getElem?_getD, List.getElem?_map]
        rw [List.getElem?_eq_getElem (by omega)]
        rfl
      obtain ⟨hs1, hs2⟩ := subAt_some (w := w) (rem.getLastD 0) den.dropLast k r1 (by omega)
      have hsub : (subAt w .panics (rem.getLastD 0) den.dropLast k r1).isSome ↔
          (∀ i < Q.natDegree, InRange w (R.coeff (k + Q.natDegree) * Q.coeff i)) ∧
          ∀ i < Q.natDegree, InRange w ((remStep Q k R).coeff (k + i)) := by
        rw [hs1, hdlen, ← forall₂_and]
        refine forall₂_congr fun i hi => ?_
        rw [hden i hi, hlast, hr1c _ (by omega), hstepc i hi]
      simp only [bind, Option.bind_some]
      cases hs : subAt w .panics (rem.getLastD 0) den.dropLast k r1 with
      | none =>
        rw [hs] at hsub
        refine ⟨?_, fun c hc => by simp at hc⟩
        simp only [Option.bind_none, Option.isSome_none, Bool.false_eq_true, false_iff]
        intro h
        exact absurd (hsub.2 ⟨h.2.1, h.2.2.1⟩) (by simp)
      | some r2 =>
        have hsub' := hsub.1 (by rw [hs]; rfl)
        obtain ⟨hl2, hc2⟩ := hs2 r2 hs
        have hr2 : listPoly r2 = remStep Q k R := by
          ext i
          rw [listPoly_coeff, hc2, remStep, coeff_sub, coeff_C_mul, mul_assoc, coeff_C_mul, coeff_X_pow_mul', hlast]
          by_cases hi : i < k + Q.natDegree
          · rw [hr1c i hi]
            split_ifs with hk
            · rw [hden _ (by omega)]; ring
            · ring
          · have hz : r1.getD i 0 = 0 := by
              rw [List.getD_eq_getElem?_getD, List.getElem?_eq_none (by omega)]; rfl
            rw [hz, if_pos (by omega), if_pos (by omega), hden0 _ (by omega)]
            rcases Nat.lt_or_eq_of_le (not_lt.1 hi) with hi' | hi'
            · have h1 : R.coeff i = 0 := by
                rw [hR, listPoly_coeff, List.getD_eq_getElem?_getD, List.getElem?_eq_none (by rw [hlen]; omega)]; rfl
              rw [h1, coeff_eq_zero_of_natDegree_lt (show Q.natDegree < i - k by omega)]
              ring
            · rw [← hi', show k + Q.natDegree - k = Q.natDegree by omega, coeff_natDegree]
              ring
        obtain ⟨ih1, ih2⟩ := ih r2 (rem.getLastD 0 :: q) (by rw [hl2, hr1len, hdeg])
        simp only [Option.bind_some]
        rw [hr2] at ih1 ih2
        refine ⟨?_, fun c hc => ?_⟩
        · rw [ih1, StepsFit]
          exact ⟨fun h => ⟨hm1, hsub'.1, hsub'.2, h⟩, fun h => h.2.2.2⟩
        · rw [ih2 c hc, removed, hlast, List.append_assoc]
          rfl

theorem scaleTail_isSome (dl : ℤ) : ∀ (qs : List ℤ) (f : ℤ), (scaleTail w .panics dl f qs).isSome ↔
    ∀ i < qs.length, InRange w (qs.getD i 0 * (f * dl ^ i)) ∧ InRange w (f * dl ^ (i + 1)) := by
  intro qs
  induction qs with
  | nil => intro f; simp [scaleTail]
  | cons q qs ih =>
    intro f
    by_cases h1 : InRange w (q * f)
    · by_cases h2 : InRange w (f * dl)
      · have e : (scaleTail w .panics dl f (q :: qs)).isSome = (scaleTail w .panics dl (f * dl) qs).isSome := by
          simp only [scaleTail, fit_panics h1, fit_panics h2, bind, Option.bind_some]
          cases scaleTail w .panics dl (f * dl) qs <;> rfl
        rw [e, ih]
        have e1 : ∀ i, f * dl * dl ^ i = f * dl ^ (i + 1) := fun i => by ring
        simp only [e1]
        constructor
        · intro h i hi
          cases i with
          | zero => exact ⟨by simpa using h1, by simpa using h2⟩
          | succ i => simpa using h i (by simpa using hi)
        · intro h i hi
          simpa using h (i + 1) (by simpa using hi)
      · have e : scaleTail w .panics dl f (q :: qs) = none := by
          simp only [scaleTail, fit_panics h1, fit_panics_none h2, bind, Option.bind_some, Option.bind_none]
        rw [e]
        simp only [Option.isSome_none, Bool.false_eq_true, false_iff]
        intro h
        exact h2 (by simpa using (h 0 (by simp)).2)
    · have e : scaleTail w .panics dl f (q :: qs) = none := by
        simp only [scaleTail, fit_panics_none h1, bind, Option.bind_none]
      rw [e]
      simp only [Option.isSome_none, Bool.false_eq_true, false_iff]
      intro h
      exact h1 (by simpa using (h 0 (by simp)).1)

theorem removed_length (Q : ℤ[X]) (k : ℕ) (R : ℤ[X]) : (removed Q k R).length = k := by
  induction k generalizing R with
  | zero => rfl
  | succ k ih => simp [removed, ih]

/-- C83: exactly when a pseudo-division panics with overflow checks on: when a number in one of its steps does not fit,
or one of the final products of the quotient with the powers of the leading coefficient, or one of these powers. -/
theorem C83_pseudo_div_rem_panics_iff (w : ℕ) (p q : List ℤ) (hq : Valid w q) (hq0 : q ≠ []) :
    checkedPseudoDivRem w .panics p q = none ↔
      q.length ≤ p.length ∧
        ¬ (StepsFit w (listPoly q) (p.length + 1 - q.length) (listPoly p) ∧
          ∀ k, 0 < k → k < p.length + 1 - q.length →
            InRange w ((removed (listPoly q) (p.length + 1 - q.length) (listPoly p)).getD k 0 *
              (listPoly q).leadingCoeff ^ k) ∧
            InRange w ((listPoly q).leadingCoeff ^ (k + 1))) := by
  have hl : q.getLast hq0 ≠ 0 := by
    intro e
    exact hq.2 (by rw [List.getLast?_eq_some_getLast hq0, e])
  obtain ⟨hdeg, hlead⟩ := listPoly_leading q hq0 hl
  have hdl : q.getLastD 0 = (listPoly q).leadingCoeff := by
    rw [hlead, List.getLastD_eq_getLast?, List.getLast?_eq_some_getLast hq0]
    rfl
  have hqpos : 0 < q.length := List.length_pos_iff.2 hq0
  unfold checkedPseudoDivRem
  rw [if_neg (by simpa using hq0)]
  unfold Poly.quotientLen
  by_cases hlt : p.length < q.length
  · rw [if_pos hlt]
    simp only [reduceCtorEq, false_iff, not_and, not_le]
    intro h; omega
  · rw [if_neg hlt, show 1 + p.length - q.length = p.length + 1 - q.length by omega]
    obtain ⟨h1, h2⟩ := pdrLoop_some (w := w) q hq0 hdl (by rw [hdeg]) (p.length + 1 - q.length) p [] (by omega)
    simp only [not_lt.1 hlt, true_and]
    have hred : ((do
        let r ← elementPseudoDivRem w .panics p q (p.length + 1 - q.length)
        return some (normalize r.1, normalize r.2.1, r.2.2)) : Option (Option (List ℤ × List ℤ × ℤ))) = none ↔
        ¬ (elementPseudoDivRem w .panics p q (p.length + 1 - q.length)).isSome := by
      cases elementPseudoDivRem w .panics p q (p.length + 1 - q.length) <;> simp [bind]
    rw [hred, not_iff_not]
    unfold elementPseudoDivRem
    cases hp : pdrLoop w .panics (q.getLastD 0) q (p.length + 1 - q.length) p [] with
    | none =>
      rw [hp] at h1
      simp only [hp, bind, Option.bind_none, Option.isSome_none, Bool.false_eq_true, false_iff, not_and]
      intro h
      exact absurd (h1.2 h) (by simp)
    | some c =>
      have hf := h1.1 (by rw [hp]; rfl)
      have hc := h2 c hp
      rw [List.append_nil] at hc
      have hlen := removed_length (listPoly q) (p.length + 1 - q.length) (listPoly p)
      simp only [hp, bind, Option.bind_some, hf, true_and]
      rw [← hc] at hlen ⊢
      obtain ⟨c1, c2⟩ := c
      cases c1 with
      | nil => simp at hlen; omega
      | cons q0 qs =>
        simp only
        have e : ((scaleTail w .panics (q.getLastD 0) (q.getLastD 0) qs).bind
            fun s => pure (q0 :: s.1, c2, s.2)).isSome =
            (scaleTail w .panics (q.getLastD 0) (q.getLastD 0) qs).isSome := by
          cases scaleTail w .panics (q.getLastD 0) (q.getLastD 0) qs <;> rfl
        rw [e, scaleTail_isSome, hdl]
        rw [← hlen]
        simp only [← pow_succ']
        constructor
        · intro h k hk hk2
          obtain ⟨i, rfl⟩ : ∃ i, k = i + 1 := ⟨k - 1, by omega⟩
          simpa using h i (by simpa using hk2)
        · intro h i hi
          simpa using h (i + 1) (by omega) (by simpa using hi)

/-- `x^2 + 100` by `2 x + 1` panics with 8 bits: `100 * 2` does not fit. -/
example : checkedPseudoDivRem 8 .panics [100, 0, 1] [1, 2] = none ∧ Valid 8 [1, 2] := by
  refine ⟨by decide +kernel, ⟨by unfold InRange; decide, by decide⟩⟩

end MachinePoly

end Algebraics
