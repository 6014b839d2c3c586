import Verif.Props.AlgNumProduct

/-!
# C45: exactly when a rational product of irrational numbers is wrong
-/

namespace Algebraics

open Polynomial RealAlg

namespace RealAlg

/-- Specification: the isolating intervals of both numbers are shrunk `k` times; `q` is an end of the product of the
results. -/
def ProductEnd (a b : RealAlg) (k : ℕ) (q : ℚ) : Prop :=
  ∃ s t s' t' : Shrinker, a.intervalShrinker = .ok s ∧ b.intervalShrinker = .ok t ∧
    Shrinker.shrinkTimes k s = some s' ∧ Shrinker.shrinkTimes k t = some t' ∧
    (q = (s'.interval.mul t'.interval).lowerBound ∨ q = (s'.interval.mul t'.interval).upperBound)

/-- an end of the interval in the state after `k` steps -/
def EndAt {σ : Type} (g : σ → Option DFI) (sh : σ → Option σ) (st : σ) (k : ℕ) (q : ℚ) : Prop :=
  ∃ st' i, stateAfter sh k st = some st' ∧ g st' = some i ∧ (q = i.lowerBound ∨ q = i.upperBound)

theorem EndAt.succ {σ : Type} {g : σ → Option DFI} {sh : σ → Option σ} {st st1 : σ} (h : sh st = some st1) {k : ℕ}
    {q : ℚ} : EndAt g sh st (k + 1) q ↔ EndAt g sh st1 k q := by
  unfold EndAt
  rw [stateAfter_succ, h]
  rfl

/-- a wrong result is an end of one of the intervals, and the right one is no end of an earlier interval. -/
theorem selectLoop_first {σ : Type} {g : σ → Option DFI} {sh : σ → Option σ} {Inv : σ → Prop} {v : ℚ}
    (hget : ∀ st, Inv st → ∃ i, g st = some i ∧ i.Contains v)
    (hshrink : ∀ st st', Inv st → sh st = some st' → Inv st') (c : RealAlg) (fuel : ℕ) :
    ∀ (st : σ) (ps : List (Poly ℤ)), Inv st →
    (∀ p ∈ ps, Irreducible p.toPoly ∧ 0 < p.toPoly.leadingCoeff) →
    (∃ p ∈ ps, (aeval (v : ℝ) p.toPoly : ℝ) = 0) →
    selectLoop g sh fuel st (ps.map seqOf) = .ok c →
    c.Represents v ∨ ∃ q : ℚ, c = ofRat q ∧ q ≠ v ∧ (∃ p ∈ ps, (aeval (q : ℝ) p.toPoly : ℝ) = 0) ∧
      ∃ k, EndAt g sh st k q ∧ ∀ j < k, ¬ EndAt g sh st j v := by
  induction fuel with
  | zero => intro st ps _ _ _ h; simp [selectLoop] at h
  | succ fuel ih =>
    intro st ps hinv hps hv h
    obtain ⟨i, hi, hiv⟩ := hget st hinv
    obtain ⟨hl, hu⟩ := (DFI.contains_iff_bounds _ _).mp hiv
    have hlu : i.lowerBound ≤ i.upperBound := by exact_mod_cast hl.trans hu
    rcases scan_spec i.lowerBound i.upperBound hlu ps (fun p hp => (hps p hp).1.ne_zero) 0 [] with
      ⟨q, h1, h2, h3⟩ | ⟨-, h2⟩
    · simp only [selectLoop, hi, h1, Except.ok.injEq] at h
      subst h
      by_cases hq : q = v
      · subst hq
        exact Or.inl (ofRat_represents q)
      · exact Or.inr ⟨q, rfl, hq, h3, 0, ⟨st, i, rfl, hi, h2⟩, by simp⟩
    · have hno : ¬ EndAt g sh st 0 v := by
        rintro ⟨st', i', e1, e2, e3⟩
        cases e1
        rw [hi] at e2
        cases e2
        obtain ⟨p, hp, hpv⟩ := hv
        rcases e3 with e | e
        · exact (h2 p hp).1 (by rw [← e]; exact hpv)
        · exact (h2 p hp).2 (by rw [← e]; exact hpv)
      rcases selectLoop_turn (shrinkInterval := sh) st hi hiv ps hps hv fuel with
        ⟨c', t1, t2⟩ | ⟨q, -, -, ⟨p, t3, t4⟩, t5⟩ | ⟨-, kept, t1, t2, t3⟩
      · rw [h] at t1
        cases t1
        exact Or.inl t2
      · exfalso
        rcases t5 with rfl | rfl
        · exact (h2 p t3).1 t4
        · exact (h2 p t3).2 t4
      · rw [h] at t3
        rcases hst : sh st with _ | st1
        · rw [hst] at t3; cases t3
        · rw [hst] at t3
          rcases ih st1 kept (hshrink _ _ hinv hst) (fun p hp => hps p (t1.subset hp)) t2 t3.symm with
            h4 | ⟨q, q1, q2, ⟨p, q3, q4⟩, k, q5, q6⟩
          · exact Or.inl h4
          · refine Or.inr ⟨q, q1, q2, ⟨p, t1.subset q3, q4⟩, k + 1, (EndAt.succ hst).mpr q5, fun j hj => ?_⟩
            cases j with
            | zero => exact hno
            | succ j => exact fun h => q6 j (by omega) ((EndAt.succ hst).mp h)

/-- if another root is an end of some interval, an end of this or an earlier interval is returned. -/
theorem selectLoop_hit_end {σ : Type} {g : σ → Option DFI} {sh : σ → Option σ} {Inv : σ → Prop} {v : ℝ}
    (hget : ∀ st, Inv st → ∃ i, g st = some i ∧ i.Contains v)
    (hshrink : ∀ st st', Inv st → sh st = some st' → Inv st')
    (hnest : ∀ st st' i i', Inv st → sh st = some st' → g st = some i → g st' = some i' →
      i'.Within i) (w : ℚ) (hwv : (w : ℝ) ≠ v) (k : ℕ) :
    ∀ (st : σ) (ps : List (Poly ℤ)), Inv st →
    (∀ p ∈ ps, Irreducible p.toPoly ∧ 0 < p.toPoly.leadingCoeff) →
    (∃ p ∈ ps, aeval v p.toPoly = 0) → (∃ p ∈ ps, (aeval (w : ℝ) p.toPoly : ℝ) = 0) → EndAt g sh st k w →
    ∃ q : ℚ, (∃ j ≤ k, EndAt g sh st j q) ∧
      ∀ fuel ≥ k + 1, selectLoop g sh fuel st (ps.map seqOf) = .ok (ofRat q) := by
  induction k with
  | zero =>
    intro st ps hinv hps hv hw ⟨st', i, hst, hi, hend⟩
    cases hst
    obtain ⟨i', hi', hiv⟩ := hget st hinv
    rw [hi] at hi'; cases hi'
    obtain ⟨hl, hu⟩ := (DFI.contains_iff_bounds _ _).mp hiv
    have hlu : i.lowerBound ≤ i.upperBound := by exact_mod_cast hl.trans hu
    rcases scan_spec i.lowerBound i.upperBound hlu ps (fun p hp => (hps p hp).1.ne_zero) 0 [] with
      ⟨q, h1, h2, -⟩ | ⟨-, h2⟩
    · refine ⟨q, ⟨0, le_rfl, st, i, rfl, hi, h2⟩, fun fuel hf => ?_⟩
      obtain ⟨fuel, rfl⟩ : ∃ k, fuel = k + 1 := ⟨fuel - 1, by omega⟩
      simp only [selectLoop, hi, h1]
    · obtain ⟨p, hp, hpw⟩ := hw
      rcases hend with rfl | rfl
      · exact absurd hpw (h2 p hp).1
      · exact absurd hpw (h2 p hp).2
  | succ k ih =>
    intro st ps hinv hps hv hw hend
    obtain ⟨st', i', hst', hi', hend'⟩ := hend
    rcases hs : sh st with _ | st1
    · rw [stateAfter_succ, hs] at hst'; cases hst'
    obtain ⟨j, hj, hjv⟩ := hget st hinv
    obtain ⟨hl, hu⟩ := (DFI.contains_iff_bounds _ _).mp hjv
    have hlu : j.lowerBound ≤ j.upperBound := by exact_mod_cast hl.trans hu
    rcases scan_spec j.lowerBound j.upperBound hlu ps (fun p hp => (hps p hp).1.ne_zero) 0 [] with
      ⟨q, h1, h2, -⟩ | ⟨h1, h2⟩
    · refine ⟨q, ⟨0, by omega, st, j, rfl, hj, h2⟩, fun fuel hf => ?_⟩
      obtain ⟨fuel, rfl⟩ : ∃ k, fuel = k + 1 := ⟨fuel - 1, by omega⟩
      simp only [selectLoop, hj, h1]
    · -- the earlier lemma says that a rational number is returned and that `w` is in the first interval
      have hjw : j.Contains w :=
        (selectLoop_hit hget hshrink hnest w hwv (k + 1) st ps hinv hps hv hw st' i' hst' hi' hend').1 j hj
      obtain ⟨wl, wu⟩ := (DFI.contains_iff_bounds _ _).mp hjw
      have hin : ∀ p ∈ ps, ∀ z : ℝ, (j.lowerBound : ℝ) ≤ z → z ≤ j.upperBound → aeval z p.toPoly = 0 →
          (j.lowerBound : ℝ) < z ∧ z < j.upperBound := by
        intro p hp z z1 z2 hz
        refine ⟨lt_of_le_of_ne z1 fun e => ?_, lt_of_le_of_ne z2 fun e => ?_⟩
        · exact (h2 p hp).1 (by rw [e]; exact hz)
        · exact (h2 p hp).2 (by rw [← e]; exact hz)
      have hmem : ∀ p ∈ ps, ∀ z : ℝ, (j.lowerBound : ℝ) ≤ z → z ≤ j.upperBound → aeval z p.toPoly = 0 →
          rootCount j.lowerBound j.upperBound p ≠ 0 := by
        intro p hp z z1 z2 hz
        unfold rootCount
        rw [Ne, Set.ncard_eq_zero (rootSet_between_finite _ _ _ (hps p hp).1.ne_zero)]
        exact Set.Nonempty.ne_empty ⟨z, (hin p hp z z1 z2 hz).1, (hin p hp z z1 z2 hz).2, hz⟩
      obtain ⟨p, hp, hpv⟩ := hv
      obtain ⟨p', hp', hpw⟩ := hw
      have hsum : 1 < (ps.map (rootCount j.lowerBound j.upperBound)).sum := by
        by_cases he : p = p'
        · subst he
          have h3 : rootCount j.lowerBound j.upperBound p ≤
              (ps.map (rootCount j.lowerBound j.upperBound)).sum :=
            List.single_le_sum (by simp) _ (List.mem_map.mpr ⟨p, hp, rfl⟩)
          refine lt_of_lt_of_le ?_ h3
          unfold rootCount
          rw [Set.one_lt_ncard (rootSet_between_finite _ _ _ (hps p hp).1.ne_zero)]
          exact ⟨v, ⟨(hin p hp v hl hu hpv).1, (hin p hp v hl hu hpv).2, hpv⟩, w,
            ⟨(hin p hp w wl wu hpw).1, (hin p hp w wl wu hpw).2, hpw⟩, hwv.symm⟩
        · exact two_le_sum _ hp hp' he (hmem p hp v hl hu hpv) (hmem p' hp' w wl wu hpw)
      obtain ⟨q, ⟨n, hn, hq'⟩, hq⟩ := ih st1 (ps.filter fun p => rootCount j.lowerBound j.upperBound p ≠ 0)
        (hshrink _ _ hinv hs)
        (fun p hp => hps p (List.mem_filter.mp hp).1)
        ⟨p, List.mem_filter.mpr ⟨hp, by simpa using hmem p hp v hl hu hpv⟩, hpv⟩
        ⟨p', List.mem_filter.mpr ⟨hp', by simpa using hmem p' hp' w wl wu hpw⟩, hpw⟩
        ((EndAt.succ hs).mp ⟨st', i', hst', hi', hend'⟩)
      refine ⟨q, ⟨n + 1, by omega, (EndAt.succ hs).mpr hq'⟩, fun fuel hf => ?_⟩
      obtain ⟨fuel, rfl⟩ : ∃ k, fuel = k + 1 := ⟨fuel - 1, by omega⟩
      simp only [selectLoop, hj, h1, zero_add, List.nil_append]
      rw [if_neg (by omega)]
      simp only [hs]
      exact hq fuel (by omega)

end RealAlg

/-- C45: exactly when a rational product `v` of two irrational numbers is wrong.  The intervals are shrunk until one of
them decides; the result is wrong if and only if `-v` is a product of roots of the two polynomials, too, and an end of
the product of the intervals before `v` is one; and then `-v` is returned.  Excluded: both are ends of the same
product, where it depends on the order of the factors. -/
theorem C45_rational_product_exact_iff (F : FactorCall) (a b : RealAlg) (x y : ℝ) (v : ℚ)
    (ha : a.Represents x) (hb : b.Represents y) (hx : Irrational x) (hy : Irrational y) (hv : x * y = v)
    (htie : ∀ k, ¬ (ProductEnd a b k v ∧ ProductEnd a b k (-v)))
    (hF : ∀ R, mulResultant a.poly b.poly = some R → R.toPoly ≠ 0 → FactorsRight F R) :
    ((∃ N, ∀ fuel ≥ N, ∃ c, a.mul F fuel b = .ok c ∧ c.Represents v) ↔
      ¬ ((∃ x' y' : ℂ, aeval x' a.poly.toPoly = 0 ∧ aeval y' b.poly.toPoly = 0 ∧ -(v : ℂ) = x' * y') ∧
        ∃ k, ProductEnd a b k (-v) ∧ ∀ j < k, ¬ ProductEnd a b j v)) ∧
    ((∃ x' y' : ℂ, aeval x' a.poly.toPoly = 0 ∧ aeval y' b.poly.toPoly = 0 ∧ -(v : ℂ) = x' * y') ∧
        (∃ k, ProductEnd a b k (-v) ∧ ∀ j < k, ¬ ProductEnd a b j v) →
      ∃ N, ∀ fuel ≥ N, a.mul F fuel b = .ok (ofRat (-v))) := by
  have hx0 : x ≠ 0 := by rintro rfl; exact hx ⟨0, by simp⟩
  have hy0 : y ≠ 0 := by rintro rfl; exact hy ⟨0, by simp⟩
  have hvr : (v : ℝ) ≠ 0 := by rw [← hv]; exact mul_ne_zero hx0 hy0
  have hv0 : v ≠ 0 := by exact_mod_cast hvr
  have pa := ha.coeff_zero_ne hx0
  have pb := hb.coeff_zero_ne hy0
  obtain ⟨R, hR⟩ := mulResultant_exists a.poly b.poly pa pb
  have hR0 := mulResultant_ne_zero a.poly b.poly R pa pb hR
  obtain ⟨s, hs1, hs2, -⟩ := ha.intervalShrinker
  obtain ⟨t, ht1, ht2, -⟩ := hb.intervalShrinker
  have hroot := mulResultant_root a.poly b.poly R pa pb hR
  have hxr := (aeval_realCast _ _).mpr ha.root
  have hyr := (aeval_realCast _ _).mpr hb.root
  have hvR : (aeval (v : ℝ) R.toPoly : ℝ) = 0 := by
    rw [← aeval_realCast, hroot]
    exact ⟨x, y, hxr, hyr, by exact_mod_cast hv.symm⟩
  have hend : ∀ k q, EndAt mulInterval shrinkBoth (s, t) k q ↔ ProductEnd a b k q := by
    intro k q
    constructor
    · rintro ⟨⟨u, w⟩, i, h1, h2, h3⟩
      cases h2
      obtain ⟨e1, e2⟩ := (stateAfter_pair k s t u w).mp h1
      exact ⟨s, t, u, w, hs1, ht1, e1, e2, h3⟩
    · rintro ⟨s0, t0, u, w, e1, e2, e3, e4, e5⟩
      rw [hs1] at e1; cases e1
      rw [ht1] at e2; cases e2
      exact ⟨(u, w), _, (stateAfter_pair k _ _ u w).mpr ⟨e3, e4⟩, rfl, e5⟩
  let Inv : Shrinker × Shrinker → Prop := fun st => st.1.Valid a.poly x ∧ st.2.Valid b.poly y
  have hpair : ∀ st : Shrinker × Shrinker, Inv st → PairInv a.poly b.poly x y st.1.interval st.2.interval st :=
    fun st hst => ⟨hst.1, hst.2, le_rfl, le_rfl, le_rfl, le_rfl, le_rfl, le_rfl⟩
  have hget : ∀ st, Inv st → ∃ i, mulInterval st = some i ∧ i.Contains (v : ℝ) := fun st hst =>
    ⟨_, rfl, by rw [← hv]; exact DFI.contains_mul hst.1.rep.mem hst.2.rep.mem⟩
  have hshrink : ∀ st st', Inv st → shrinkBoth st = some st' → Inv st' := fun st st' hst h => by
    have := (hpair st hst).shrink_of_eq h
    exact ⟨this.left, this.right⟩
  have hnest : ∀ st st' i i', Inv st → shrinkBoth st = some st' → mulInterval st = some i →
      mulInterval st' = some i' → i'.Within i := fun st st' i i' hst h hi hi' => by
    have hq := (hpair st hst).shrink_of_eq h
    cases hi; cases hi'
    exact mul_nest _ _ _ _ hq.left.rep.lo_le_hi hq.right.rep.lo_le_hi
      (Shrinker.within_of_bounds hq.leftLower hq.leftUpper)
      (Shrinker.within_of_bounds hq.rightLower hq.rightUpper) hq.leftDenom hq.rightDenom
  obtain ⟨r, hr1, hr2⟩ := hF R hR hR0
  have hmul : ∀ fuel, a.mul F fuel b =
      selectLoop mulInterval shrinkBoth fuel (s, t) ((r.factors.map (·.1)).map seqOf) := fun fuel => by
    rw [mul_select ha hb hx hy hs1 ht1 F R hR, selectRoot_eq_loop F R r hr1 hr2]
  have hps : ∀ p ∈ r.factors.map (·.1), Irreducible p.toPoly ∧ 0 < p.toPoly.leadingCoeff := by
    intro p hp
    obtain ⟨e, he, rfl⟩ := List.mem_map.mp hp
    exact ⟨hr2.irreducible e he, hr2.positive e he⟩
  have hfac : ∀ w : ℝ, aeval w R.toPoly = 0 → ∃ p ∈ r.factors.map (·.1), aeval w p.toPoly = 0 := by
    intro w hw
    obtain ⟨e, he, hev⟩ := factors_root hr2 hR0 w hw
    exact ⟨e.1, List.mem_map.mpr ⟨e, he, rfl⟩, hev⟩
  -- a wrong result is `-v`
  have first : ∀ fuel c, a.mul F fuel b = .ok c → c.Represents v ∨ (c = ofRat (-v) ∧
      (∃ x' y' : ℂ, aeval x' a.poly.toPoly = 0 ∧ aeval y' b.poly.toPoly = 0 ∧ -(v : ℂ) = x' * y') ∧
      ∃ k, ProductEnd a b k (-v) ∧ ∀ j < k, ¬ ProductEnd a b j v) := by
    intro fuel c hc
    rw [hmul] at hc
    rcases selectLoop_first hget hshrink c fuel (s, t) _ ⟨hs2, ht2⟩ hps (hfac _ hvR) hc with
      h | ⟨q, h1, h2, ⟨p, h3, h4⟩, k, h5, h6⟩
    · exact Or.inl h
    · right
      obtain ⟨e, he, rfl⟩ := List.mem_map.mp h3
      have hq := factor_root_root hr2 e he _ h4
      obtain ⟨x', y', e1, e2, e3⟩ := (hroot _).mp ((aeval_ratCast _ _).mpr hq)
      have hq0 : q ≠ 0 := by
        rintro rfl
        rw [Rat.cast_zero] at e3
        rcases mul_eq_zero.mp e3.symm with rfl | rfl
        · have := root_transfer ha.irreducible ha.natDegree_pos e1 hxr X (by simp)
          simp at this
          exact hx0 this
        · have := root_transfer hb.irreducible hb.natDegree_pos e2 hyr X (by simp)
          simp at this
          exact hy0 this
      rcases rat_prod_unique ha.irreducible hb.irreducible ha.natDegree_pos hb.natDegree_pos hxr e1 hyr e2
        (show (v : ℂ) = (x : ℂ) * y by exact_mod_cast hv.symm) e3 hv0 hq0 with rfl | rfl
      · exact absurd rfl h2
      · exact ⟨h1, ⟨x', y', e1, e2, by simpa using e3⟩, k, (hend _ _).mp h5,
          fun j hj h => h6 j hj ((hend _ _).mpr h)⟩
  have hit : (∃ x' y' : ℂ, aeval x' a.poly.toPoly = 0 ∧ aeval y' b.poly.toPoly = 0 ∧ -(v : ℂ) = x' * y') ∧
        (∃ k, ProductEnd a b k (-v) ∧ ∀ j < k, ¬ ProductEnd a b j v) →
      ∃ N, ∀ fuel ≥ N, a.mul F fuel b = .ok (ofRat (-v)) := by
    rintro ⟨⟨x', y', e1, e2, e3⟩, k, h1, h2⟩
    have hw : (aeval ((-v : ℚ) : ℝ) R.toPoly : ℝ) = 0 := by
      rw [← aeval_ratCast, hroot]
      exact ⟨x', y', e1, e2, by simpa using e3⟩
    obtain ⟨q, ⟨j, hj, hq⟩, hN⟩ := selectLoop_hit_end hget hshrink hnest (-v)
      (by push_cast; intro h; exact hvr (by linarith)) k (s, t) _ ⟨hs2, ht2⟩ hps (hfac _ hvR) (hfac _ hw)
      ((hend _ _).mpr h1)
    refine ⟨k + 1, fun fuel hf => ?_⟩
    have hres := hN fuel hf
    rw [← hmul] at hres
    rcases first fuel _ hres with h | ⟨h, -⟩
    · exfalso
      have hqv : q = v := by exact_mod_cast (ofRat_represents q).unique_real h
      subst hqv
      rcases Nat.lt_or_ge j k with hjk | hjk
      · exact h2 j hjk ((hend _ _).mp hq)
      · obtain rfl : j = k := by omega
        exact htie j ⟨(hend _ _).mp hq, h1⟩
    · rw [hres, h]
  refine ⟨⟨?_, fun h => ?_⟩, hit⟩
  · rintro ⟨N, hN⟩ h
    obtain ⟨M, hM⟩ := hit h
    obtain ⟨c, h1, h2⟩ := hN (max M N) (le_max_right _ _)
    rw [hM _ (le_max_left _ _)] at h1
    cases h1
    have := (ofRat_represents (-v)).unique_real h2
    push_cast at this
    exact hvr (by linarith)
  · obtain ⟨N, hN⟩ := C45_mul_partial F a b x y ha hb hF
    refine ⟨N, fun fuel hf => ?_⟩
    obtain ⟨c, h1, -⟩ := hN fuel hf
    rcases first fuel c h1 with h2 | ⟨-, h2⟩
    · exact ⟨c, h1, h2⟩
    · exact absurd h2 h

/-- the ends lie in the product of the intervals that the numbers are held with -/
theorem RealAlg.ProductEnd.contains {a b : RealAlg} {x y : ℝ} (ha : a.Represents x) (hb : b.Represents y) {k : ℕ}
    {q : ℚ} (h : ProductEnd a b k q) : (a.interval.mul b.interval).Contains (q : ℝ) := by
  obtain ⟨s, t, s', t', e1, e2, e3, e4, e5⟩ := h
  obtain ⟨s0, hs1, hs2, hs3⟩ := ha.intervalShrinker
  obtain ⟨t0, ht1, ht2, ht3⟩ := hb.intervalShrinker
  rw [hs1] at e1; cases e1
  rw [ht1] at e2; cases e2
  have key : ∀ (k : ℕ) (st' : Shrinker × Shrinker), stateAfter shrinkBoth k (s, t) = some st' →
      PairInv a.poly b.poly x y a.interval b.interval st' := by
    intro k
    induction k with
    | zero =>
      intro st' h
      cases h
      rw [← hs3, ← ht3]
      exact ⟨hs2, ht2, le_rfl, le_rfl, le_rfl, le_rfl, le_rfl, le_rfl⟩
    | succ k ih =>
      intro st' h
      obtain ⟨st1, h1, h2⟩ := Option.bind_eq_some_iff.mp h
      exact (ih st1 h1).shrink_of_eq h2
  have hp := key k (s', t') ((stateAfter_pair k _ _ _ _).mpr ⟨e3, e4⟩)
  refine mul_nest _ _ _ _ hp.left.rep.lo_le_hi hp.right.rep.lo_le_hi
    (Shrinker.within_of_bounds hp.leftLower hp.leftUpper)
    (Shrinker.within_of_bounds hp.rightLower hp.rightUpper) hp.leftDenom hp.rightDenom _ ?_
  have hm : (s'.interval.mul t'.interval).Contains (x * y) := DFI.contains_mul hp.left.rep.mem hp.right.rep.mem
  obtain ⟨hl, hu⟩ := (DFI.contains_iff_bounds _ _).mp hm
  rw [DFI.contains_iff_bounds]
  rcases e5 with rfl | rfl
  · exact ⟨le_rfl, hl.trans hu⟩
  · exact ⟨hl.trans hu, le_rfl⟩

/-- the hypotheses are met by `√2` held with the interval `[1, 2]` and multiplied by itself: no end is ever `-2`. -/
example : ∃ N, ∀ fuel ≥ N, ∃ c, sqrtTwo.mul squareFactor fuel sqrtTwo = .ok c ∧ c.Represents ((2 : ℚ) : ℝ) := by
  have hno : ∀ k, ¬ ProductEnd sqrtTwo sqrtTwo k (-2) := fun k h => by
    have := h.contains sqrtTwo_represents sqrtTwo_represents
    rw [DFI.contains_iff_bounds,
      show (sqrtTwo.interval.mul sqrtTwo.interval).lowerBound = 1 by decide +kernel] at this
    have := this.1
    norm_num at this
  refine (C45_rational_product_exact_iff squareFactor sqrtTwo sqrtTwo (√2) (√2) 2 sqrtTwo_represents
    sqrtTwo_represents irrational_sqrt_two irrational_sqrt_two
    (by rw [Real.mul_self_sqrt (by norm_num)]; norm_num) (fun k h => hno k h.2) ?_).1.mpr ?_
  · intro R hR _
    rw [show mulResultant sqrtTwo.poly sqrtTwo.poly = some squareRes by decide +kernel] at hR
    cases hR
    exact squareFactor_right
  · rintro ⟨-, k, h, -⟩
    exact hno k h

/-- `√2` held with the interval `[-1, 2]`: at once an end of the square of the interval is `-2 = √2 * (-√2)`, and
none is `2`. -/
example : ProductEnd signlessSqrtTwo signlessSqrtTwo 0 (-2) ∧ ¬ ProductEnd signlessSqrtTwo signlessSqrtTwo 0 2 := by
  obtain ⟨s, h1, -, h3⟩ := signlessSqrtTwo_represents.intervalShrinker
  refine ⟨⟨s, s, s, s, h1, h1, rfl, rfl, Or.inl ?_⟩, ?_⟩
  · rw [h3]; decide +kernel
  · rintro ⟨s1, t1, s2, t2, e1, e2, e3, e4, e5⟩
    rw [h1] at e1 e2
    cases e1; cases e2; cases e3; cases e4
    rw [h3] at e5
    revert e5
    decide +kernel

end Algebraics
