import Verif.Props.AlgNumPow

/-!
# Exactly when selecting a root goes wrong

`select_root` stops at the first interval with a root at one of its ends.  If the number looked for is
irrational, that root is another one.
-/

namespace Algebraics

open Polynomial

namespace RealAlg

/-- the state after `n` steps (`none` = one of them panics). -/
def stateAfter {σ : Type} (sh : σ → Option σ) : ℕ → σ → Option σ
  | 0, st => some st
  | n + 1, st => (stateAfter sh n st).bind sh

theorem stateAfter_succ {σ : Type} (sh : σ → Option σ) (n : ℕ) (st : σ) :
    stateAfter sh (n + 1) st = (sh st).bind (stateAfter sh n) := by
  induction n generalizing st with
  | zero => simp [stateAfter]
  | succ n ih =>
    rw [stateAfter, ih st]
    cases h : sh st with
    | none => rfl
    | some st' => rfl

theorem two_le_sum (f : Poly ℤ → ℕ) {l : List (Poly ℤ)} {p q : Poly ℤ} (hp : p ∈ l) (hq : q ∈ l)
    (hne : p ≠ q) (h1 : f p ≠ 0) (h2 : f q ≠ 0) : 1 < (l.map f).sum := by
  classical
  have e := (List.perm_cons_erase hp).map f |>.sum_eq
  have hq' : q ∈ l.erase p := (List.mem_erase_of_ne hne.symm).mpr hq
  have h3 : f q ≤ ((l.erase p).map f).sum :=
    List.single_le_sum (by simp) _ (List.mem_map.mpr ⟨q, hq', rfl⟩)
  rw [e, List.map_cons, List.sum_cons]
  omega

theorem selectLoop_hit {σ : Type} {g : σ → Option DFI} {sh : σ → Option σ} {Inv : σ → Prop} {v : ℝ}
    (hget : ∀ st, Inv st → ∃ i, g st = some i ∧ i.Contains v)
    (hshrink : ∀ st st', Inv st → sh st = some st' → Inv st')
    (hnest : ∀ st st' i i', Inv st → sh st = some st' → g st = some i → g st' = some i' →
      i'.Within i) (w : ℚ) (hwv : (w : ℝ) ≠ v) (k : ℕ) :
    ∀ (st : σ) (ps : List (Poly ℤ)), Inv st →
    (∀ p ∈ ps, Irreducible p.toPoly ∧ 0 < p.toPoly.leadingCoeff) →
    (∃ p ∈ ps, aeval v p.toPoly = 0) → (∃ p ∈ ps, (aeval (w : ℝ) p.toPoly : ℝ) = 0) →
    ∀ st' i, stateAfter sh k st = some st' → g st' = some i → (w = i.lowerBound ∨ w = i.upperBound) →
    (∀ j, g st = some j → j.Contains w) ∧
    ∃ q : ℚ, ∀ fuel ≥ k + 1, selectLoop g sh fuel st (ps.map seqOf) = .ok (ofRat q) := by
  classical
  induction k with
  | zero =>
    intro st ps hinv hps hv hw st' i hst hi hend
    cases hst
    obtain ⟨i', hi', hiv⟩ := hget st hinv
    rw [hi] at hi'; cases hi'
    obtain ⟨hl, hu⟩ := (DFI.contains_iff_bounds _ _).mp hiv
    have hlu : i.lowerBound ≤ i.upperBound := by exact_mod_cast hl.trans hu
    refine ⟨fun j hj => ?_, ?_⟩
    · rw [hi] at hj; cases hj
      rw [DFI.contains_iff_bounds]
      rcases hend with rfl | rfl
      · exact ⟨le_refl _, hl.trans hu⟩
      · exact ⟨hl.trans hu, le_refl _⟩
    rcases scan_spec i.lowerBound i.upperBound hlu ps (fun p hp => (hps p hp).1.ne_zero) 0 [] with
      ⟨q, h1, -⟩ | ⟨-, h2⟩
    · refine ⟨q, fun fuel hf => ?_⟩
      obtain ⟨fuel, rfl⟩ : ∃ k, fuel = k + 1 := ⟨fuel - 1, by omega⟩
      simp only [selectLoop, hi, h1]
    · obtain ⟨p, hp, hpw⟩ := hw
      rcases hend with rfl | rfl
      · exact absurd hpw (h2 p hp).1
      · exact absurd hpw (h2 p hp).2
  | succ k ih =>
    intro st ps hinv hps hv hw st' i hst hi hend
    rw [stateAfter_succ] at hst
    rcases hs : sh st with _ | st1
    · rw [hs] at hst; cases hst
    rw [hs] at hst
    obtain ⟨j, hj, hjv⟩ := hget st hinv
    have hinv1 := hshrink st st1 hinv hs
    obtain ⟨j1, hj1, -⟩ := hget st1 hinv1
    have hjw : j.Contains w :=
      hnest st st1 j j1 hinv hs hj hj1 _ ((ih st1 ps hinv1 hps hv hw st' i hst hi hend).1 j1 hj1)
    refine ⟨fun j' hj' => by rw [hj] at hj'; cases hj'; exact hjw, ?_⟩
    obtain ⟨hl, hu⟩ := (DFI.contains_iff_bounds _ _).mp hjv
    obtain ⟨wl, wu⟩ := (DFI.contains_iff_bounds _ _).mp hjw
    have hlu : j.lowerBound ≤ j.upperBound := by exact_mod_cast hl.trans hu
    rcases scan_spec j.lowerBound j.upperBound hlu ps (fun p hp => (hps p hp).1.ne_zero) 0 [] with
      ⟨q, h1, -⟩ | ⟨h1, h2⟩
    · refine ⟨q, fun fuel hf => ?_⟩
      obtain ⟨fuel, rfl⟩ : ∃ k, fuel = k + 1 := ⟨fuel - 1, by omega⟩
      simp only [selectLoop, hj, h1]
    · have hin : ∀ p ∈ ps, ∀ z : ℝ, (j.lowerBound : ℝ) ≤ z → z ≤ j.upperBound → aeval z p.toPoly = 0 →
          (j.lowerBound : ℝ) < z ∧ z < j.upperBound := by
        intro p hp z z1 z2 hz
        refine ⟨lt_of_le_of_ne z1 fun e => ?_, lt_of_le_of_ne z2 fun e => ?_⟩
        · exact (h2 p hp).1 (by rw [e]; exact hz)
        · exact (h2 p hp).2 (by rw [← e]; exact hz)
      have hmem : ∀ p ∈ ps, ∀ z : ℝ, (j.lowerBound : ℝ) ≤ z → z ≤ j.upperBound → aeval z p.toPoly = 0 →
          rootCount j.lowerBound j.upperBound p ≠ 0 := by
        intro p hp z z1 z2 hz
        unfold rootCount
        rw [Ne, Set.ncard_eq_zero (rootSet_between_finite _ _ _ (hps p hp).1.ne_zero)]
        exact Set.Nonempty.ne_empty ⟨z, (hin p hp z z1 z2 hz).1, (hin p hp z z1 z2 hz).2, hz⟩
      obtain ⟨p, hp, hpv⟩ := hv
      obtain ⟨p', hp', hpw⟩ := hw
      have hsum : 1 < (ps.map (rootCount j.lowerBound j.upperBound)).sum := by
        by_cases he : p = p'
        · subst he
          have h3 : rootCount j.lowerBound j.upperBound p ≤
              (ps.map (rootCount j.lowerBound j.upperBound)).sum :=
            List.single_le_sum (by simp) _ (List.mem_map.mpr ⟨p, hp, rfl⟩)
          refine lt_of_lt_of_le ?_ h3
          unfold rootCount
          rw [Set.one_lt_ncard (rootSet_between_finite _ _ _ (hps p hp).1.ne_zero)]
          exact ⟨v, ⟨(hin p hp v hl hu hpv).1, (hin p hp v hl hu hpv).2, hpv⟩, w,
            ⟨(hin p hp w wl wu hpw).1, (hin p hp w wl wu hpw).2, hpw⟩, hwv.symm⟩
        · exact two_le_sum _ hp hp' he (hmem p hp v hl hu hpv) (hmem p' hp' w wl wu hpw)
      obtain ⟨-, q, hq⟩ := ih st1 (ps.filter fun p => rootCount j.lowerBound j.upperBound p ≠ 0) hinv1
        (fun p hp => hps p (List.mem_filter.mp hp).1)
        ⟨p, List.mem_filter.mpr ⟨hp, by simpa using hmem p hp v hl hu hpv⟩, hpv⟩
        ⟨p', List.mem_filter.mpr ⟨hp', by simpa using hmem p' hp' w wl wu hpw⟩, hpw⟩ st' i hst hi hend
      refine ⟨q, fun fuel hf => ?_⟩
      obtain ⟨fuel, rfl⟩ : ∃ k, fuel = k + 1 := ⟨fuel - 1, by omega⟩
      simp only [selectLoop, hj, h1, zero_add, List.nil_append]
      rw [if_neg (by omega)]
      simp only [hs]
      exact hq fuel (by omega)

/-- `select_root` finds an irrational number exactly if no end of any of the intervals is a root; if
one is, a rational number is returned. -/
theorem selectRoot_exact_iff {σ : Type} {g : σ → Option DFI} {sh : σ → Option σ} {Inv : σ → Prop} {v : ℝ}
    (hget : ∀ st, Inv st → ∃ i, g st = some i ∧ i.Contains v)
    (hshrink : ∀ st st', Inv st → sh st = some st' → Inv st')
    (hnest : ∀ st st' i i', Inv st → sh st = some st' → g st = some i → g st' = some i' →
      i'.Within i)
    (F : FactorCall) (R : Poly ℤ) (hR : R.toPoly ≠ 0) (r : Poly.Factors) (hF : F R = .ok r)
    (hr : FactorsOf r R.toPoly) (hv : aeval v R.toPoly = 0) (hirr : Irrational v) (st : σ)
    (hinv : Inv st) :
    (∀ fuel c, selectRoot g sh F fuel st R = .ok c → (∀ k st' i, stateAfter sh k st = some st' →
      g st' = some i → (aeval (i.lowerBound : ℝ) R.toPoly : ℝ) ≠ 0 ∧
        (aeval (i.upperBound : ℝ) R.toPoly : ℝ) ≠ 0) → c.Represents v) ∧
    ((∃ k st' i, ∃ w : ℚ, stateAfter sh k st = some st' ∧ g st' = some i ∧
      (w = i.lowerBound ∨ w = i.upperBound) ∧ (aeval (w : ℝ) R.toPoly : ℝ) = 0) →
      ∃ N, ∃ q : ℚ, ∀ fuel ≥ N, selectRoot g sh F fuel st R = .ok (ofRat q)) := by
  constructor
  · intro fuel c h hno
    have hreach : ∀ k st', stateAfter sh k st = some st' → Inv st' := by
      intro k
      induction k with
      | zero => intro st' h; cases h; exact hinv
      | succ k ih =>
        intro st' h
        rw [stateAfter] at h
        obtain ⟨st1, h1, h2⟩ := Option.bind_eq_some_iff.mp h
        exact hshrink _ _ (ih st1 h1) h2
    rcases selectRoot_returns (Inv := fun k st' => stateAfter sh k st = some st') fuel
      (fun k st' i _ hk hi => by
        obtain ⟨i', hi', h1⟩ := hget st' (hreach k st' hk)
        rw [hi] at hi'; cases hi'; exact h1)
      (fun k st1 st2 h1 h2 => by simp only [stateAfter, h1, Option.bind_some, h2]) F R hR r hF hr hv st rfl c h
      with h1 | ⟨q, -, -, h2, k, st', i, h3, h4, h5⟩
    · exact h1
    · exfalso
      obtain ⟨e1, e2⟩ := hno k st' i h3 h4
      rcases h5 with rfl | rfl
      · exact e1 h2
      · exact e2 h2
  · rintro ⟨k, st', i, w, h1, h2, h3, h4⟩
    obtain ⟨e, he, hev⟩ := factors_root hr hR v hv
    obtain ⟨e', he', hew⟩ := factors_root hr hR w h4
    obtain ⟨-, q, hq⟩ := selectLoop_hit hget hshrink hnest w (fun e => hirr ⟨w, e⟩) k st
      (r.factors.map (·.1)) hinv (by
        intro p hp
        obtain ⟨e, he, rfl⟩ := List.mem_map.mp hp
        exact ⟨hr.irreducible e he, hr.positive e he⟩) ⟨e.1, List.mem_map.mpr ⟨e, he, rfl⟩, hev⟩
      ⟨e'.1, List.mem_map.mpr ⟨e', he', rfl⟩, hew⟩ st' i h1 h2 h3
    refine ⟨k + 1, q, fun fuel hf => ?_⟩
    rw [selectRoot_eq_loop F R r hF hr]
    exact hq fuel hf

end RealAlg

end Algebraics
