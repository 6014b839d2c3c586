import Verif.Lemmas.MachineAgree
import Verif.Props.PolyGcd
import Verif.Props.PolySturm

/-!
# C85: gcd, resultant and Sturm sequences of polynomials over machine integers

With overflow checks whatever is returned is exact, and then the same is returned without them.  Without them the
results may be wrong, with no sign of it.
-/

namespace Algebraics

open Polynomial

open MachinePoly

/-- C85: with overflow checks, whatever `subresultant_gcd` returns is a greatest common divisor over every field that
contains the integers. -/
theorem C85_subresultant_gcd (w : ℕ) (hw : 1 < w) (l r g : List ℤ) (hl : Valid w l) (hr : Valid w r)
    (h : subresultantGcd w .panics l r = some g) :
    Valid w g ∧ ∀ (K : Type) [Field K] (φ : ℤ →+* K), Function.Injective φ → ∀ d : K[X],
      d ∣ (listPoly g).map φ ↔ d ∣ (listPoly l).map φ ∧ d ∣ (listPoly r).map φ := by
  obtain ⟨h1, h2⟩ := subresultantGcd_exact hw hl hr h
  obtain ⟨f, h3, h4⟩ := C20_subresultant_gcd (lift l) (lift r)
  rw [h2, Option.some.injEq] at h3
  subst h3
  refine ⟨h1, fun K _ φ hφ d => ?_⟩
  simpa only [Poly.toPoly_ofCoeffs] using h4 K φ hφ d

/-- `(x + 2)(x - 1)` and `(x + 2)(x - 2)` over `i8` -/
example : Valid 8 [-2, 1, 1] ∧ Valid 8 [-4, 0, 1] ∧
    subresultantGcd 8 .panics [-2, 1, 1] [-4, 0, 1] = some [-2, -1] := by
  refine ⟨⟨by unfold InRange; decide, by decide⟩, ⟨by unfold InRange; decide, by decide⟩, ?_⟩
  decide +kernel

/-- C85: with overflow checks, whatever `resultant` returns for nonzero polynomials is the determinant of the Sylvester
matrix; `nonzero_resultant` returns `None` exactly for zero, and otherwise the same. -/
theorem C85_resultant (w : ℕ) (hw : 1 < w) (u v : List ℤ) (hu : Valid w u) (hv : Valid w v) (hu0 : u ≠ [])
    (hv0 : v ≠ []) :
    (∀ x, resultant w .panics u v = some x → InRange w x ∧
      x = (sylvester (listPoly u) (listPoly v) (listPoly u).natDegree (listPoly v).natDegree).det) ∧
    (∀ o, nonzeroResultant w .panics u v = some o → resultant w .panics u v = some (o.getD 0) ∧
      (o = none ↔ o.getD 0 = 0)) := by
  have hz : ∀ p : List ℤ, Valid w p → p ≠ [] → (lift p).toPoly ≠ 0 := by
    intro p hp h0 h
    rw [← Poly.isZero_iff, isZero_lift hp] at h
    exact h0 (by simpa using h)
  have hnr : ∀ o, nonzeroResultant w .panics u v = some o → (∀ x, o = some x → InRange w x ∧ x ≠ 0) ∧
      o.getD 0 = (sylvester (listPoly u) (listPoly v) (listPoly u).natDegree (listPoly v).natDegree).det := by
    intro o h
    have h1 := C22_nonzero_resultant (lift u) (lift v) (hz u hu hu0) (hz v hv hv0)
    rw [nonzeroResultant_exact hw hu hv h, Option.some.injEq] at h1
    rw [Poly.toPoly_ofCoeffs, Poly.toPoly_ofCoeffs] at h1
    refine ⟨?_, ?_⟩
    · rintro x rfl
      refine ⟨?_, ?_⟩
      · unfold nonzeroResultant at h
        rw [if_neg (by simp [hu0, hv0])] at h
        exact resultantLoop_inRange hw _ _ _ _ _ _ _ hu hv h
      · split_ifs at h1 with h2
        rw [Option.some.injEq] at h1
        rwa [h1]
    · rw [h1]
      split_ifs with h2
      · exact h2.symm
      · rfl
  have hr : ∀ o, nonzeroResultant w .panics u v = some o → resultant w .panics u v = some (o.getD 0) := by
    intro o h
    rw [MachinePoly.resultant, h]
    rfl
  refine ⟨fun x h => ?_, fun o h => ⟨hr o h, ?_⟩⟩
  · cases ho : nonzeroResultant w .panics u v with
    | none => rw [MachinePoly.resultant, ho] at h; cases h
    | some o =>
      rw [hr o ho, Option.some.injEq] at h
      obtain ⟨h1, h2⟩ := hnr o ho
      rw [← h]
      refine ⟨?_, h2⟩
      cases o with
      | none => exact zero_fits (by omega)
      | some y => exact (h1 y rfl).1
  · cases o with
    | none => simp
    | some y => simpa using ((hnr _ h).1 y rfl).2

/-- C85: a zero argument gives zero, with and without overflow checks. -/
theorem C85_resultant_zero (w : ℕ) (m : Overflow) (u v : List ℤ) (h : u = [] ∨ v = []) :
    resultant w m u v = some 0 ∧ nonzeroResultant w m u v = some none := by
  have : nonzeroResultant w m u v = some none := by
    unfold nonzeroResultant
    rw [if_pos (by simpa using h)]
  exact ⟨by rw [MachinePoly.resultant, this]; rfl, this⟩

example : Valid 8 [-10, 1, 1] ∧ Valid 8 [1, 1, 1] ∧ resultant 8 .panics [-10, 1, 1] [1, 1, 1] = some 121 ∧
    resultant 8 .panics [1, 1, 1] [9, 9, 9] = some 0 ∧ resultant 8 .panics [-20, 1] [1, 20] = none := by
  refine ⟨⟨by unfold InRange; decide, by decide⟩, ⟨by unfold InRange; decide, by decide⟩, ?_, ?_, ?_⟩ <;>
    decide +kernel

/-- C85: with overflow checks, whatever `to_primitive_sturm_sequence` returns starts with the polynomial and counts the
distinct real roots exactly. -/
theorem C85_primitive_sturm (w : ℕ) (hw : 1 < w) (p : List ℤ) (hp : Valid w p) (hp0 : p ≠ []) (l : List (List ℤ))
    (h : primitiveSturmSequence w .panics p = some l) :
    (∀ q ∈ l, Valid w q) ∧ l.head? = some p ∧
      ∀ a b : ℝ, a ≤ b →
        (aeval a (listPoly p) ≠ 0 ∨ aeval a (Polynomial.derivative (listPoly p)) ≠ 0) →
        (aeval b (listPoly p) ≠ 0 ∨ aeval b (Polynomial.derivative (listPoly p)) ≠ 0) →
        signChanges (l.map fun s => aeval a (listPoly s)) =
          signChanges (l.map fun s => aeval b (listPoly s)) +
            {x : ℝ | a < x ∧ x ≤ b ∧ aeval x (listPoly p) = 0}.ncard := by
  obtain ⟨h1, h2⟩ := primitiveSturm_exact hw hp h
  have hz : (lift p).toPoly ≠ 0 := by
    intro h
    rw [← Poly.isZero_iff, isZero_lift hp] at h
    exact hp0 (by simpa using h)
  obtain ⟨l', h3, -, h4⟩ := C25_primitive_sturm (lift p) hz
  rw [h2, Option.some.injEq] at h3
  subst h3
  refine ⟨h1, ?_, fun a b hab ha hb => ?_⟩
  · unfold primitiveSturmSequence at h
    match hl : p.length with
    | 0 => exact absurd (List.length_eq_zero_iff.mp hl) hp0
    | 1 =>
      rw [hl] at h
      simp only [Option.some.injEq] at h
      rw [← h]; rfl
    | n + 2 =>
      rw [hl] at h
      simp only [bind, Option.bind_eq_some_iff, pure, Option.some.injEq] at h
      obtain ⟨d, -, l', -, rfl⟩ := h
      rfl
  · have := h4 a b hab
    simp only [Poly.toPoly_ofCoeffs, List.map_map] at this
    have hmap : ∀ x : ℝ, (l.map ((fun s : Poly ℤ => aeval x s.toPoly) ∘ lift)) =
        l.map fun s => aeval x (listPoly s) := by
      intro x
      refine List.map_congr_left fun s _ => ?_
      simp only [Function.comp, Poly.toPoly_ofCoeffs]
    rw [hmap, hmap] at this
    exact this ha hb

example : Valid 8 [0, -2, 0, 1] ∧ primitiveSturmSequence 8 .panics [0, -2, 0, 1] =
    some [[0, -2, 0, 1], [-2, 0, 3], [0, 1], [1]] := by
  refine ⟨⟨by unfold InRange; decide, by decide⟩, ?_⟩
  decide +kernel

/-- C85: whatever is returned with overflow checks is also returned without them. -/
theorem C85_same_without_checks (w : ℕ) (hw : 0 < w) (l r : List ℤ) :
    (∀ g, subresultantGcd w .panics l r = some g → subresultantGcd w .wraps l r = some g) ∧
    (∀ x, resultant w .panics l r = some x → resultant w .wraps l r = some x) ∧
    (∀ o, nonzeroResultant w .panics l r = some o → nonzeroResultant w .wraps l r = some o) ∧
    (∀ s, primitiveSturmSequence w .panics l = some s → primitiveSturmSequence w .wraps l = some s) := by
  refine ⟨fun g h => subresultantGcd_agree (refines_wraps hw) h, fun x h => ?_, fun o h => nonzeroResultant_agree (refines_wraps hw) h,
    fun s h => primitiveSturm_agree (refines_wraps hw) h⟩
  simp only [MachinePoly.resultant, Option.map_eq_some_iff] at h ⊢
  obtain ⟨o, h1, h2⟩ := h
  exact ⟨o, nonzeroResultant_agree (refines_wraps hw) h1, h2⟩

/-- C85: without overflow checks `subresultant_gcd` may return a common factor of polynomials that have none: here
`-16 x - 16`, whose root -1 is not one of `x^2 + 7`. -/
theorem C85_gcd_wraps_counterexample :
    Valid 8 [-9, -9, 1, 1] ∧ Valid 8 [7, 0, 1] ∧
    subresultantGcd 8 .panics [-9, -9, 1, 1] [7, 0, 1] = none ∧
    subresultantGcd 8 .wraps [-9, -9, 1, 1] [7, 0, 1] = some [-16, -16] ∧
    (listPoly ([-16, -16] : List ℤ)).eval (-1) = 0 ∧ (listPoly ([7, 0, 1] : List ℤ)).eval (-1) = 8 := by
  refine ⟨⟨by unfold InRange; decide, by decide⟩, ⟨by unfold InRange; decide, by decide⟩, by decide +kernel,
    by decide +kernel, by norm_num [listPoly_cons], by norm_num [listPoly_cons]⟩

/-- C85: without overflow checks `resultant` may return a number that is not even the exact one cut to the width of
the type. -/
theorem C85_resultant_wraps_counterexample :
    Valid 8 [-9, -9, -9, 1] ∧ Valid 8 [-2, 0, 2] ∧
    resultant 8 .wraps [-9, -9, -9, 1] [-2, 0, 2] = some (-32) ∧
    (sylvester (listPoly ([-9, -9, -9, 1] : List ℤ)) (listPoly [-2, 0, 2])
      (listPoly ([-9, -9, -9, 1] : List ℤ)).natDegree (listPoly ([-2, 0, 2] : List ℤ)).natDegree).det = 2080 ∧
    (2080 : ℤ).bmod (2 ^ 8) = 32 := by
  have v1 : Valid 8 [-9, -9, -9, 1] := ⟨by unfold InRange; decide, by decide⟩
  have v2 : Valid 8 [-2, 0, 2] := ⟨by unfold InRange; decide, by decide⟩
  refine ⟨v1, v2, by decide +kernel, ?_, by decide +kernel⟩
  have hz : ∀ p : List ℤ, Valid 8 p → p ≠ [] → (lift p).toPoly ≠ 0 := by
    intro p hp h0 h
    rw [← Poly.isZero_iff, isZero_lift hp] at h
    exact h0 (by simpa using h)
  have h := C22_resultant_sylvester (lift [-9, -9, -9, 1]) (lift [-2, 0, 2]) (hz _ v1 (by simp)) (hz _ v2 (by simp))
  rw [Poly.toPoly_ofCoeffs, Poly.toPoly_ofCoeffs] at h
  rw [show Poly.resultant (lift [-9, -9, -9, 1]) (lift [-2, 0, 2]) = some 2080 by decide +kernel,
    Option.some.injEq] at h
  exact h.symm

/-- C85: without overflow checks the Sturm sequence of `x^3 - 5x^2 - 5x - 5` over `i8` promises three roots between -100
and 100, and there is one. -/
theorem C85_sturm_wraps_counterexample :
    Valid 8 [-5, -5, -5, 1] ∧ primitiveSturmSequence 8 .panics [-5, -5, -5, 1] = none ∧
    ∃ l, primitiveSturmSequence 8 .wraps [-5, -5, -5, 1] = some l ∧
      signChanges (l.map fun s => (listPoly s).eval (-100)) = 3 ∧
      signChanges (l.map fun s => (listPoly s).eval 100) = 0 ∧
      {x : ℝ | ((-100 : ℚ) : ℝ) < x ∧ x < ((100 : ℚ) : ℝ) ∧ aeval x (listPoly ([-5, -5, -5, 1] : List ℤ)) = 0}.ncard =
        1 := by
  have v1 : Valid 8 [-5, -5, -5, 1] := ⟨by unfold InRange; decide, by decide⟩
  refine ⟨v1, by decide +kernel, [[-5, -5, -5, 1], [-5, -10, 3], [7, 8], [1]], by decide +kernel, ?_, ?_, ?_⟩
  · norm_num [listPoly_cons]; decide +kernel
  · norm_num [listPoly_cons]; decide +kernel
  · have hz : (lift [-5, -5, -5, 1]).toPoly ≠ 0 := by
      intro h
      rw [← Poly.isZero_iff, isZero_lift v1] at h
      simp at h
    obtain ⟨l, h1, h2⟩ := C25_open_interval (lift [-5, -5, -5, 1]) hz (-100) 100 (by norm_num)
      (by rw [Poly.toPoly_ofCoeffs, aeval_def, eval₂_eq_eval_map]; norm_num [listPoly_cons])
      (by rw [Poly.toPoly_ofCoeffs, aeval_def, eval₂_eq_eval_map]; norm_num [listPoly_cons])
    rw [show (lift [-5, -5, -5, 1]).primitiveSturmSequence Poly.intGcd =
      some [lift [-5, -5, -5, 1], lift [-5, -10, 3], lift [7, 8], lift [-1]] by decide +kernel,
      Option.some.injEq] at h1
    subst h1
    simp only [Poly.toPoly_ofCoeffs, List.map_cons, List.map_nil] at h2
    have e : ∀ (x : ℚ) (q : ℤ[X]), aeval x q = (q.map (Int.castRingHom ℚ)).eval x := by
      intro x q
      rw [aeval_def, eval₂_eq_eval_map]; rfl
    simp only [e] at h2
    rw [show (signChanges [((listPoly ([-5, -5, -5, 1] : List ℤ)).map (Int.castRingHom ℚ)).eval (-100),
        ((listPoly ([-5, -10, 3] : List ℤ)).map (Int.castRingHom ℚ)).eval (-100),
        ((listPoly ([7, 8] : List ℤ)).map (Int.castRingHom ℚ)).eval (-100),
        ((listPoly ([-1] : List ℤ)).map (Int.castRingHom ℚ)).eval (-100)]) = 2 by
          norm_num [listPoly_cons]; decide +kernel,
      show (signChanges [((listPoly ([-5, -5, -5, 1] : List ℤ)).map (Int.castRingHom ℚ)).eval 100,
        ((listPoly ([-5, -10, 3] : List ℤ)).map (Int.castRingHom ℚ)).eval 100,
        ((listPoly ([7, 8] : List ℤ)).map (Int.castRingHom ℚ)).eval 100,
        ((listPoly ([-1] : List ℤ)).map (Int.castRingHom ℚ)).eval 100]) = 1 by
          norm_num [listPoly_cons]; decide +kernel] at h2
    omega

/-- C85: with overflow checks an exact result may fit and still not be returned: the resultant is -1. -/
theorem C85_fits_but_panics :
    Valid 8 [-5, -3, 2, 1] ∧ Valid 8 [-2, 1, 2] ∧ resultant 8 .panics [-5, -3, 2, 1] [-2, 1, 2] = none ∧
    (sylvester (listPoly ([-5, -3, 2, 1] : List ℤ)) (listPoly [-2, 1, 2])
      (listPoly ([-5, -3, 2, 1] : List ℤ)).natDegree (listPoly ([-2, 1, 2] : List ℤ)).natDegree).det = -1 := by
  have v1 : Valid 8 [-5, -3, 2, 1] := ⟨by unfold InRange; decide, by decide⟩
  have v2 : Valid 8 [-2, 1, 2] := ⟨by unfold InRange; decide, by decide⟩
  refine ⟨v1, v2, by decide +kernel, ?_⟩
  have hz : ∀ p : List ℤ, Valid 8 p → p ≠ [] → (lift p).toPoly ≠ 0 := by
    intro p hp h0 h
    rw [← Poly.isZero_iff, isZero_lift hp] at h
    exact h0 (by simpa using h)
  have h := C22_resultant_sylvester (lift [-5, -3, 2, 1]) (lift [-2, 1, 2]) (hz _ v1 (by simp)) (hz _ v2 (by simp))
  rw [Poly.toPoly_ofCoeffs, Poly.toPoly_ofCoeffs] at h
  rw [show Poly.resultant (lift [-5, -3, 2, 1]) (lift [-2, 1, 2]) = some (-1) by decide +kernel,
    Option.some.injEq] at h
  exact h.symm

/-- C85: without overflow checks there may be a panic all the same, from a division that leaves a remainder. -/
theorem C85_wraps_may_panic :
    Valid 8 [-5, -5, -5, 1] ∧ Valid 8 [-5, 0, 3] ∧ subresultantGcd 8 .wraps [-5, -5, -5, 1] [-5, 0, 3] = none ∧
    resultant 8 .wraps [-5, -5, -5, 1] [-5, 0, 3] = none := by
  refine ⟨⟨by unfold InRange; decide, by decide⟩, ⟨by unfold InRange; decide, by decide⟩, ?_, ?_⟩ <;> decide +kernel

end Algebraics
