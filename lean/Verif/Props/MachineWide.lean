import Verif.Spec.MachineWide
import Verif.Lemmas.MachineWide
import Verif.Props.Poly
import Verif.Props.PolyGcd
import Verif.Props.PolySturm

/-!
# C86: the width of the machine type changes no result
-/

namespace Algebraics

open Polynomial

open MachinePoly

theorem servesAsWell_of_refines {w w' : ℕ} {m m' : Overflow} (h : Refines w m w' m') : ServesAsWell w m w' m' := by
  intro p q c e
  refine ⟨fun x => add_agree h, fun x => sub_agree h, fun x => neg_agree h, fun x => addSubSingle_agree h,
    fun x => addSubSingle_agree h, fun x => mulCoeff_agree h, fun x => mul_agree h, fun x => checkedPow_agree h,
    fun x => derivative_agree h, fun x => eval_agree h, fun x => pseudoDivRem_agree h, fun x => divCoeff_agree h,
    fun x => content_agree h, fun x => primitivePart_agree h, fun x => maxNorm_agree h, fun x => manhattanNorm_agree h,
    fun x => subresultantGcd_agree h, fun x => ?_, fun x => nonzeroResultant_agree h, fun x => primitiveSturm_agree h⟩
  intro hx
  simp only [MachinePoly.resultant, Option.map_eq_some_iff] at hx ⊢
  obtain ⟨o, h1, h2⟩ := hx
  exact ⟨o, nonzeroResultant_agree h h1, h2⟩

/-- C86: with overflow checks, whatever a call returns for a type it returns for every wider type. -/
theorem C86_wider (w w' : ℕ) (h : w ≤ w') : ServesAsWell w .panics w' .panics :=
  servesAsWell_of_refines (refines_wider h)

/-- C86: whatever a call returns for a type with overflow checks it returns for every type as wide without them. -/
theorem C86_unchecked (w w' : ℕ) (hw : 0 < w) (h : w ≤ w') : ServesAsWell w .panics w' .wraps := by
  have h1 := refines_wider h
  have h2 := refines_wraps (w := w') (by omega)
  exact servesAsWell_of_refines ⟨fun a => h2.fit (h1.fit a), h1.check, h1.div⟩

/-- C86: without overflow checks a wider type may give something else: twice `x + 100` is `2 x - 56` over `i8`, but not
over `i16`. -/
theorem C86_wraps_counterexample : ¬ ServesAsWell 8 .wraps 16 .wraps := by
  intro h
  have := (h [100, 1] [100, 1] 0 0).1 [-56, 2] (by simp only [add, addSubElems]; decide +kernel)
  revert this
  simp only [add, addSubElems]
  decide +kernel

example : subresultantGcd 8 .panics [-2, 1, 1] [-4, 0, 1] = some [-2, -1] ∧
    subresultantGcd 16 .panics [-2, 1, 1] [-4, 0, 1] = some [-2, -1] ∧
    subresultantGcd 8 .panics [-9, -9, 1, 1] [7, 0, 1] = none ∧
    subresultantGcd 64 .panics [-9, -9, 1, 1] [7, 0, 1] = some [2048] := by
  refine ⟨?_, ?_, ?_, ?_⟩ <;> decide +kernel

/-- C86: overflow is the only reason for which these calls ever panic: for any two polynomials there is a width from
which on all of them return with overflow checks. -/
theorem C86_wide_enough (p q : List ℤ) (hp : p.getLast? ≠ some 0) (hq : q.getLast? ≠ some 0) :
    ∃ w₀ : ℕ, ∀ w ≥ w₀,
      (q ≠ [] → ∃ x, pseudoDivRem w .panics p q = some x) ∧
      (∃ x, MachinePoly.derivative w .panics p = some x) ∧
      (∃ x, MachinePoly.content w .panics p = some x) ∧
      (∃ x, primitivePart w .panics p = some x) ∧
      (∃ x, subresultantGcd w .panics p q = some x) ∧
      (∃ x, MachinePoly.resultant w .panics p q = some x) ∧
      (∃ x, primitiveSturmSequence w .panics p = some x) := by
  obtain ⟨f, hf, -⟩ := C20_subresultant_gcd (lift p) (lift q)
  obtain ⟨g, hg⟩ := subresultantGcd_ev hp hq hf
  have hres : ∃ r, Poly.nonzeroResultant (lift p) (lift q) = some r := by
    by_cases hu : (lift p).toPoly = 0 ∨ (lift q).toPoly = 0
    · refine ⟨none, ?_⟩
      unfold Poly.nonzeroResultant
      rw [if_pos (by simp only [Bool.or_eq_true, Poly.isZero_iff]; exact hu)]
    · push Not at hu
      exact ⟨_, C22_nonzero_resultant _ _ hu.1 hu.2⟩
  obtain ⟨r, hr⟩ := hres
  have hr := nonzeroResultant_ev hp hq hr
  have hst : ∃ l, (lift p).primitiveSturmSequence Poly.intGcd = some l := by
    by_cases hu : (lift p).toPoly = 0
    · exact ⟨[], C25_zero _ hu⟩
    · obtain ⟨l, h, -⟩ := C25_primitive_sturm _ hu
      exact ⟨l, h⟩
  obtain ⟨l, hl⟩ := hst
  obtain ⟨s, hs⟩ := primitiveSturm_ev hp hl
  obtain ⟨d, hd, -⟩ := derivative_ev p
  have hc := nonzeroContent_ev hp
  obtain ⟨pp, hpp, -⟩ := C19_primitive_part (lift p)
  have hprim : ∃ x, ∀ᶠ w in Filter.atTop, primitivePart w .panics p = some x := by
    unfold Poly.primitivePart at hpp
    unfold primitivePart
    cases hk : (lift p).nonzeroContent Poly.intGcd with
    | none =>
      rw [hk] at hc
      exact ⟨p, bind_ev hc (Filter.Eventually.of_forall fun w => rfl)⟩
    | some c =>
      rw [hk] at hpp hc
      obtain ⟨x, hx, -⟩ := divCoeff_ev hp hpp
      exact ⟨x, bind_ev hc hx⟩
  obtain ⟨x, hx⟩ := hprim
  have hpd : ∀ᶠ w in Filter.atTop, q ≠ [] → ∃ x, pseudoDivRem w .panics p q = some x := by
    by_cases h0 : q = []
    · exact Filter.Eventually.of_forall fun w h => absurd h0 h
    · obtain ⟨y, hy, -⟩ := pseudoDivRem_ev hp hq h0
      filter_upwards [hy] with w h _
      exact ⟨y, h⟩
  refine Filter.eventually_atTop.mp ?_
  filter_upwards [hpd, hd, hc, hx, hg, hr, hs] with w e1 e2 e3 e4 e5 e6 e7
  refine ⟨e1, ⟨_, e2⟩, ⟨((lift p).nonzeroContent Poly.intGcd).getD 0, ?_⟩, ⟨_, e4⟩, ⟨_, e5⟩, ⟨r.getD 0, ?_⟩, ⟨_, e7⟩⟩
  · rw [MachinePoly.content, e3]; rfl
  · rw [MachinePoly.resultant, e6]; rfl

example : ([-9, -9, 1, 1] : List ℤ).getLast? ≠ some 0 ∧ resultant 8 .panics [-9, -9, 1, 1] [7, 0, 1] = none ∧
    resultant 64 .panics [-9, -9, 1, 1] [7, 0, 1] = some 2048 := by
  refine ⟨by decide, ?_, ?_⟩ <;> decide +kernel

end Algebraics
