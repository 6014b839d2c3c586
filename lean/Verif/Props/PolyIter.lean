import Verif.Lemmas.PolyMore
import Verif.Spec.PolyIter

/-!
# C64: iterating over the coefficients of a polynomial

For every polynomial and every history of calls of `next` and `next_back`, the two iterators
produce the coefficients from the two ends, with exact size hints, and nothing afterwards.
-/

namespace Algebraics

open Polynomial PolyCoeff

variable {T : Type} [CommRing T] [PolyCoeff T] [DecidableEq T]

theorem popBack_nil {α : Type} : popBack ([] : List α) = none := rfl

theorem popBack_of_ne {α : Type} (l : List α) (h : l ≠ []) :
    popBack l = some (l.getLast h, l.dropLast) := by
  obtain ⟨m, a, rfl⟩ : ∃ m a, l = m ++ [a] := ⟨_, _, (List.dropLast_append_getLast h).symm⟩
  simp [popBack]

omit [DecidableEq T] in
theorem PolyIter.run_eq (calls : List IterCall) : ∀ it : PolyIter T,
    it.run calls = takeEnds (it.elements.map (mkc · it.divisor)) calls := by
  induction calls with
  | nil => intro it; rfl
  | cons c cs ih =>
    rintro ⟨es, d⟩
    cases c with
    | next =>
      cases es with
      | nil => simp [PolyIter.run, PolyIter.next, popFront, takeEnds, ih, PolyIter.sizeHint]
      | cons e es => simp [PolyIter.run, PolyIter.next, popFront, takeEnds, ih, PolyIter.sizeHint]
    | nextBack =>
      by_cases h : es = []
      · subst h
        simp [PolyIter.run, PolyIter.nextBack, popBack_nil, takeEnds, ih, PolyIter.sizeHint]
      · simp [PolyIter.run, PolyIter.nextBack, popBack_of_ne _ h, takeEnds, ih, PolyIter.sizeHint,
          List.getLast?_eq_getLast_of_ne_nil h]

omit [DecidableEq T] in
theorem PolyIntoIter.run_eq_nil (calls : List IterCall) : ∀ it : PolyIntoIter T,
    it.elements = [] → it.run calls = takeEnds [] calls := by
  induction calls with
  | nil => intro it _; rfl
  | cons c cs ih =>
    rintro ⟨es, d⟩ h
    dsimp only at h
    subst h
    cases c <;> cases d <;>
      simp [PolyIntoIter.run, PolyIntoIter.next, PolyIntoIter.nextBack, PolyIntoIter.takeDivisor,
        popFront, popBack_nil, takeEnds, PolyIntoIter.sizeHint, ih]

omit [DecidableEq T] in
theorem PolyIntoIter.run_eq (calls : List IterCall) : ∀ (es : List (Elem T)) (d : Dv T),
    (PolyIntoIter.mk es (some d)).run calls = takeEnds (es.map (mkc · d)) calls := by
  induction calls with
  | nil => intro _ _; rfl
  | cons c cs ih =>
    intro es d
    cases c with
    | next =>
      match es with
      | [] => exact PolyIntoIter.run_eq_nil _ _ rfl
      | [e] =>
        simp [PolyIntoIter.run, PolyIntoIter.next, PolyIntoIter.takeDivisor, popFront, takeEnds,
          PolyIntoIter.sizeHint, PolyIntoIter.run_eq_nil]
      | e :: e' :: es =>
        simp [PolyIntoIter.run, PolyIntoIter.next, PolyIntoIter.takeDivisor, popFront, takeEnds,
          PolyIntoIter.sizeHint, ih]
    | nextBack =>
      match es with
      | [] => exact PolyIntoIter.run_eq_nil _ _ rfl
      | [e] =>
        simp [PolyIntoIter.run, PolyIntoIter.nextBack, PolyIntoIter.takeDivisor, popBack, takeEnds,
          PolyIntoIter.sizeHint, PolyIntoIter.run_eq_nil]
      | e :: e' :: es =>
        have h : (e :: e' :: es) ≠ [] := by simp
        have hl : (e :: e' :: es).length ≠ 1 := by simp
        rw [PolyIntoIter.run]
        simp only [PolyIntoIter.nextBack, PolyIntoIter.takeDivisor, if_neg hl, popBack_of_ne _ h,
          ih, PolyIntoIter.sizeHint]
        rw [takeEnds, ← List.map_dropLast, List.getLast?_map,
          List.getLast?_eq_getLast_of_ne_nil h]
        simp

theorem Poly.coeffs_eq_coefficientList (p : Poly T) : p.coeffs = coefficientList p.toPoly := by
  by_cases h : p.toPoly = 0
  · rw [(Poly.coeffs_eq_nil_iff p).mpr h, coefficientList, if_pos h]
  · rw [coefficientList, if_neg h]
    apply List.ext_getElem
    · simp [← Poly.len_eq, Poly.len_of_ne p h]
    · intro i h1 h2
      simp only [List.getElem_map, List.getElem_range]
      show _ = (listPoly p.coeffs).coeff i
      simp [listPoly_coeff, List.getElem?_eq_getElem h1]

/-- Any history of `next` and `next_back` on `iter()` takes the coefficients of the polynomial
from the two ends of the list of its coefficients; the size hint is exact after every call; after
the last coefficient every call returns `None`. -/
theorem C64_iter (p : Poly T) (calls : List IterCall) :
    p.iter.run calls = takeEnds (coefficientList p.toPoly) calls := by
  rw [← Poly.coeffs_eq_coefficientList]
  exact PolyIter.run_eq calls p.iter

/-- The same for the consuming iterator `into_iter()`, which gives away its divisor with the last
coefficient. -/
theorem C64_into_iter (p : Poly T) (calls : List IterCall) :
    p.intoIter.run calls = takeEnds (coefficientList p.toPoly) calls := by
  rw [← Poly.coeffs_eq_coefficientList]
  exact PolyIntoIter.run_eq calls _ _

/-- A `for` loop over the polynomial sees exactly its coefficients, constant term first. -/
theorem C64_drain (p : Poly T) (fuel : ℕ) (h : p.toPoly.natDegree + 2 ≤ fuel) :
    p.intoIter.drain fuel = coefficientList p.toPoly := by
  have key : ∀ (es : List (Elem T)) (d : Dv T) (fuel : ℕ), es.length + 1 ≤ fuel →
      (PolyIntoIter.mk es (some d)).drain fuel = es.map (mkc · d) := by
    intro es
    induction es with
    | nil =>
      intro d fuel hf
      obtain ⟨f, rfl⟩ : ∃ f, fuel = f + 1 := ⟨fuel - 1, by simp at hf; omega⟩
      rfl
    | cons e es ih =>
      intro d fuel hf
      simp only [List.length_cons] at hf
      obtain ⟨f, rfl⟩ : ∃ f, fuel = f + 1 := ⟨fuel - 1, by omega⟩
      cases es with
      | nil =>
        obtain ⟨f, rfl⟩ : ∃ g, f = g + 1 := ⟨f - 1, by simp at hf; omega⟩
        rfl
      | cons e' es =>
        have := ih d f (by omega)
        simp only [PolyIntoIter.drain, PolyIntoIter.next, PolyIntoIter.takeDivisor, popFront] at this ⊢
        simp [this]
  rw [← Poly.coeffs_eq_coefficientList]
  apply key
  have hl := Poly.len_eq p
  by_cases hz : p.toPoly = 0
  · have := (Poly.len_eq_zero_iff p).mpr hz
    unfold Poly.len at this
    omega
  · have := Poly.len_of_ne p hz
    unfold Poly.len at this
    omega

/-- Collecting coefficients into a polynomial gives the polynomial with these coefficients, whatever
zeros the list ends in. -/
theorem C64_collect (cs : List T) (i : ℕ) :
    (Poly.fromIterator cs).toPoly.coeff i = cs.getD i 0 := by
  have : (Poly.fromIterator cs).toPoly = listPoly cs := by
    rw [Poly.fromIterator, Poly.toPoly_normalize, elemPoly, split_val]
  rw [this, listPoly_coeff]

/-- Iterating and collecting gives the polynomial back. -/
theorem C64_round_trip (p : Poly T) (fuel : ℕ) (h : p.toPoly.natDegree + 2 ≤ fuel) :
    Poly.fromIterator (p.intoIter.drain fuel) = p := by
  apply Poly.toPoly_injective
  ext i
  rw [C64_collect, C64_drain p fuel h, ← Poly.coeffs_eq_coefficientList, ← listPoly_coeff]
  rfl

/-- Non-vacuity: `1 + 2/3*X + 5/2*X^2`, taken from both ends, then past the end. -/
example : (Poly.ofCoeffs ([1, 2 / 3, 5 / 2] : List ℚ)).intoIter.run
      [.nextBack, .next, .nextBack, .next, .nextBack] =
    [(some (5 / 2), 2, some 2), (some 1, 1, some 1), (some (2 / 3), 0, some 0),
      (none, 0, some 0), (none, 0, some 0)] := by decide +kernel

/-- Non-vacuity: a collected list with zeros at the end. -/
example : Poly.fromIterator ([1, 2 / 3, 0, 0] : List ℚ) = Poly.ofCoeffs [1, 2 / 3] := by
  decide +kernel

end Algebraics
