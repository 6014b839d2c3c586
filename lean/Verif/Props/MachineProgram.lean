import Verif.Lemmas.MachineProgram

/-!
# C87: programs of any length over machine polynomials

Whatever the operations, their number and their order: with overflow checks every result is exact; without them every
result is the exact one cut to the width of the type, so overflows on the way do no harm as long as the last result fits.
-/

namespace Algebraics

open Polynomial

open MachinePoly

/-- C87: with overflow checks, all the results of a program that gets to its end are exact. -/
theorem C87_checks (w : ℕ) (hw : 0 < w) (prog : List Op) (ht : Typed w prog) (out : List (List ℤ))
    (h : run w .panics prog = some out) :
    out.map listPoly = values prog ∧ ∀ p ∈ out, Valid w p := by
  have t := Tracks.runFrom hw (blind_panics w) prog [] [] out ht (tracks_nil _) h
  have hv : valuesFrom [] prog = values prog := rfl
  rw [hv] at t
  refine ⟨List.ext_getElem (by simp [t.len]) fun i h1 h2 => ?_, fun p hp => ?_⟩
  · have := t.eq i
    rw [List.length_map] at h1
    simpa [List.getD_eq_getElem?_getD, h1, h2] using this
  · obtain ⟨i, hi, rfl⟩ := List.mem_iff_getElem.mp hp
    have := t.valid i
    simpa [List.getD_eq_getElem?_getD, hi] using this

/-- C87: without overflow checks, every result of a program that gets to its end is the exact one with its coefficients
cut to `w` bits; and a program that takes no derivative always gets to its end. -/
theorem C87_wraps (w : ℕ) (hw : 0 < w) (prog : List Op) (ht : Typed w prog) :
    (∀ out, run w .wraps prog = some out →
      out.length = prog.length ∧ ∀ i, CutFrom w (out.getD i []) ((values prog).getD i 0)) ∧
    ((∀ i, Op.derivative i ∉ prog) → ∃ out, run w .wraps prog = some out) := by
  refine ⟨fun out h => ?_, fun h => runFrom_wraps prog h []⟩
  have t := Tracks.runFrom hw (blind_wraps w) prog [] [] out ht (tracks_nil _) h
  have hl : ∀ vs : List ℤ[X], (valuesFrom vs prog).length = vs.length + prog.length := by
    clear t h ht out
    induction prog with
    | nil => intro vs; rfl
    | cons o os ih =>
      intro vs
      have := ih (vs ++ [o.value vs])
      simp only [valuesFrom, List.foldl_cons, List.length_append, List.length_cons, List.length_nil] at this ⊢
      omega
  refine ⟨by rw [t.len, hl]; simp, fun i => cut_of_hom hw (t.valid i) (t.eq i)⟩

/-- C87: overflows on the way do no harm.  Without overflow checks, a result whose exact value fits the type is exact,
whatever happened to the results it was computed from. -/
theorem C87_overflow_on_the_way (w : ℕ) (hw : 0 < w) (prog : List Op) (ht : Typed w prog) (out : List (List ℤ))
    (h : run w .wraps prog = some out) (i : ℕ) (hi : ∀ n, InRange w (((values prog).getD i 0).coeff n)) :
    listPoly (out.getD i []) = (values prog).getD i 0 := by
  ext n
  rw [(((C87_wraps w hw prog ht).1 out h).2 i).2 n, bmod_of_inRange hw (hi n)]

/-- three operations over `i8`: `x + 100`, twice that, and the double minus the first -/
def overAndBack : List Op := [.lit [100, 1], .add 0 0, .sub 1 0]

example : Typed 8 overAndBack ∧ run 8 .panics overAndBack = none ∧
    run 8 .wraps overAndBack = some [[100, 1], [-56, 2], [100, 1]] ∧
    run 16 .panics overAndBack = some [[100, 1], [200, 2], [100, 1]] ∧
    ∀ n, InRange 8 (((values overAndBack).getD 2 0).coeff n) := by
  refine ⟨?_, ?_, ?_, ?_, ?_⟩
  · intro p hp
    have : p = [100, 1] := by simpa [overAndBack] using hp
    subst this
    exact ⟨by unfold InRange; decide, by decide⟩
  · have e1 : add 8 .panics [100, 1] [100, 1] = none := by simp only [add, addSubElems]; decide +kernel
    simp [run, runFrom, overAndBack, Op.run, e1]
  · have e1 : add 8 .wraps [100, 1] [100, 1] = some [-56, 2] := by simp only [add, addSubElems]; decide +kernel
    have e2 : MachinePoly.sub 8 .wraps [-56, 2] [100, 1] = some [100, 1] := by
      simp only [MachinePoly.sub, addSubElems]; decide +kernel
    simp [run, runFrom, overAndBack, Op.run, e1, e2]
  · have e1 : add 16 .panics [100, 1] [100, 1] = some [200, 2] := by simp only [add, addSubElems]; decide +kernel
    have e2 : MachinePoly.sub 16 .panics [200, 2] [100, 1] = some [100, 1] := by
      simp only [MachinePoly.sub, addSubElems]; decide +kernel
    simp [run, runFrom, overAndBack, Op.run, e1, e2]
  · have : (values overAndBack).getD 2 0 = listPoly [100, 1] := by
      simp [values, overAndBack, Op.value]
    intro n
    rw [this, listPoly_coeff]
    rcases n with _ | _ | n <;> simp [InRange]

/-- C87: with overflow checks, whatever a program returns for a type it returns for every wider type, with or without
the checks. -/
theorem C87_wider (w w' : ℕ) (hw : 0 < w) (h : w ≤ w') (prog : List Op) (out : List (List ℤ))
    (hr : run w .panics prog = some out) :
    run w' .panics prog = some out ∧ run w' .wraps prog = some out := by
  have h1 := runFrom_agree (refines_wider h) prog [] out hr
  exact ⟨h1, runFrom_agree (refines_wraps (w := w') (by omega)) prog [] out h1⟩

/-- C87: every program gets to its end with overflow checks, for every type that is wide enough, and the results do not
depend on the type. -/
theorem C87_wide_enough (prog : List Op) (hp : ∀ p, Op.lit p ∈ prog → p.getLast? ≠ some 0) :
    ∃ (w₀ : ℕ) (out : List (List ℤ)), (∀ w ≥ w₀, run w .panics prog = some out) ∧ out.map listPoly = values prog := by
  obtain ⟨out, ho⟩ := runFrom_ev prog hp [] (by simp)
  have ht : ∀ᶠ w in Filter.atTop, Typed w prog := by
    clear ho
    induction prog with
    | nil => exact Filter.Eventually.of_forall fun w p h => by simp at h
    | cons o os ih =>
      have h2 := ih fun p h => hp p (List.mem_cons_of_mem _ h)
      cases o with
      | lit q =>
        filter_upwards [h2, valid_ev (hp q (by simp))] with w e1 e2 p h
        rcases List.mem_cons.mp h with h | h
        · cases h; exact e2.2
        · exact e1 p h
      | _ =>
        filter_upwards [h2] with w e1 p h
        rcases List.mem_cons.mp h with h | h
        · cases h
        · exact e1 p h
  obtain ⟨w₀, h₀⟩ := Filter.eventually_atTop.mp (ho.and (ht.and (Filter.eventually_gt_atTop 0)))
  exact ⟨w₀, out, fun w hw => (h₀ w hw).1, (C87_checks w₀ (h₀ w₀ le_rfl).2.2 prog (h₀ w₀ le_rfl).2.1 out (h₀ w₀ le_rfl).1).1⟩

end Algebraics
