import Verif.Props.AlgNum

/-!
# C48, `to_integer_log2` of every number

`C48_integer_log2` is about positive numbers.  The method is public and has no such restriction, so here is the
statement for all numbers.
-/

namespace Algebraics

open RealAlg

/-- C48: `to_integer_log2` never panics and finds exactly the powers of two; all other numbers, also zero and the
negative ones, give `None`. -/
theorem C48_integer_log2_all (a : RealAlg) (x : ℝ) (h : a.Represents x) :
    ∃ r, a.toIntegerLog2 = .ok r ∧ (∀ k : ℤ, r = some k ↔ x = 2 ^ k) ∧ (r = none ↔ ∀ k : ℤ, x ≠ 2 ^ k) := by
  have key : ∃ r, a.toIntegerLog2 = .ok r ∧ ∀ k : ℤ, r = some k ↔ x = 2 ^ k := by
    by_cases hx : 0 < x
    · exact C48_integer_log2 a x h hx
    · refine ⟨none, ?_, fun k => ⟨fun e => by simp at e, fun e => ?_⟩⟩
      · unfold RealAlg.toIntegerLog2
        by_cases hi : Irrational x
        · rw [h.toRationalRaw_irr hi]; rfl
        · obtain ⟨q, rfl⟩ := not_not.mp hi
          have hn : q.num ≤ 0 := Rat.num_nonpos.mpr (by exact_mod_cast not_lt.mp hx)
          rw [h.toRationalRaw_rat]
          simp only [bind, Except.bind, pure, Except.pure]
          rw [show Algebraics.floorLog2 q.num = none by unfold floorLog2; rw [if_neg (by omega)],
            if_neg (show ¬ q.num = 1 by omega)]
          simp
      · exact absurd (e ▸ zpow_pos (by norm_num) k) hx
  obtain ⟨r, h1, h2⟩ := key
  refine ⟨r, h1, h2, ⟨fun e k hk => ?_, fun hk => ?_⟩⟩
  · have := (h2 k).mpr hk
    rw [e] at this
    cases this
  · cases r with
    | none => rfl
    | some k => exact absurd ((h2 k).mp rfl) (hk k)

/-- minus four is no power of two, one quarter is -/
example : (ofInt (-4)).toIntegerLog2 = .ok none ∧ (ofRat (1 / 4)).toIntegerLog2 = .ok (some (-2)) := by
  constructor
  · obtain ⟨r, h1, -, h2⟩ := C48_integer_log2_all _ _ (ofInt_represents (-4))
    rw [h1, h2.mpr fun k e => ?_]
    have := zpow_pos (by norm_num : (0 : ℝ) < 2) k
    push_cast at e
    linarith
  · obtain ⟨r, h1, h2, -⟩ := C48_integer_log2_all _ _ (ofRat_represents (1 / 4))
    rw [h1, (h2 (-2)).mpr (by norm_num)]

end Algebraics
