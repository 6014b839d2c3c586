import Verif.Spec.AlgNum
import Verif.Props.PolySturm
import Verif.Lemmas.Interval
import Verif.Props.Poly
import Mathlib.RingTheory.Polynomial.GaussLemma
import Mathlib.NumberTheory.Real.Irrational

/-!
# Lemmas for algebraic numbers: sign changes, shrinking
-/

namespace Algebraics

open Polynomial

/-! ## Counting sign changes -/

theorem sign_new_none (v : ℚ) : Sign.new v = none ↔ v = 0 := by
  unfold Sign.new
  rcases lt_trichotomy v 0 with h | h | h
  · simp [h, h.ne]
  · simp [h]
  · simp [h.ne', h.not_gt, h]

theorem sign_new_eq_iff {v w : ℚ} (hv : v ≠ 0) (hw : w ≠ 0) :
    Sign.new v = Sign.new w ↔ ¬ v * w < 0 := by
  unfold Sign.new
  rcases lt_or_gt_of_ne hv with h | h <;> rcases lt_or_gt_of_ne hw with h' | h'
  · simp [h, h', (mul_pos_of_neg_of_neg h h').le]
  · simp [h, h', h'.not_gt, mul_neg_of_neg_of_pos h h']
  · simp [h, h', h.not_gt, mul_neg_of_pos_of_neg h h']
  · simp [h, h', h.not_gt, h'.not_gt, (mul_pos h h').le]

theorem signChangesLoop_isRoot (sign : Poly ℤ → Option Sign) (l : List (Poly ℤ)) :
    ∀ (last : Option Sign) (r : SignChanges), r.isRoot = true →
      (signChangesLoop sign l last r).isRoot = true := by
  induction l with
  | nil => intro last r h; exact h
  | cons p l ih =>
    intro last r h
    unfold signChangesLoop
    cases sign p with
    | none =>
      apply ih
      by_cases h' : last = none
      · rw [if_pos h']
      · rw [if_neg h']; exact h
    | some s =>
      apply ih
      by_cases h' : last ≠ some s
      · rw [if_pos h']; exact h
      · rw [if_neg h']; exact h

theorem signChangesLoop_some (v : Poly ℤ → ℚ) (l : List (Poly ℤ)) :
    ∀ (x : ℚ) (_ : x ≠ 0) (r : SignChanges),
      signChangesLoop (fun p => Sign.new (v p)) l (Sign.new x) r =
        ⟨r.count + signChanges (x :: l.map v), r.isRoot⟩ := by
  induction l with
  | nil => intro x hx r; simp [signChangesLoop, signChanges, adjacentSignChanges, hx]
  | cons p l ih =>
    intro x hx r
    unfold signChangesLoop
    by_cases hp : v p = 0
    · rw [(sign_new_none _).mpr hp]
      have hl : Sign.new x ≠ none := fun h => hx ((sign_new_none _).mp h)
      simp only [if_neg hl]
      rw [ih x hx r]
      simp [signChanges, hp, hx]
    · obtain ⟨s, hs⟩ : ∃ s, Sign.new (v p) = some s := by
        cases h : Sign.new (v p) with
        | none => exact absurd ((sign_new_none _).mp h) hp
        | some s => exact ⟨s, rfl⟩
      rw [hs]
      simp only
      rw [← hs, ih (v p) hp]
      have hsc : signChanges (x :: (p :: l).map v) =
          (if x * v p < 0 then 1 else 0) + signChanges (v p :: l.map v) := by
        simp [signChanges, hx, hp, adjacentSignChanges]
      rw [hsc]
      by_cases h : x * v p < 0
      · rw [if_pos (by rw [Ne, sign_new_eq_iff hx hp]; simpa using h), if_pos h]
        simp only [SignChanges.mk.injEq, and_true]
        omega
      · rw [if_neg (by rw [Ne, not_not, sign_new_eq_iff hx hp]; exact h), if_neg h]
        simp

/-- value of a polynomial at the point -/
def atVal : ValueOrZero → ℚ
  | .value q => q
  | .zero => 0

theorem signAt_eq (at_ : ValueOrZero) :
    signAt at_ = fun p => Sign.new (aeval (atVal at_) p.toPoly : ℚ) := by
  funext p
  cases at_ with
  | value q =>
    unfold signAt atVal
    simp only
    have := C18_eval_generic_rational p q
    rw [aeval_def, eval₂_eq_eval_map]
    exact congrArg _ this
  | zero =>
    unfold signAt atVal
    simp only
    rw [Poly.coefficient_eq]
    have h : (aeval (0 : ℚ) p.toPoly : ℚ) = ((p.toPoly.coeff 0 : ℤ) : ℚ) := by
      rw [aeval_def, eval₂_at_zero]; rfl
    rw [h]
    generalize p.toPoly.coeff 0 = c
    unfold Sign.new
    rcases lt_trichotomy c 0 with h | h | h
    · simp [h, Int.cast_lt_zero.mpr h]
    · simp [h]
    · simp [h, h.not_gt, (Int.cast_pos (R := ℚ).mpr h).not_gt]

theorem signChangesAt_spec (p : Poly ℤ) (l : List (Poly ℤ)) (at_ : ValueOrZero) :
    ((signChangesAt (p :: l) at_).isRoot = true ↔ (aeval (atVal at_) p.toPoly : ℚ) = 0) ∧
    ((aeval (atVal at_) p.toPoly : ℚ) ≠ 0 →
      (signChangesAt (p :: l) at_).count =
        1 + signChanges ((p :: l).map fun s => (aeval (atVal at_) s.toPoly : ℚ))) := by
  unfold signChangesAt
  rw [signAt_eq]
  unfold signChangesLoop
  by_cases hp : (aeval (atVal at_) p.toPoly : ℚ) = 0
  · simp only
    rw [(sign_new_none _).mpr hp]
    simp only [if_true]
    refine ⟨?_, fun h => absurd hp h⟩
    rw [signChangesLoop_isRoot _ _ _ _ rfl]
    simp [hp]
  · obtain ⟨s, hs⟩ : ∃ s, Sign.new (aeval (atVal at_) p.toPoly : ℚ) = some s := by
      cases h : Sign.new (aeval (atVal at_) p.toPoly : ℚ) with
      | none => exact absurd ((sign_new_none _).mp h) hp
      | some s => exact ⟨s, rfl⟩
    simp only
    rw [hs]
    simp only
    rw [← hs, signChangesLoop_some (fun s => (aeval (atVal at_) s.toPoly : ℚ)) l _ hp]
    rw [if_pos (by rw [hs]; simp)]
    refine ⟨by simp [hp], fun _ => by simp⟩

/-- the Sturm sequence of a nonzero polynomial and what the sign changes say about it -/
theorem sturm_counts (p : Poly ℤ) (hp : p.toPoly ≠ 0) :
    ∃ l, p.primitiveSturmSequence Poly.intGcd = some l ∧ l.head? = some p ∧
      (∀ at_, ((signChangesAt l at_).isRoot = true ↔ (aeval (atVal at_) p.toPoly : ℚ) = 0)) ∧
      ∀ a b, atVal a ≤ atVal b → (aeval (atVal a) p.toPoly : ℚ) ≠ 0 →
        (aeval (atVal b) p.toPoly : ℚ) ≠ 0 →
        (signChangesAt l a).count = (signChangesAt l b).count +
          {x : ℝ | (atVal a : ℝ) < x ∧ x < atVal b ∧ aeval x p.toPoly = 0}.ncard := by
  obtain ⟨l, h1, h2, -⟩ := C25_primitive_sturm p hp
  refine ⟨l, h1, h2, ?_, ?_⟩
  · intro at_
    cases l with
    | nil => simp at h2
    | cons q l =>
      obtain rfl : q = p := by simpa using h2
      exact (signChangesAt_spec q l at_).1
  · intro a b hab ha hb
    cases l with
    | nil => simp at h2
    | cons q l =>
      obtain rfl : q = p := by simpa using h2
      rw [(signChangesAt_spec q l a).2 ha, (signChangesAt_spec q l b).2 hb]
      rcases hab.eq_or_lt with h | h
      · rw [h]
        have : {x : ℝ | ((atVal b : ℚ) : ℝ) < x ∧ x < (atVal b : ℚ) ∧ aeval x q.toPoly = 0} = ∅ := by
          ext x; simp only [Set.mem_ofPred_eq, Set.mem_empty_iff_false, iff_false]
          rintro ⟨h, h', -⟩; exact lt_asymm h h'
        rw [this]; simp
      · obtain ⟨l', h3, h4⟩ := C25_open_interval q hp _ _ h ha hb
        obtain rfl : q :: l = l' := by rw [h1] at h3; simpa using h3
        rw [h4]; omega

/-! ## Representations -/

theorem irreducible_no_rat_root {p : ℤ[X]} (hp : Irreducible p) (hd : 2 ≤ p.natDegree) (q : ℚ) :
    (aeval q p : ℚ) ≠ 0 := by
  intro h
  have hprim : p.IsPrimitive := hp.isPrimitive (by omega)
  have hirr : Irreducible (p.map (Int.castRingHom ℚ)) :=
    (IsPrimitive.Int.irreducible_iff_irreducible_map_cast hprim).mp hp
  have hroot : IsRoot (p.map (Int.castRingHom ℚ)) q := by
    rw [IsRoot.def, ← eval₂_eq_eval_map]; exact h
  have h1 := degree_eq_one_of_irreducible_of_root hirr hroot
  have h2 : (p.map (Int.castRingHom ℚ)).natDegree = p.natDegree :=
    natDegree_map_eq_of_injective Int.cast_injective p
  have h3 : (p.map (Int.castRingHom ℚ)).natDegree = 1 := natDegree_eq_of_degree_eq_some h1
  omega

theorem aeval_rat_real (q : ℚ) (p : ℤ[X]) : (aeval (q : ℝ) p : ℝ) = ((aeval q p : ℚ) : ℝ) :=
  aeval_algebraMap_apply ℝ q p

theorem aeval_rat_real_eq_zero (q : ℚ) (p : ℤ[X]) :
    (aeval (q : ℝ) p : ℝ) = 0 ↔ (aeval q p : ℚ) = 0 := by
  rw [aeval_rat_real]; exact_mod_cast Iff.rfl

namespace DFI

theorem lowerBound_real (a : DFI) : ((a.lowerBound : ℚ) : ℝ) = (a.lo : ℝ) / 2 ^ a.log2Denom := by
  simp [lowerBound, shl]

theorem upperBound_real (a : DFI) : ((a.upperBound : ℚ) : ℝ) = (a.hi : ℝ) / 2 ^ a.log2Denom := by
  simp [upperBound, shl]

theorem contains_iff_bounds (a : DFI) (x : ℝ) :
    a.Contains x ↔ (a.lowerBound : ℝ) ≤ x ∧ x ≤ (a.upperBound : ℝ) := by
  rw [lowerBound_real, upperBound_real]; rfl

theorem lowerBound_le_upperBound (a : DFI) : a.lowerBound ≤ a.upperBound ↔ a.lo ≤ a.hi := by
  unfold lowerBound upperBound
  have h : (0 : ℚ) < (shl 1 a.log2Denom : ℤ) := by simp [shl]
  rw [div_le_div_iff_of_pos_right h]
  exact_mod_cast Iff.rfl

theorem width_eq (a : DFI) : a.width = a.upperBound - a.lowerBound := by
  simp [width, lowerBound, upperBound, shl, sub_div]

end DFI

namespace RealAlg.Represents

variable {a : RealAlg} {x : ℝ}

theorem ne_zero (h : a.Represents x) : a.poly.toPoly ≠ 0 := h.irreducible.ne_zero

theorem natDegree_pos (h : a.Represents x) : 0 < a.poly.toPoly.natDegree := by
  by_contra h0
  have h1 : a.poly.toPoly.natDegree = 0 := by omega
  rw [natDegree_eq_zero] at h1
  obtain ⟨c, hc⟩ := h1
  have h2 := h.root
  rw [← hc, aeval_C] at h2
  have h3 : c = 0 := by simpa using h2
  exact h.ne_zero (by rw [← hc, h3, C_0])

theorem lower_le (h : a.Represents x) : (a.interval.lowerBound : ℝ) ≤ x :=
  ((DFI.contains_iff_bounds _ _).mp h.mem).1

theorem le_upper (h : a.Represents x) : x ≤ (a.interval.upperBound : ℝ) :=
  ((DFI.contains_iff_bounds _ _).mp h.mem).2

theorem lo_le_hi (h : a.Represents x) : a.interval.lo ≤ a.interval.hi := h.mem.ordered

theorem unique {y : ℝ} (h : a.Represents x) (h' : a.Represents y) : x = y :=
  h'.isolated x h.mem h.root

/-- a smaller interval around the number represents it too -/
theorem within (h : a.Represents x) {i : DFI} (hi : i.Within a.interval) (hx : i.Contains x) :
    (⟨a.poly, i⟩ : RealAlg).Represents x :=
  ⟨h.irreducible, h.positive, h.root, hx, fun y hy hr => h.isolated y (hi y hy) hr⟩

theorem no_rat_root (h : a.Represents x) (hd : 2 ≤ a.poly.toPoly.natDegree) (q : ℚ) :
    (aeval q a.poly.toPoly : ℚ) ≠ 0 := irreducible_no_rat_root h.irreducible hd q

theorem irrational (h : a.Represents x) (hd : 2 ≤ a.poly.toPoly.natDegree) : Irrational x := by
  rintro ⟨q, rfl⟩
  exact h.no_rat_root hd q ((aeval_rat_real_eq_zero _ _).mp h.root)

end RealAlg.Represents

/-! ## Shrinking -/

/-- the shrinker belongs to the root `x` of `p`, and its caches hold what they should -/
structure Shrinker.Valid (p : Poly ℤ) (x : ℝ) (s : Shrinker) : Prop where
  seq : p.primitiveSturmSequence Poly.intGcd = some s.seq
  rep : RealAlg.Represents ⟨p, s.interval⟩ x
  lower : ∀ c, s.lower = some c → c = signChangesAt s.seq (.value s.interval.lowerBound)
  upper : ∀ c, s.upper = some c → c = signChangesAt s.seq (.value s.interval.upperBound)

namespace Shrinker

variable {p : Poly ℤ} {x : ℝ} {s : Shrinker}

theorem Valid.lowerSignChanges (h : s.Valid p x) :
    s.lowerSignChanges = signChangesAt s.seq (.value s.interval.lowerBound) := by
  unfold Shrinker.lowerSignChanges
  cases hc : s.lower with
  | none => rfl
  | some c => exact h.lower c hc

theorem Valid.upperSignChanges (h : s.Valid p x) :
    s.upperSignChanges = signChangesAt s.seq (.value s.interval.upperBound) := by
  unfold Shrinker.upperSignChanges
  cases hc : s.upper with
  | none => rfl
  | some c => exact h.upper c hc

theorem Valid.counts (h : s.Valid p x) :
    (∀ q : ℚ, ((signChangesAt s.seq (.value q)).isRoot = true ↔ (aeval (q : ℝ) p.toPoly : ℝ) = 0)) ∧
      ∀ a b : ℚ, a ≤ b → (aeval (a : ℝ) p.toPoly : ℝ) ≠ 0 → (aeval (b : ℝ) p.toPoly : ℝ) ≠ 0 →
        (signChangesAt s.seq (.value a)).count = (signChangesAt s.seq (.value b)).count +
          {x : ℝ | (a : ℝ) < x ∧ x < b ∧ aeval x p.toPoly = 0}.ncard := by
  obtain ⟨l, h1, -, h3, h4⟩ := sturm_counts p h.rep.ne_zero
  obtain rfl : s.seq = l := by have := h.seq; rw [h1] at this; simpa using this.symm
  refine ⟨fun q => ?_, fun a b hab ha hb => ?_⟩
  · rw [aeval_rat_real_eq_zero]; exact h3 (.value q)
  · exact h4 (.value a) (.value b) hab (fun h => ha ((aeval_rat_real_eq_zero _ _).mpr h))
      (fun h => hb ((aeval_rat_real_eq_zero _ _).mpr h))

/-- number of roots strictly between two points of the interval -/
theorem Valid.ncard_roots (h : s.Valid p x) {a b : ℚ} (ha : s.interval.lowerBound ≤ a)
    (hb : b ≤ s.interval.upperBound) :
    {y : ℝ | (a : ℝ) < y ∧ y < b ∧ aeval y p.toPoly = 0}.ncard =
      if (a : ℝ) < x ∧ x < b then 1 else 0 := by
  have hu : ∀ y : ℝ, (a : ℝ) < y ∧ y < b ∧ aeval y p.toPoly = 0 → y = x := by
    rintro y ⟨h1, h2, h3⟩
    refine h.rep.isolated y ((DFI.contains_iff_bounds _ _).mpr ⟨?_, ?_⟩) h3
    · exact le_trans (by exact_mod_cast ha) h1.le
    · exact le_trans h2.le (by exact_mod_cast hb)
  by_cases hx : (a : ℝ) < x ∧ x < b
  · rw [if_pos hx]
    have : {y : ℝ | (a : ℝ) < y ∧ y < b ∧ aeval y p.toPoly = 0} = {x} := by
      ext y
      simp only [Set.mem_ofPred_eq, Set.mem_singleton_iff]
      exact ⟨hu y, fun hy => by subst hy; exact ⟨hx.1, hx.2, h.rep.root⟩⟩
    rw [this, Set.ncard_singleton]
  · rw [if_neg hx]
    have : {y : ℝ | (a : ℝ) < y ∧ y < b ∧ aeval y p.toPoly = 0} = ∅ := by
      ext y
      simp only [Set.mem_ofPred_eq, Set.mem_empty_iff_false, iff_false]
      intro hy
      have := hu y hy
      subst this
      exact hx ⟨hy.1, hy.2.1⟩
    rw [this, Set.ncard_empty]

theorem tdiv_two_between {lo hi : ℤ} (h : lo + 2 ≤ hi) :
    lo < (lo + hi).tdiv 2 ∧ (lo + hi).tdiv 2 < hi ∧
      2 * ((lo + hi).tdiv 2 - lo) ≤ hi - lo + 1 ∧ 2 * (hi - (lo + hi).tdiv 2) ≤ hi - lo + 1 ∧
      (2 ∣ lo + hi → 2 * (lo + hi).tdiv 2 = lo + hi) := by
  rw [Int.tdiv_eq_ediv]
  split_ifs with h0
  · omega
  · have : (2 : ℤ).sign = 1 := rfl
    rw [this]
    omega

/-- what one shrink step does: relation between the old and the new shrinker -/
structure Step (p : Poly ℤ) (x : ℝ) (s t : Shrinker) : Prop where
  valid : t.Valid p x
  lower : s.interval.lowerBound ≤ t.interval.lowerBound
  upper : t.interval.upperBound ≤ s.interval.upperBound
  width : t.interval.width ≤ 17 / 32 * s.interval.width
  denom : s.interval.log2Denom ≤ t.interval.log2Denom

theorem within_of_bounds {a b : DFI} (h1 : a.lowerBound ≤ b.lowerBound)
    (h2 : b.upperBound ≤ a.upperBound) : b.Within a := by
  intro y hy
  rw [DFI.contains_iff_bounds] at hy ⊢
  exact ⟨le_trans (by exact_mod_cast h1) hy.1, le_trans hy.2 (by exact_mod_cast h2)⟩

/-- `[lo, hi] / 2^n` with the numerators in integer form -/
theorem bound_le_iff (a b : ℤ) (n : ℕ) :
    (a : ℚ) / (shl 1 n : ℤ) ≤ (b : ℚ) / (shl 1 n : ℤ) ↔ a ≤ b := by
  have h : (0 : ℚ) < (shl 1 n : ℤ) := by simp [shl]
  rw [div_le_div_iff_of_pos_right h]
  exact_mod_cast Iff.rfl

/-- a step with the denominator unchanged, from the numerators -/
theorem Valid.step {t : Shrinker} (h : s.Valid p x) (hseq : t.seq = s.seq)
    (hn : t.interval.log2Denom = s.interval.log2Denom)
    (hlo : s.interval.lo ≤ t.interval.lo) (hhi : t.interval.hi ≤ s.interval.hi)
    (hw : 32 * (t.interval.hi - t.interval.lo) ≤ 17 * (s.interval.hi - s.interval.lo))
    (hx : t.interval.Contains x)
    (hl : ∀ c, t.lower = some c → c = signChangesAt s.seq (.value t.interval.lowerBound))
    (hu : ∀ c, t.upper = some c → c = signChangesAt s.seq (.value t.interval.upperBound)) :
    Step p x s t := by
  have h1 : s.interval.lowerBound ≤ t.interval.lowerBound := by
    unfold DFI.lowerBound; rw [hn, bound_le_iff]; exact hlo
  have h2 : t.interval.upperBound ≤ s.interval.upperBound := by
    unfold DFI.upperBound; rw [hn, bound_le_iff]; exact hhi
  refine ⟨⟨by rw [hseq]; exact h.seq, h.rep.within (within_of_bounds h1 h2) hx, ?_, ?_⟩, h1, h2, ?_,
    hn.ge⟩
  · rw [hseq]; exact hl
  · rw [hseq]; exact hu
  · unfold DFI.width
    rw [hn, ← mul_div_assoc, div_le_div_iff_of_pos_right (by positivity)]
    have : (32 : ℚ) * ((t.interval.hi : ℚ) - t.interval.lo) ≤
        17 * ((s.interval.hi : ℚ) - s.interval.lo) := by exact_mod_cast hw
    linarith

/-- `s` with both caches filled is as good as `s` -/
theorem Valid.halve (h : s.Valid p x) {lc uc : SignChanges}
    (hlc : lc = signChangesAt s.seq (.value s.interval.lowerBound))
    (huc : uc = signChangesAt s.seq (.value s.interval.upperBound))
    (hl0 : (aeval (s.interval.lowerBound : ℝ) p.toPoly : ℝ) ≠ 0)
    (hu0 : (aeval (s.interval.upperBound : ℝ) p.toPoly : ℝ) ≠ 0)
    (hw : s.interval.lo + 2 ≤ s.interval.hi)
    (hw' : 2 ∣ s.interval.lo + s.interval.hi ∨ s.interval.lo + 16 ≤ s.interval.hi) :
    ∃ t r, s.halve lc uc = some (t, r) ∧ Step p x s t := by
  obtain ⟨hm1, hm2, hm3, hm4, hm5⟩ := tdiv_two_between hw
  unfold Shrinker.halve
  simp only
  set m := (s.interval.lo + s.interval.hi).tdiv 2 with hm
  set mid : ℚ := (m : ℚ) / (shl 1 s.interval.log2Denom : ℤ) with hmid
  have hlm : s.interval.lowerBound ≤ mid := (bound_le_iff _ _ _).mpr hm1.le
  have hmu : mid ≤ s.interval.upperBound := (bound_le_iff _ _ _).mpr hm2.le
  have hwl : 32 * (m - s.interval.lo) ≤ 17 * (s.interval.hi - s.interval.lo) := by
    rcases hw' with h | h
    · have := hm5 h; omega
    · omega
  have hwu : 32 * (s.interval.hi - m) ≤ 17 * (s.interval.hi - s.interval.lo) := by
    rcases hw' with h | h
    · have := hm5 h; omega
    · omega
  obtain ⟨hroot, hcount⟩ := h.counts
  have hxl : (s.interval.lowerBound : ℝ) < x := lt_of_le_of_ne h.rep.lower_le
    fun e => hl0 (by rw [e]; exact h.rep.root)
  have hxu : x < (s.interval.upperBound : ℝ) := lt_of_le_of_ne h.rep.le_upper
    fun e => hu0 (by rw [← e]; exact h.rep.root)
  by_cases hr : (signChangesAt s.seq (.value mid)).isRoot = true
  · rw [if_pos hr]
    have hmx : (mid : ℝ) = x := by
      refine h.rep.isolated _ ((DFI.contains_iff_bounds _ _).mpr ⟨?_, ?_⟩) ((hroot mid).mp hr)
      · exact_mod_cast hlm
      · exact_mod_cast hmu
    refine ⟨_, _, rfl, h.step rfl rfl hm1.le hm2.le ?_ ?_ ?_ ?_⟩
    · simp only [setToDyadicFraction, DFI.fromDyadicFraction]; omega
    · rw [DFI.contains_iff_bounds]
      exact ⟨hmx.le, hmx.ge⟩
    · intro c hc
      exact (Option.some.inj hc).symm
    · intro c hc
      exact (Option.some.inj hc).symm
  · rw [if_neg hr]
    have hm0 : (aeval (mid : ℝ) p.toPoly : ℝ) ≠ 0 := fun e => hr ((hroot mid).mpr e)
    have hc1 := hcount _ _ hlm hl0 hm0
    have hc2 := hcount _ _ hmu hm0 hu0
    rw [h.ncard_roots le_rfl hmu] at hc1
    rw [h.ncard_roots hlm le_rfl] at hc2
    rw [hlc, huc]
    by_cases hxm : x < mid
    · rw [if_pos ⟨hxl, hxm⟩] at hc1
      rw [if_neg (fun e => lt_asymm e.1 hxm)] at hc2
      rw [if_neg (by omega), if_pos (by omega)]
      unfold setUpperBound DFI.setUpperBoundNumer
      rw [if_pos hm1.le]
      refine ⟨_, _, rfl, h.step rfl rfl le_rfl hm2.le hwl ?_ h.lower ?_⟩
      · rw [DFI.contains_iff_bounds]
        exact ⟨hxl.le, hxm.le⟩
      · intro c hc
        exact (Option.some.inj hc).symm
    · have hxm' : (mid : ℝ) < x := lt_of_le_of_ne (not_lt.mp hxm)
        fun e => hm0 (by rw [e]; exact h.rep.root)
      rw [if_neg (fun e => lt_asymm e.2 hxm')] at hc1
      rw [if_pos (by omega)]
      unfold setLowerBound DFI.setLowerBoundNumer
      rw [if_pos hm2.le]
      refine ⟨_, _, rfl, h.step rfl rfl hm1.le le_rfl hwu ?_ ?_ h.upper⟩
      · rw [DFI.contains_iff_bounds]
        exact ⟨hxm'.le, hxu.le⟩
      · intro c hc
        exact (Option.some.inj hc).symm

theorem Valid.shrinkRefined (h : s.Valid p x) (hw : s.interval.lo + 2 ≤ s.interval.hi)
    (hw' : 2 ∣ s.interval.lo + s.interval.hi ∨ s.interval.lo + 16 ≤ s.interval.hi) :
    ∃ t r, s.shrinkRefined = some (t, r) ∧ Step p x s t := by
  obtain ⟨hroot, hcount⟩ := h.counts
  have hlu : s.interval.lowerBound ≤ s.interval.upperBound :=
    (DFI.lowerBound_le_upperBound _).mpr (by omega)
  unfold Shrinker.shrinkRefined
  simp only
  rw [h.lowerSignChanges]
  by_cases hl : (signChangesAt s.seq (.value s.interval.lowerBound)).isRoot = true
  · rw [if_pos hl]
    have hx : (s.interval.lowerBound : ℝ) = x :=
      h.rep.isolated _ ((DFI.contains_iff_bounds _ _).mpr ⟨le_rfl, by exact_mod_cast hlu⟩)
        ((hroot _).mp hl)
    unfold setUpperBound DFI.setUpperBoundNumer
    rw [if_pos le_rfl]
    refine ⟨_, _, rfl, h.step rfl rfl le_rfl (by simp only; omega) (by simp only; omega) ?_ ?_ ?_⟩
    · rw [DFI.contains_iff_bounds]
      exact ⟨hx.le, hx.ge⟩
    · intro c hc
      exact (Option.some.inj hc).symm
    · intro c hc
      exact (Option.some.inj hc).symm
  · rw [if_neg hl]
    have hl0 : (aeval (s.interval.lowerBound : ℝ) p.toPoly : ℝ) ≠ 0 := fun e => hl ((hroot _).mpr e)
    have hus : ({ s with lower := some (signChangesAt s.seq (.value s.interval.lowerBound)) } :
        Shrinker).upperSignChanges = signChangesAt s.seq (.value s.interval.upperBound) :=
      h.upperSignChanges
    rw [hus]
    by_cases hu : (signChangesAt s.seq (.value s.interval.upperBound)).isRoot = true
    · rw [if_pos hu]
      have hx : (s.interval.upperBound : ℝ) = x :=
        h.rep.isolated _ ((DFI.contains_iff_bounds _ _).mpr ⟨by exact_mod_cast hlu, le_rfl⟩)
          ((hroot _).mp hu)
      unfold setLowerBound DFI.setLowerBoundNumer
      rw [if_pos le_rfl]
      refine ⟨_, _, rfl, h.step rfl rfl (by simp only; omega) le_rfl (by simp only; omega) ?_ ?_ ?_⟩
      · rw [DFI.contains_iff_bounds]
        exact ⟨hx.le, hx.ge⟩
      · intro c hc
        exact (Option.some.inj hc).symm
      · intro c hc
        exact (Option.some.inj hc).symm
    · rw [if_neg hu]
      have hu0 : (aeval (s.interval.upperBound : ℝ) p.toPoly : ℝ) ≠ 0 :=
        fun e => hu ((hroot _).mpr e)
      have hxl : (s.interval.lowerBound : ℝ) < x := lt_of_le_of_ne h.rep.lower_le
        fun e => hl0 (by rw [e]; exact h.rep.root)
      have hxu : x < (s.interval.upperBound : ℝ) := lt_of_le_of_ne h.rep.le_upper
        fun e => hu0 (by rw [← e]; exact h.rep.root)
      have hc := hcount _ _ hlu hl0 hu0
      rw [h.ncard_roots le_rfl le_rfl, if_pos ⟨hxl, hxu⟩] at hc
      rw [if_pos (by unfold distance; rw [hc]; simp)]
      have hv : Valid p x { s with
          lower := some (signChangesAt s.seq (.value s.interval.lowerBound))
          upper := some (signChangesAt s.seq (.value s.interval.upperBound)) } :=
        ⟨h.seq, h.rep, fun c hc => by exact (Option.some.inj hc).symm, fun c hc => by exact (Option.some.inj hc).symm⟩
      obtain ⟨t, r, h1, h2⟩ := hv.halve rfl rfl hl0 hu0 hw hw'
      exact ⟨t, r, h1, ⟨h2.valid, h2.lower, h2.upper, h2.width, h2.denom⟩⟩

theorem convert_succ (a : DFI) : a.convertLog2Denom (a.log2Denom + 1) =
    ⟨2 * a.lo, 2 * a.hi, a.log2Denom + 1⟩ := by
  unfold DFI.convertLog2Denom convertLog2DenomFloor convertLog2DenomCeil
  rw [if_pos (by omega), if_pos (by omega)]
  simp [shl, mul_comm]

/-- C42: a shrink step of a valid shrinker does not panic, keeps the root and the isolation, does not
enlarge the interval, and multiplies the width by at most 17/32. -/
theorem Valid.shrink (h : s.Valid p x) : ∃ t r, s.shrink = some (t, r) ∧ Step p x s t := by
  have ho := h.rep.lo_le_hi
  simp only at ho
  unfold Shrinker.shrink
  simp only
  rw [if_neg (by omega)]
  by_cases h0 : s.interval.hi - s.interval.lo = 0
  · rw [if_pos h0]
    refine ⟨_, _, rfl, h, le_rfl, le_rfl, ?_, le_rfl⟩
    have : (s.interval.hi : ℚ) - s.interval.lo = 0 := by exact_mod_cast h0
    simp [DFI.width, this]
  · rw [if_neg h0]
    by_cases h16 : s.interval.hi - s.interval.lo < 16
    · rw [if_pos h16, convert_succ]
      have hlb : DFI.lowerBound ⟨2 * s.interval.lo, 2 * s.interval.hi, s.interval.log2Denom + 1⟩ =
          s.interval.lowerBound := by
        simp [DFI.lowerBound, shl, pow_succ]; field_simp
      have hub : DFI.upperBound ⟨2 * s.interval.lo, 2 * s.interval.hi, s.interval.log2Denom + 1⟩ =
          s.interval.upperBound := by
        simp [DFI.upperBound, shl, pow_succ]; field_simp
      have hv : Valid p x { s with interval :=
          ⟨2 * s.interval.lo, 2 * s.interval.hi, s.interval.log2Denom + 1⟩ } := by
        refine ⟨h.seq, h.rep.within (within_of_bounds hlb.ge hub.le) ?_, ?_, ?_⟩
        · rw [DFI.contains_iff_bounds]
          simp only
          rw [hlb, hub]
          exact ⟨h.rep.lower_le, h.rep.le_upper⟩
        · simp only
          rw [hlb]; exact h.lower
        · simp only
          rw [hub]; exact h.upper
      obtain ⟨t, r, h1, h2⟩ := hv.shrinkRefined (by simp only; omega) (Or.inl (by simp only; omega))
      refine ⟨t, r, h1, h2.valid, ?_, ?_, ?_, ?_⟩
      · have := h2.lower; simp only at this; rwa [hlb] at this
      · have := h2.upper; simp only at this; rwa [hub] at this
      · have := h2.width
        simp only at this
        rw [DFI.width_eq s.interval, ← hlb, ← hub, ← DFI.width_eq]
        exact this
      · have := h2.denom; simp only at this; omega
    · rw [if_neg h16]
      exact h.shrinkRefined (by omega) (Or.inr (by omega))

end Shrinker

end Algebraics
