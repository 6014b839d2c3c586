import Verif.Lemmas.MachineContent

/-!
# C84: content, primitive part and norms of polynomials over machine integers
-/

namespace Algebraics

open Polynomial

open MachinePoly

/-- C84: the content.  Whatever is returned is the exact one; without overflow checks there is always a result; with
them it panics exactly when, from some coefficient after the first one on, all that have been read are 0 or the
smallest number of the type, and not all are 0. -/
theorem C84_content (w : ℕ) (hw : 0 < w) (p : List ℤ) (hp : Valid w p) (hne : p ≠ []) :
    (∀ m v, content w m p = some v → InRange w v ∧ IsContent p (listPoly p).leadingCoeff v) ∧
    (∃ v, content w .wraps p = some v) ∧
    (content w .panics p = none ↔ ∃ k, 2 ≤ k ∧ k ≤ p.length ∧
      (∀ c ∈ p.take k, c = 0 ∨ c = -2 ^ (w - 1)) ∧ -2 ^ (w - 1) ∈ p.take k) := by
  cases p with
  | nil => exact absurd rfl hne
  | cons a as =>
    have hnone : ∀ m, as.foldlM (gcd w m) a = none → content w m (a :: as) = none := by
      intro m h
      simp only [MachinePoly.content, nonzeroContent, h, bind, Option.bind_none]
    have hsome : ∀ m r, as.foldlM (gcd w m) a = some r → ∃ v, content w m (a :: as) = some v ∧
        InRange w v ∧ IsContent (a :: as) (listPoly (a :: as)).leadingCoeff v := by
      intro m r h
      obtain ⟨v, h1, h2⟩ := nonzeroContent_of_fold hw hp h
      exact ⟨v, by simp only [MachinePoly.content, h1, bind, Option.bind_some, pure, Option.getD_some], h2⟩
    refine ⟨fun m v h => ?_, ?_, ?_⟩
    · cases hf : as.foldlM (gcd w m) a with
      | none => rw [hnone m hf] at h; cases h
      | some r =>
        obtain ⟨v', h1, h2⟩ := hsome m r hf
        rw [h1, Option.some.injEq] at h
        exact h ▸ h2
    · obtain ⟨r, hr⟩ := fold_wraps (w := w) as a
      obtain ⟨v, h1, -⟩ := hsome _ r hr
      exact ⟨v, h1⟩
    · have hiff : content w .panics (a :: as) = none ↔ as.foldlM (gcd w .panics) a = none := by
        constructor
        · intro h
          cases hf : as.foldlM (gcd w .panics) a with
          | none => rfl
          | some r =>
            obtain ⟨v, h1, -⟩ := hsome _ r hf
            rw [h1] at h
            cases h
        · exact hnone _
      rw [hiff, fold_panics hw as a (hp.1 a (by simp)) hp.tail]
      constructor
      · rintro ⟨k, k1, k2, k3, k4⟩
        exact ⟨k + 1, by omega, by simpa using k2, by simpa using k3, by simpa using k4⟩
      · rintro ⟨k, k1, k2, k3, k4⟩
        obtain ⟨k, rfl⟩ : ∃ j, k = j + 1 := ⟨k - 1, by omega⟩
        exact ⟨k, by omega, by simpa using k2, by simpa using k3, by simpa using k4⟩

/-- C84: the content of the zero polynomial is 0. -/
theorem C84_content_zero (w : ℕ) (m : Overflow) : content w m [] = some 0 ∧ primitivePart w m [] = some [] := by
  constructor <;> rfl

example : Valid 8 [-128, 64, 96, -32] ∧ content 8 .panics [-128, 64, 96, -32] = some (-32) ∧
    content 8 .panics [0, -128, 3] = none ∧ content 8 .wraps [0, -128, 3] = some 1 ∧
    content 8 .wraps [0, -128] = some (-128) ∧ content 8 .panics [-128] = some (-128) := by
  refine ⟨⟨by unfold InRange; decide, by decide⟩, ?_, ?_, ?_, ?_, ?_⟩ <;> decide +kernel

/-- C84: the primitive part.  Whatever is returned times the content is the polynomial; its leading coefficient is
positive and its coefficients have no common divisor.  There is no result exactly when the content is none, or when
the content is -1 and a coefficient is the smallest number of the type. -/
theorem C84_primitive_part (w : ℕ) (hw : 0 < w) (m : Overflow) (p : List ℤ) (hp : Valid w p) (hne : p ≠ []) :
    (∀ q, primitivePart w m p = some q → Valid w q ∧ 0 < (listPoly q).leadingCoeff ∧
      (∀ d, (∀ c ∈ q, d ∣ c) → IsUnit d) ∧ ∃ v, content w m p = some v ∧ C v * listPoly q = listPoly p) ∧
    (primitivePart w m p = none ↔
      content w m p = none ∨ content w m p = some (-1) ∧ -2 ^ (w - 1) ∈ p) := by
  have hcont : ∀ v, content w m p = some v ↔ nonzeroContent w m p = some (some v) := by
    intro v
    cases p with
    | nil => exact absurd rfl hne
    | cons a as =>
      have hn : nonzeroContent w m (a :: as) ≠ some none := by
        simp only [nonzeroContent, bind, pure]
        cases List.foldlM (gcd w m) a as with
        | none => simp
        | some r =>
          simp only [Option.bind_some]
          split_ifs
          · cases m.fit w (0 - r) <;> simp
          · simp
      simp only [MachinePoly.content, bind, pure]
      cases h : nonzeroContent w m (a :: as) with
      | none => simp
      | some o =>
        cases o with
        | none => exact absurd h hn
        | some v' => simp
  have hspec := (C84_content w hw p hp hne).1 m
  obtain ⟨l1, l2, l3⟩ := leadingCoeff_getLastD hp hne
  cases hc : content w m p with
  | none =>
    have hn : nonzeroContent w m p = none := by
      cases h : nonzeroContent w m p with
      | none => rfl
      | some o => simp [MachinePoly.content, h] at hc
    have : primitivePart w m p = none := by simp [MachinePoly.primitivePart, hn]
    rw [this]
    exact ⟨by simp, by simp⟩
  | some v =>
    have hv := (hcont v).mp hc
    obtain ⟨hr, s1, s2, s3⟩ := hspec v hc
    have hv0 : v ≠ 0 := by rintro rfl; simp at s3
    have hpp : primitivePart w m p = (p.mapM fun e => exactDivPrim (.signed w) e v).map normalize := by
      simp only [MachinePoly.primitivePart, hv, bind, Option.bind_some, pure]
      cases p.mapM fun e => exactDivPrim (.signed w) e v <;> rfl
    rw [hpp]
    refine ⟨fun q h => ?_, ?_⟩
    · simp only [Option.map_eq_some_iff] at h
      obtain ⟨q', h1, rfl⟩ := h
      obtain ⟨e1, e2, e3, e4⟩ := divMap_some p q' h1
      have hid : C v * listPoly (normalize q') = listPoly p := by
        rw [MachinePoly.normalize, listPoly_stripZeros, e2]
      refine ⟨e1.valid, ?_, ?_, v, rfl, hid⟩
      · have hlead : (listPoly p).leadingCoeff = v * (listPoly (normalize q')).leadingCoeff := by
          rw [← hid, leadingCoeff_mul, leadingCoeff_C]
        rw [hlead] at s3
        have hsq : 0 < v * v := mul_self_pos.mpr hv0
        by_contra hneg
        nlinarith
      · intro d hd
        have hdv : d * v ∣ v := by
          apply s2
          intro c hcp
          obtain ⟨n, hn, rfl⟩ := List.mem_iff_getElem.mp hcp
          have hco := congrArg (fun p => p.coeff n) hid
          simp only [coeff_C_mul, listPoly_coeff] at hco
          have hcn : p.getD n 0 = p[n] := by
            rw [List.getD_eq_getElem?_getD, List.getElem?_eq_getElem hn]; rfl
          rw [← hcn, ← hco, mul_comm d v]
          apply mul_dvd_mul_left
          by_cases hl : n < (normalize q').length
          · rw [List.getD_eq_getElem?_getD, List.getElem?_eq_getElem hl]
            exact hd _ (List.getElem_mem hl)
          · rw [List.getD_eq_getElem?_getD, List.getElem?_eq_none (Nat.not_lt.mp hl)]
            exact dvd_zero d
        obtain ⟨k, hk⟩ := hdv
        refine IsUnit.of_mul_eq_one k ?_
        apply mul_left_cancel₀ hv0
        linarith [hk]
    · rw [Option.map_eq_none_iff, divMap_none hw hv0 p hp.allFit s1]
      simp

example : Valid 8 [-128, 64, 96, -32] ∧ primitivePart 8 .panics [-128, 64, 96, -32] = some [4, -2, -3, 1] ∧
    primitivePart 8 .wraps [-128, 1, -1] = none ∧ primitivePart 8 .wraps [-128, 1, 1] = some [-128, 1, 1] ∧
    primitivePart 8 .wraps [0, -128] = some [0, 1] := by
  refine ⟨⟨by unfold InRange; decide, by decide⟩, ?_, ?_, ?_, ?_⟩ <;> decide +kernel

/-- C84: the sum of the absolute values of the coefficients.  With overflow checks it is exact or a panic, and a panic
exactly when it does not fit; without them it is cut to `w` bits. -/
theorem C84_manhattan_norm (w : ℕ) (hw : 0 < w) (p : List ℤ) (hp : Valid w p) :
    (∀ v, manhattanNorm w .panics p = some v → v = (p.map fun c => |c|).sum) ∧
    (manhattanNorm w .panics p = none ↔ 2 ^ (w - 1) ≤ (p.map fun c => |c|).sum) ∧
    manhattanNorm w .wraps p = some ((p.map fun c => |c|).sum.bmod (2 ^ w)) := by
  have hpp : (0 : ℤ) < 2 ^ (w - 1) := by positivity
  cases p with
  | nil =>
    refine ⟨by simp [manhattanNorm], by simp [manhattanNorm], by simp [manhattanNorm]⟩
  | cons a as =>
    have key : manhattanNorm w .panics (a :: as) = if ((a :: as).map fun c => |c|).sum < 2 ^ (w - 1) then
        some ((a :: as).map fun c => |c|).sum else none := by
      have hs := sumAbs_nonneg as
      have ha0 := abs_nonneg a
      simp only [manhattanNorm, List.map_cons, List.sum_cons]
      by_cases h1 : |a| < 2 ^ (w - 1)
      · have hr : InRange w |a| := ⟨by omega, h1⟩
        have ha : MachinePoly.abs w .panics a = some |a| := fit_panics hr
        rw [ha]
        simp only [bind, Option.bind_some]
        exact manhattan_fold_panics hw as hp.tail |a| (abs_nonneg a) hr
      · have ha : MachinePoly.abs w .panics a = none := fit_panics_none (fun hr => h1 hr.2)
        rw [ha, if_neg (by omega)]
        rfl
    refine ⟨fun v h => ?_, ?_, ?_⟩
    · rw [key] at h
      split_ifs at h
      simpa using h.symm
    · rw [key]
      split_ifs with h <;> simp at h ⊢ <;> omega
    · simp only [manhattanNorm, MachinePoly.abs, fit_wraps, bind, Option.bind_some, List.map_cons, List.sum_cons]
      have := manhattan_fold_wraps (w := w) as (|a|.bmod (2 ^ w)) |a| rfl
      simp only [MachinePoly.abs, fit_wraps, bind, Option.bind_some] at this
      exact this

/-- C84: the largest absolute value of a coefficient.  With overflow checks it is exact or a panic, and a panic exactly
when a coefficient is the smallest number of the type; without them such coefficients are as good as not there, unless
there are no others. -/
theorem C84_max_norm (w : ℕ) (hw : 0 < w) (p : List ℤ) (hp : Valid w p) :
    (∀ v, maxNorm w .panics p = some v → IsMaxNorm p v) ∧
    (maxNorm w .panics p = none ↔ -2 ^ (w - 1) ∈ p) ∧
    ∃ v, maxNorm w .wraps p = some v ∧
      (-2 ^ (w - 1) ∉ p → IsMaxNorm p v) ∧
      (-2 ^ (w - 1) ∈ p → (∀ c ∈ p, c ≠ -2 ^ (w - 1) → |c| ≤ v) ∧
        ((∃ c ∈ p, c ≠ -2 ^ (w - 1) ∧ |c| = v) ∨ (∀ c ∈ p, c = -2 ^ (w - 1)) ∧ v = -2 ^ (w - 1))) := by
  have hpp : (0 : ℤ) < 2 ^ (w - 1) := by positivity
  have hmax : ∀ l : List ℤ, (match l with | [] => some (0 : ℤ) | a :: as => some (as.foldl max a)) =
      some (match l with | [] => (0 : ℤ) | a :: as => as.foldl max a) := by
    intro l; cases l <;> rfl
  have hgood : ∀ m : Overflow, -2 ^ (w - 1) ∉ p → p.mapM (MachinePoly.abs w m) = some (p.map fun c => |c|) := by
    intro m hm
    have : ∀ l : List ℤ, (∀ c ∈ l, c ∈ p) → l.mapM (MachinePoly.abs w m) = some (l.map fun c => |c|) := by
      intro l
      induction l with
      | nil => intro _; rfl
      | cons c l ih =>
        intro hl
        have hc := hp.1 c (hl c (by simp))
        have hcm : c ≠ -2 ^ (w - 1) := fun h => hm (h ▸ hl c (by simp))
        have hr : InRange w |c| :=
          ⟨by have := abs_nonneg c; omega, lt_of_le_of_ne (abs_top hc).1 (fun h => hcm ((abs_top hc).2.mp h))⟩
        have ha : MachinePoly.abs w m c = some |c| := by
          cases m with
          | panics => exact fit_panics hr
          | wraps => rw [MachinePoly.abs, fit_wraps, bmod_of_inRange hw hr]
        rw [List.mapM_cons, ha, ih (fun x hx => hl x (by simp [hx]))]
        rfl
    exact this p (fun _ h => h)
  have hnorm : ∀ m : Overflow, -2 ^ (w - 1) ∉ p → ∃ v, maxNorm w m p = some v ∧ IsMaxNorm p v := by
    intro m hm
    cases p with
    | nil => exact ⟨0, rfl, by simp [IsMaxNorm]⟩
    | cons a as =>
      refine ⟨(as.map fun c => |c|).foldl max |a|, ?_, ?_⟩
      · simp only [maxNorm, hgood m hm, bind, Option.bind_some, List.map_cons, pure]
      · obtain ⟨h1, h2⟩ := foldl_max_spec (as.map fun c => |c|) |a|
        refine ⟨fun c hc => h1 _ ?_, .inr ?_⟩
        · rcases List.mem_cons.mp hc with rfl | hc
          · simp
          · exact List.mem_cons_of_mem _ (List.mem_map.mpr ⟨c, hc, rfl⟩)
        · rcases List.mem_cons.mp h2 with h | h
          · exact ⟨a, by simp, h.symm⟩
          · obtain ⟨c, hc, he⟩ := List.mem_map.mp h
            exact ⟨c, by simp [hc], he⟩
  have hbad : -2 ^ (w - 1) ∈ p → maxNorm w .panics p = none := by
    intro hm
    have : p.mapM (MachinePoly.abs w .panics) = none := by
      cases h : p.mapM (MachinePoly.abs w .panics) with
      | none => rfl
      | some l =>
        have := (mapM_isSome (w := w) (fun c => |c|) p).mp (by
          show (p.mapM (MachinePoly.abs w .panics)).isSome
          rw [h]; rfl) _ hm
        have := this.2
        simp at this
    simp only [maxNorm, this, bind, Option.bind_none]
  refine ⟨fun v h => ?_, ⟨fun h => ?_, hbad⟩, ?_⟩
  · by_cases hm : -2 ^ (w - 1) ∈ p
    · rw [hbad hm] at h; cases h
    · obtain ⟨v', h1, h2⟩ := hnorm .panics hm
      rw [h1, Option.some.injEq] at h
      exact h ▸ h2
  · by_contra hm
    obtain ⟨v', h1, -⟩ := hnorm .panics hm
    rw [h1] at h
    cases h
  · by_cases hm : -2 ^ (w - 1) ∈ p
    · have habs : ∀ c ∈ p, (|c|).bmod (2 ^ w) = if c = -2 ^ (w - 1) then c else |c| := by
        intro c hc
        have hc' := hp.1 c hc
        split_ifs with h
        · rcases fit_top (m := .wraps) (g := |c|) hw (abs_nonneg c) (abs_top hc').1 with ⟨h1, -⟩ | ⟨-, h2⟩
          · exact absurd ((abs_top hc').2.mpr h) (by omega)
          · rw [fit_wraps, Option.some.injEq] at h2
            rw [h2, h]
        · exact bmod_of_inRange hw
            ⟨by have := abs_nonneg c; omega, lt_of_le_of_ne (abs_top hc').1 (fun h' => h ((abs_top hc').2.mp h'))⟩
      have hmap : ∀ l : List ℤ, l.mapM (MachinePoly.abs w .wraps) = some (l.map fun c => (|c|).bmod (2 ^ w)) := by
        intro l
        induction l with
        | nil => rfl
        | cons c l ih => rw [List.mapM_cons, MachinePoly.abs, fit_wraps, ih]; rfl
      cases p with
      | nil => simp at hm
      | cons a as =>
        refine ⟨(as.map fun c => (|c|).bmod (2 ^ w)).foldl max ((|a|).bmod (2 ^ w)), ?_, fun h => absurd hm h,
          fun _ => ?_⟩
        · simp only [maxNorm, hmap, bind, Option.bind_some, List.map_cons, pure]
        · obtain ⟨h1, h2⟩ := foldl_max_spec (as.map fun c => (|c|).bmod (2 ^ w)) ((|a|).bmod (2 ^ w))
          generalize (as.map fun c => (|c|).bmod (2 ^ w)).foldl max ((|a|).bmod (2 ^ w)) = v at h1 h2
          rw [← List.map_cons (f := fun c : ℤ => (|c|).bmod (2 ^ w))] at h1 h2
          have hle : ∀ c ∈ a :: as, c ≠ -2 ^ (w - 1) → |c| ≤ v := by
            intro c hc hcm
            have := h1 _ (List.mem_map.mpr ⟨c, hc, rfl⟩)
            rwa [habs c hc, if_neg hcm] at this
          refine ⟨hle, ?_⟩
          obtain ⟨c, hc, he⟩ := List.mem_map.mp h2
          rw [habs c hc] at he
          split_ifs at he with hcm
          · right
            refine ⟨fun x hx => ?_, by rw [← he, hcm]⟩
            by_contra hxm
            have := hle x hx hxm
            have := abs_nonneg x
            omega
          · exact .inl ⟨c, hc, hcm, he⟩
    · obtain ⟨v, h1, h2⟩ := hnorm .wraps hm
      exact ⟨v, h1, fun _ => h2, fun h => absurd h hm⟩

example : Valid 8 [3, -100, 7] ∧ maxNorm 8 .panics [3, -100, 7] = some 100 ∧
    manhattanNorm 8 .panics [3, -100, 7] = some 110 ∧ maxNorm 8 .wraps [5, -128] = some 5 ∧
    maxNorm 8 .panics [5, -128] = none ∧ manhattanNorm 8 .wraps [100, 100] = some (-56) := by
  refine ⟨⟨by unfold InRange; decide, by decide⟩, ?_, ?_, ?_, ?_, ?_⟩ <;> decide +kernel

end Algebraics
