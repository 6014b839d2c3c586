import Verif.Lemmas.AlgNumLoops

/-!
# Lemmas for algebraic numbers: selecting a root of a resultant
-/

namespace Algebraics

open Polynomial

namespace RealAlg

/-- the Sturm sequence of a polynomial -/
def seqOf (p : Poly ℤ) : List (Poly ℤ) := (p.primitiveSturmSequence Poly.intGcd).getD []

theorem seqOf_spec (p : Poly ℤ) (hp : p.toPoly ≠ 0) :
    p.primitiveSturmSequence Poly.intGcd = some (seqOf p) ∧ (seqOf p).head? = some p ∧
      (∀ q : ℚ, ((signChangesAt (seqOf p) (.value q)).isRoot = true ↔
        (aeval (q : ℝ) p.toPoly : ℝ) = 0)) ∧
      ∀ a b : ℚ, a ≤ b → (aeval (a : ℝ) p.toPoly : ℝ) ≠ 0 → (aeval (b : ℝ) p.toPoly : ℝ) ≠ 0 →
        (signChangesAt (seqOf p) (.value a)).count = (signChangesAt (seqOf p) (.value b)).count +
          {x : ℝ | (a : ℝ) < x ∧ x < b ∧ aeval x p.toPoly = 0}.ncard := by
  obtain ⟨l, h1, h2, h3, h4⟩ := sturm_counts p hp
  have h0 : seqOf p = l := by unfold seqOf; rw [h1]; rfl
  rw [h0]
  refine ⟨h1, h2, fun q => ?_, fun a b hab ha hb => ?_⟩
  · rw [aeval_rat_real_eq_zero]; exact h3 (.value q)
  · exact h4 (.value a) (.value b) hab (fun h => ha ((aeval_rat_real_eq_zero _ _).mpr h))
      (fun h => hb ((aeval_rat_real_eq_zero _ _).mpr h))

/-- number of roots strictly between two points -/
noncomputable def rootCount (a b : ℚ) (p : Poly ℤ) : ℕ :=
  {x : ℝ | (a : ℝ) < x ∧ x < b ∧ aeval x p.toPoly = 0}.ncard

theorem roots_finite (p : ℤ[X]) (hp : p ≠ 0) : {x : ℝ | aeval x p = 0}.Finite := by
  have hinj : Function.Injective (algebraMap ℤ ℝ) := by
    intro a b h; simpa using h
  refine (p.rootSet_finite ℝ).subset ?_
  intro x hx
  rw [mem_rootSet]
  exact ⟨hp, hx⟩

theorem rootSet_between_finite (a b : ℚ) (p : Poly ℤ) (hp : p.toPoly ≠ 0) :
    {x : ℝ | (a : ℝ) < x ∧ x < b ∧ aeval x p.toPoly = 0}.Finite :=
  (roots_finite _ hp).subset fun _ h => h.2.2

open Classical in
theorem scan_spec (lower upper : ℚ) (hlu : lower ≤ upper) (ps : List (Poly ℤ)) :
    (∀ p ∈ ps, p.toPoly ≠ 0) → ∀ (n : ℕ) (kept : List (List (Poly ℤ))),
    (∃ q, scan lower upper (ps.map seqOf) n kept = .root q ∧ (q = lower ∨ q = upper) ∧
      ∃ p ∈ ps, (aeval (q : ℝ) p.toPoly : ℝ) = 0) ∨
    (scan lower upper (ps.map seqOf) n kept = .left (n + (ps.map (rootCount lower upper)).sum)
        (kept ++ (ps.filter fun p => rootCount lower upper p ≠ 0).map seqOf) ∧
      ∀ p ∈ ps, (aeval (lower : ℝ) p.toPoly : ℝ) ≠ 0 ∧ (aeval (upper : ℝ) p.toPoly : ℝ) ≠ 0) := by
  induction ps with
  | nil => intro _ n kept; right; simp [scan]
  | cons p ps ih =>
    intro hps n kept
    obtain ⟨-, -, h3, h4⟩ := seqOf_spec p (hps p (by simp))
    rw [List.map_cons]
    unfold scan
    by_cases hl : (aeval (lower : ℝ) p.toPoly : ℝ) = 0
    · left
      refine ⟨lower, ?_, Or.inl rfl, p, by simp, hl⟩
      simp only
      rw [if_pos ((h3 lower).mpr hl)]
    by_cases hu : (aeval (upper : ℝ) p.toPoly : ℝ) = 0
    · left
      refine ⟨upper, ?_, Or.inr rfl, p, by simp, hu⟩
      simp only
      rw [if_neg (fun h => hl ((h3 lower).mp h)), if_pos ((h3 upper).mpr hu)]
    have hc := h4 lower upper hlu hl hu
    simp only
    rw [if_neg (fun h => hl ((h3 lower).mp h)), if_neg (fun h => hu ((h3 upper).mp h))]
    have hrc : (signChangesAt (seqOf p) (.value lower)).count =
        (signChangesAt (seqOf p) (.value upper)).count + rootCount lower upper p := hc
    have hdist : distance (signChangesAt (seqOf p) (.value lower)).count
        (signChangesAt (seqOf p) (.value upper)).count = rootCount lower upper p := by
      unfold distance
      rw [hrc, if_neg (by omega)]; omega
    have hps' : ∀ p ∈ ps, p.toPoly ≠ 0 := fun q hq => hps q (by simp [hq])
    by_cases h0 : rootCount lower upper p = 0
    · rw [if_neg (by rw [hrc, h0]; simp)]
      rcases ih hps' n kept with ⟨q, i1, i2, p', i3, i4⟩ | ⟨i1, i2⟩
      · exact Or.inl ⟨q, i1, i2, p', by simp [i3], i4⟩
      · right
        refine ⟨?_, ?_⟩
        · rw [i1]; simp [h0]
        · intro q hq
          rcases List.mem_cons.mp hq with rfl | hq
          · exact ⟨hl, hu⟩
          · exact i2 q hq
    · rw [if_pos (by rw [hrc]; omega), hdist]
      rcases ih hps' (n + rootCount lower upper p) (kept ++ [seqOf p]) with
        ⟨q, i1, i2, p', i3, i4⟩ | ⟨i1, i2⟩
      · exact Or.inl ⟨q, i1, i2, p', by simp [i3], i4⟩
      · right
        refine ⟨?_, ?_⟩
        · rw [i1]; simp [h0, add_assoc]
        · intro q hq
          rcases List.mem_cons.mp hq with rfl | hq
          · exact ⟨hl, hu⟩
          · exact i2 q hq

/-- coprime polynomials have no common real root -/
theorem coprime_no_common_root {f g : ℤ[X]}
    (h : IsCoprime (f.map (Int.castRingHom ℚ)) (g.map (Int.castRingHom ℚ))) {y : ℝ}
    (hf : aeval y f = 0) (hg : aeval y g = 0) : False := by
  obtain ⟨a, b, hab⟩ := h
  have := congrArg (fun t => (aeval y t : ℝ)) hab
  have e : ∀ t : ℤ[X], (aeval y (t.map (Int.castRingHom ℚ)) : ℝ) = aeval y t :=
    fun t => aeval_map_algebraMap ℚ y t
  simp [e, hf, hg] at this

/-- if the polynomials are pairwise coprime and have no roots between the points other than `v`, there
is at most one root in all -/
theorem sum_rootCount_le (a b : ℚ) (v : ℝ) (ps : List (Poly ℤ)) :
    (∀ p ∈ ps, p.toPoly ≠ 0 ∧ ∀ y : ℝ, (a : ℝ) < y → y < b → aeval y p.toPoly = 0 → y = v) →
    ps.Pairwise (fun p q => IsCoprime (p.toPoly.map (Int.castRingHom ℚ))
      (q.toPoly.map (Int.castRingHom ℚ))) →
    (ps.map (rootCount a b)).sum ≤ 1 := by
  have hzero : ∀ p : Poly ℤ, (∀ y : ℝ, (a : ℝ) < y → y < b → aeval y p.toPoly = 0 → y = v) →
      aeval v p.toPoly ≠ 0 → rootCount a b p = 0 := by
    intro p hp hv
    have : {x : ℝ | (a : ℝ) < x ∧ x < b ∧ aeval x p.toPoly = 0} = ∅ := by
      ext y
      simp only [Set.mem_ofPred_eq, Set.mem_empty_iff_false, iff_false]
      rintro ⟨h1, h2, h3⟩
      obtain rfl := hp y h1 h2 h3
      exact hv h3
    unfold rootCount
    rw [this]; simp
  have hone : ∀ p : Poly ℤ, (∀ y : ℝ, (a : ℝ) < y → y < b → aeval y p.toPoly = 0 → y = v) →
      rootCount a b p ≤ 1 := by
    intro p hp
    unfold rootCount
    have : {x : ℝ | (a : ℝ) < x ∧ x < b ∧ aeval x p.toPoly = 0} ⊆ {v} := by
      rintro y ⟨h1, h2, h3⟩
      exact hp y h1 h2 h3
    calc _ ≤ ({v} : Set ℝ).ncard := Set.ncard_le_ncard this (Set.finite_singleton v)
      _ = 1 := Set.ncard_singleton v
  induction ps with
  | nil => simp
  | cons p ps ih =>
    intro hps hpw
    obtain ⟨hp1, hp2⟩ := List.pairwise_cons.mp hpw
    rw [List.map_cons, List.sum_cons]
    have hpp := (hps p (by simp)).2
    by_cases hv : aeval v p.toPoly = 0
    · have : (ps.map (rootCount a b)).sum = 0 := by
        rw [List.sum_eq_zero_iff_forall_eq_nat]
        intro x hx
        obtain ⟨q, hq, rfl⟩ := List.mem_map.mp hx
        refine hzero q (hps q (by simp [hq])).2 fun hvq => ?_
        exact coprime_no_common_root (hp1 q hq) hv hvq
      have := hone p hpp
      omega
    · rw [hzero p hpp hv, zero_add]
      exact ih (fun q hq => hps q (by simp [hq])) hp2

/-- after `n` shrinking steps the interval is narrower than `δ` -/
def SmallAfter {σ : Type} (getInterval : σ → Option DFI) (shrinkInterval : σ → Option σ) (δ : ℝ) :
    ℕ → σ → Prop
  | 0, st => ∃ i, getInterval st = some i ∧ (i.width : ℝ) < δ
  | n + 1, st => ∃ st', shrinkInterval st = some st' ∧
      SmallAfter getInterval shrinkInterval δ n st'

/-- the three ways in which a turn of the loop ends -/
theorem selectLoop_turn {σ : Type} {getInterval : σ → Option DFI} {shrinkInterval : σ → Option σ}
    {v : ℝ} {i : DFI} (st : σ) (hi : getInterval st = some i) (hiv : i.Contains v)
    (ps : List (Poly ℤ)) (hps : ∀ p ∈ ps, Irreducible p.toPoly ∧ 0 < p.toPoly.leadingCoeff)
    (hv : ∃ p ∈ ps, aeval v p.toPoly = 0) (fuel : ℕ) :
    (∃ c, selectLoop getInterval shrinkInterval (fuel + 1) st (ps.map seqOf) = .ok c ∧
      c.Represents v) ∨
    (∃ q : ℚ, selectLoop getInterval shrinkInterval (fuel + 1) st (ps.map seqOf) = .ok (ofRat q) ∧
      (q : ℝ) ≠ v ∧ (∃ p ∈ ps, (aeval (q : ℝ) p.toPoly : ℝ) = 0) ∧
      (q = i.lowerBound ∨ q = i.upperBound)) ∨
    (1 < (ps.map (rootCount i.lowerBound i.upperBound)).sum ∧ ∃ kept : List (Poly ℤ), kept.Sublist ps ∧
      (∃ p ∈ kept, aeval v p.toPoly = 0) ∧
      selectLoop getInterval shrinkInterval (fuel + 1) st (ps.map seqOf) =
        match shrinkInterval st with
        | none => .error .panic
        | some st => selectLoop getInterval shrinkInterval fuel st (kept.map seqOf)) := by
  classical
  obtain ⟨hl, hu⟩ := (DFI.contains_iff_bounds _ _).mp hiv
  have hlu : i.lowerBound ≤ i.upperBound := by exact_mod_cast hl.trans hu
  simp only [selectLoop, hi]
  rcases scan_spec i.lowerBound i.upperBound hlu ps (fun p hp => (hps p hp).1.ne_zero) 0 [] with
    ⟨q, h1, h2, p, h3, h4⟩ | ⟨h1, h2⟩
  · rw [h1]
    by_cases hqv : (q : ℝ) = v
    · left; exact ⟨_, rfl, by rw [← hqv]; exact ofRat_represents q⟩
    · right; left; exact ⟨q, rfl, hqv, ⟨p, h3, h4⟩, h2⟩
  · rw [h1]
    simp only [zero_add, List.nil_append]
    obtain ⟨p, hp, hpv⟩ := hv
    have hin : (i.lowerBound : ℝ) < v ∧ v < i.upperBound := by
      refine ⟨lt_of_le_of_ne hl fun e => ?_, lt_of_le_of_ne hu fun e => ?_⟩
      · exact (h2 p hp).1 (by rw [e]; exact hpv)
      · exact (h2 p hp).2 (by rw [← e]; exact hpv)
    have hmem : ∀ p ∈ ps, aeval v p.toPoly = 0 → rootCount i.lowerBound i.upperBound p ≠ 0 := by
      intro p hp hpv
      unfold rootCount
      rw [Ne, Set.ncard_eq_zero (rootSet_between_finite _ _ _ (hps p hp).1.ne_zero)]
      exact Set.Nonempty.ne_empty ⟨v, hin.1, hin.2, hpv⟩
    by_cases hs : (ps.map (rootCount i.lowerBound i.upperBound)).sum ≤ 1
    · rw [if_pos hs]
      left
      -- the only factor kept is the one with the root `v`
      have hfil : ∀ l : List (Poly ℤ), (l.map (rootCount i.lowerBound i.upperBound)).sum ≤ 1 →
          p ∈ l → rootCount i.lowerBound i.upperBound p ≠ 0 →
          (l.filter fun p => rootCount i.lowerBound i.upperBound p ≠ 0) = [p] ∧
            rootCount i.lowerBound i.upperBound p = 1 := by
        intro l
        induction l with
        | nil => simp
        | cons q l ih =>
          intro hsum hpl hp0
          rw [List.map_cons, List.sum_cons] at hsum
          rcases List.mem_cons.mp hpl with rfl | hpl
          · have h0 : (l.map (rootCount i.lowerBound i.upperBound)).sum = 0 := by omega
            rw [List.sum_eq_zero_iff_forall_eq_nat] at h0
            rw [List.filter_cons, if_pos (by simpa using hp0)]
            refine ⟨?_, by omega⟩
            rw [List.cons_eq_cons]
            refine ⟨rfl, ?_⟩
            rw [List.filter_eq_nil_iff]
            intro q hq
            have := h0 _ (List.mem_map.mpr ⟨q, hq, rfl⟩)
            simp [this]
          · have h1 : rootCount i.lowerBound i.upperBound p ≤
                (l.map (rootCount i.lowerBound i.upperBound)).sum :=
              List.single_le_sum (by simp) _ (List.mem_map.mpr ⟨p, hpl, rfl⟩)
            have h0 : rootCount i.lowerBound i.upperBound q = 0 := by omega
            rw [List.filter_cons, if_neg (by simpa using h0)]
            exact ih (by omega) hpl hp0
      obtain ⟨hf1, hf2⟩ := hfil ps hs hp (hmem p hp hpv)
      rw [hf1]
      obtain ⟨-, h5, -⟩ := seqOf_spec p (hps p hp).1.ne_zero
      refine ⟨⟨p, i⟩, by simp [h5], (hps p hp).1, fun _ => (hps p hp).2, hpv, hiv, ?_⟩
      intro y hy hyr
      obtain ⟨hyl, hyu⟩ := (DFI.contains_iff_bounds _ _).mp hy
      have hyin : (i.lowerBound : ℝ) < y ∧ y < i.upperBound := by
        refine ⟨lt_of_le_of_ne hyl fun e => ?_, lt_of_le_of_ne hyu fun e => ?_⟩
        · exact (h2 p hp).1 (by rw [e]; exact hyr)
        · exact (h2 p hp).2 (by rw [← e]; exact hyr)
      unfold rootCount at hf2
      obtain ⟨w, hw⟩ := Set.ncard_eq_one.mp hf2
      have e1 : y ∈ ({w} : Set ℝ) := by rw [← hw]; exact ⟨hyin.1, hyin.2, hyr⟩
      have e2 : v ∈ ({w} : Set ℝ) := by rw [← hw]; exact ⟨hin.1, hin.2, hpv⟩
      rw [Set.mem_singleton_iff] at e1 e2
      rw [e1, e2]
    · rw [if_neg hs]
      right; right
      exact ⟨by omega, ps.filter fun p => rootCount i.lowerBound i.upperBound p ≠ 0, List.filter_sublist,
        ⟨p, List.mem_filter.mpr ⟨hp, by simpa using hmem p hp hpv⟩, hpv⟩, rfl⟩

theorem selectLoop_spec {σ : Type} {getInterval : σ → Option DFI} {shrinkInterval : σ → Option σ}
    {Inv : σ → Prop} {P : DFI → Prop} {v δ : ℝ} (hget : ∀ st, Inv st → ∃ i, getInterval st = some i ∧
      i.Contains v ∧ P i)
    (hshrink : ∀ st st', Inv st → shrinkInterval st = some st' → Inv st') (n : ℕ) :
    ∀ (st : σ) (ps : List (Poly ℤ)), Inv st → SmallAfter getInterval shrinkInterval δ n st →
    (∀ p ∈ ps, Irreducible p.toPoly ∧ 0 < p.toPoly.leadingCoeff ∧
      ∀ y : ℝ, aeval y p.toPoly = 0 → y ≠ v → δ ≤ |y - v|) →
    ps.Pairwise (fun p q => IsCoprime (p.toPoly.map (Int.castRingHom ℚ))
      (q.toPoly.map (Int.castRingHom ℚ))) →
    (∃ p ∈ ps, aeval v p.toPoly = 0) →
    ∀ fuel ≥ n + 1, ∃ c, selectLoop getInterval shrinkInterval fuel st (ps.map seqOf) = .ok c ∧
      (c.Represents v ∨ ∃ q : ℚ, c = ofRat q ∧ (q : ℝ) ≠ v ∧
        (∃ p ∈ ps, (aeval (q : ℝ) p.toPoly : ℝ) = 0) ∧
        ∃ i, P i ∧ (q = i.lowerBound ∨ q = i.upperBound) ∧ i.Contains v) := by
  induction n with
  | zero =>
    intro st ps hinv hsmall hps hpw hv fuel hf
    obtain ⟨fuel, rfl⟩ : ∃ k, fuel = k + 1 := ⟨fuel - 1, by omega⟩
    obtain ⟨i, hi, hw⟩ := hsmall
    obtain ⟨i', hi', hiv, hP⟩ := hget st hinv
    obtain rfl : i = i' := by rw [hi] at hi'; exact Option.some.inj hi'
    obtain ⟨hl, hu⟩ := (DFI.contains_iff_bounds _ _).mp hiv
    rw [DFI.width_real] at hw
    rcases selectLoop_turn (shrinkInterval := shrinkInterval) st hi hiv ps
      (fun p hp => ⟨(hps p hp).1, (hps p hp).2.1⟩) hv fuel with
      ⟨c, h1, h2⟩ | ⟨q, h1, h2, h3, h4⟩ | ⟨h1, -⟩
    · exact ⟨c, h1, Or.inl h2⟩
    · exact ⟨_, h1, Or.inr ⟨q, rfl, h2, h3, i, hP, h4, hiv⟩⟩
    · have := sum_rootCount_le i.lowerBound i.upperBound v ps (fun p hp =>
        ⟨(hps p hp).1.ne_zero, fun y hy1 hy2 hy3 => ?_⟩) hpw
      · omega
      · by_contra hyv
        have := (hps p hp).2.2 y hy3 hyv
        have h5 : |y - v| < δ := by rw [abs_lt]; constructor <;> linarith
        linarith
  | succ n ih =>
    intro st ps hinv hsmall hps hpw hv fuel hf
    obtain ⟨fuel, rfl⟩ : ∃ k, fuel = k + 1 := ⟨fuel - 1, by omega⟩
    obtain ⟨st', hst', hsm⟩ := hsmall
    obtain ⟨i, hi, hiv, hP⟩ := hget st hinv
    rcases selectLoop_turn (shrinkInterval := shrinkInterval) st hi hiv ps
      (fun p hp => ⟨(hps p hp).1, (hps p hp).2.1⟩) hv fuel with
      ⟨c, h1, h2⟩ | ⟨q, h1, h2, h3, h4⟩ | ⟨-, kept, h1, h2, h3⟩
    · exact ⟨c, h1, Or.inl h2⟩
    · exact ⟨_, h1, Or.inr ⟨q, rfl, h2, h3, i, hP, h4, hiv⟩⟩
    · rw [h3, hst']
      obtain ⟨c, h4, h5⟩ := ih st' kept (hshrink st st' hinv hst') hsm
        (fun p hp => hps p (h1.subset hp)) (hpw.sublist h1) h2 fuel (by omega)
      refine ⟨c, h4, h5.imp_right ?_⟩
      rintro ⟨q, q1, q2, ⟨p, q3, q4⟩, q5⟩
      exact ⟨q, q1, q2, ⟨p, h1.subset q3, q4⟩, q5⟩

/-- roots of a factorization -/
theorem factors_root {r : Poly.Factors} {f : ℤ[X]} (h : FactorsOf r f) (hf : f ≠ 0) (y : ℝ) :
    (aeval y f = 0 → ∃ e ∈ r.factors, aeval y e.1.toPoly = 0) := by
  intro hy
  rw [← h.product] at hy hf
  have hc : r.constant ≠ 0 := by
    intro e; apply hf; rw [e, C_0, zero_mul]
  rw [map_mul, aeval_C] at hy
  rcases mul_eq_zero.mp hy with h1 | h1
  · exact absurd (by simpa using h1) hc
  · unfold Poly.powerProduct at h1
    rw [map_list_prod, List.prod_eq_zero_iff, List.map_map, List.mem_map] at h1
    obtain ⟨e, he, h2⟩ := h1
    simp only [Function.comp_apply, map_pow] at h2
    exact ⟨e, he, pow_eq_zero_iff (h.powers e he).ne' |>.mp h2⟩

/-- a real number has a distance from all other roots -/
theorem exists_gap (f : ℤ[X]) (hf : f ≠ 0) (v : ℝ) :
    ∃ δ > 0, ∀ y : ℝ, aeval y f = 0 → y ≠ v → δ ≤ |y - v| := by
  have key : ∀ s : Finset ℝ, ∃ δ : ℝ, 0 < δ ∧ ∀ y ∈ s, y ≠ v → δ ≤ |y - v| := by
    intro s
    induction s using Finset.induction_on with
    | empty => exact ⟨1, one_pos, by simp⟩
    | insert a s _ ih =>
      obtain ⟨δ, h1, h2⟩ := ih
      by_cases ha : a = v
      · refine ⟨δ, h1, fun y hy hyv => ?_⟩
        rcases Finset.mem_insert.mp hy with rfl | hy
        · exact absurd ha hyv
        · exact h2 y hy hyv
      · refine ⟨min δ |a - v|, lt_min h1 (abs_pos.mpr (sub_ne_zero.mpr ha)), fun y hy hyv => ?_⟩
        rcases Finset.mem_insert.mp hy with rfl | hy
        · exact min_le_right _ _
        · exact (min_le_left _ _).trans (h2 y hy hyv)
  obtain ⟨δ, h1, h2⟩ := key (roots_finite f hf).toFinset
  exact ⟨δ, h1, fun y hy => h2 y (by simpa using hy)⟩

/-- `select_root`: it ends without panic, and finds the root in the interval unless it stumbles over an
end point that is a root -/
theorem selectRoot_spec {σ : Type} {getInterval : σ → Option DFI} {shrinkInterval : σ → Option σ}
    {Inv : σ → Prop} {P : DFI → Prop} {v : ℝ} (hget : ∀ st, Inv st → ∃ i, getInterval st = some i ∧
      i.Contains v ∧ P i)
    (hshrink : ∀ st st', Inv st → shrinkInterval st = some st' → Inv st')
    (F : FactorCall) (R : Poly ℤ) (hR : R.toPoly ≠ 0) (r : Poly.Factors) (hF : F R = .ok r)
    (hr : FactorsOf r R.toPoly) (hv : aeval v R.toPoly = 0) (st : σ) (hinv : Inv st)
    (hsmall : ∀ δ > 0, ∃ n, SmallAfter getInterval shrinkInterval δ n st) :
    ∃ N, ∀ fuel ≥ N, ∃ c, selectRoot getInterval shrinkInterval F fuel st R = .ok c ∧
      (c.Represents v ∨ ∃ q : ℚ, c = ofRat q ∧ (q : ℝ) ≠ v ∧ (aeval (q : ℝ) R.toPoly : ℝ) = 0 ∧
        ∃ i, P i ∧ (q = i.lowerBound ∨ q = i.upperBound) ∧ i.Contains v) := by
  obtain ⟨δ, hδ, hgap⟩ := exists_gap R.toPoly hR v
  obtain ⟨n, hn⟩ := hsmall δ hδ
  have hdvd : ∀ e ∈ r.factors, ∀ y : ℝ, aeval y e.1.toPoly = 0 → aeval y R.toPoly = 0 := by
    intro e he y hy
    rw [← hr.product, map_mul]
    apply mul_eq_zero_of_right
    unfold Poly.powerProduct
    rw [map_list_prod, List.prod_eq_zero_iff, List.map_map, List.mem_map]
    refine ⟨e, he, ?_⟩
    simp [hy, (hr.powers e he).ne']
  set ps : List (Poly ℤ) := r.factors.map (·.1) with hps
  have hmem : ∀ p ∈ ps, ∃ e ∈ r.factors, e.1 = p := by
    intro p hp
    obtain ⟨e, he, rfl⟩ := List.mem_map.mp hp
    exact ⟨e, he, rfl⟩
  have hmap : r.factors.mapM (fun f => f.1.primitiveSturmSequence Poly.intGcd) =
      some (ps.map seqOf) := by
    rw [hps]
    have : ∀ l : List (Poly ℤ × ℕ), (∀ e ∈ l, e.1.toPoly ≠ 0) →
        l.mapM (fun f => f.1.primitiveSturmSequence Poly.intGcd) =
          some ((l.map (·.1)).map seqOf) := by
      intro l
      induction l with
      | nil => intro _; rfl
      | cons e l ih =>
        intro hl
        rw [List.mapM_cons, ih fun e he => hl e (by simp [he]),
          (seqOf_spec e.1 (hl e (by simp))).1]
        rfl
    exact this _ fun e he => (hr.irreducible e he).ne_zero
  refine ⟨n + 1, fun fuel hf => ?_⟩
  obtain ⟨c, h1, h2⟩ := selectLoop_spec hget hshrink n st ps hinv hn (by
    intro p hp
    obtain ⟨e, he, rfl⟩ := hmem p hp
    exact ⟨hr.irreducible e he, hr.positive e he, fun y hy => hgap y (hdvd e he y hy)⟩) (by
    rw [hps, List.pairwise_map]; exact hr.coprime) (by
    obtain ⟨e, he, h⟩ := factors_root hr hR v hv
    exact ⟨e.1, List.mem_map.mpr ⟨e, he, rfl⟩, h⟩) fuel hf
  refine ⟨c, ?_, h2.imp_right ?_⟩
  · unfold selectRoot
    rw [hF]
    simp only [bind, Except.bind]
    rw [hmap]
    exact h1
  · rintro ⟨q, q1, q2, ⟨p, q3, q4⟩, q5⟩
    obtain ⟨e, he, rfl⟩ := hmem p q3
    exact ⟨q, q1, q2, hdvd e he _ q4, q5⟩

/-- an end point of the first interval that is a root of the polynomial is returned, whether or not it
is the root that was asked for -/
theorem selectRoot_endpoint {σ : Type} {getInterval : σ → Option DFI} {shrinkInterval : σ → Option σ}
    (F : FactorCall) (R : Poly ℤ) (hR : R.toPoly ≠ 0) (r : Poly.Factors) (hF : F R = .ok r)
    (hr : FactorsOf r R.toPoly) (st : σ) (i : DFI) (hi : getInterval st = some i)
    (ho : i.lowerBound ≤ i.upperBound) (hroot : (aeval (i.lowerBound : ℝ) R.toPoly : ℝ) = 0) (fuel : ℕ) :
    ∃ q : ℚ, selectRoot getInterval shrinkInterval F (fuel + 1) st R = .ok (ofRat q) ∧
      (q = i.lowerBound ∨ q = i.upperBound) ∧ (aeval (q : ℝ) R.toPoly : ℝ) = 0 := by
  have hmap : ∀ l : List (Poly ℤ × ℕ), (∀ e ∈ l, e.1.toPoly ≠ 0) →
      l.mapM (fun f => f.1.primitiveSturmSequence Poly.intGcd) =
        some ((l.map (·.1)).map seqOf) := by
    intro l
    induction l with
    | nil => intro _; rfl
    | cons e l ih =>
      intro hl
      rw [List.mapM_cons, ih fun e he => hl e (by simp [he]),
        (seqOf_spec e.1 (hl e (by simp))).1]
      rfl
  have hne : ∀ e ∈ r.factors, e.1.toPoly ≠ 0 := fun e he => (hr.irreducible e he).ne_zero
  have h0 : selectRoot getInterval shrinkInterval F (fuel + 1) st R =
      selectLoop getInterval shrinkInterval (fuel + 1) st ((r.factors.map (·.1)).map seqOf) := by
    unfold selectRoot
    rw [hF]
    simp only [bind, Except.bind]
    rw [hmap _ hne]
    rfl
  rw [h0]
  simp only [selectLoop, hi]
  rcases scan_spec i.lowerBound i.upperBound ho (r.factors.map (·.1)) (by
    intro p hp
    obtain ⟨e, he, rfl⟩ := List.mem_map.mp hp
    exact hne e he) 0 [] with ⟨q, h1, h2, p, h3, h4⟩ | ⟨-, h2⟩
  · rw [h1]
    refine ⟨q, rfl, h2, ?_⟩
    obtain ⟨e, he, rfl⟩ := List.mem_map.mp h3
    rw [← hr.product, map_mul]
    apply mul_eq_zero_of_right
    unfold Poly.powerProduct
    rw [map_list_prod, List.prod_eq_zero_iff, List.map_map, List.mem_map]
    refine ⟨e, he, ?_⟩
    simp [h4, (hr.powers e he).ne']
  · exfalso
    obtain ⟨e, he, h⟩ := factors_root hr hR _ hroot
    exact (h2 e.1 (List.mem_map.mpr ⟨e, he, rfl⟩)).1 h

end RealAlg

end Algebraics
