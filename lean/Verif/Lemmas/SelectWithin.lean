import Verif.Props.AlgNumSound
import Verif.Props.AlgNumIff

/-!
# What selecting a root returns, whatever the factoring does

Nothing is assumed about the factors: they need not be irreducible, nor have anything to do with the
resultant.
-/

namespace Algebraics

open Polynomial

namespace RealAlg

/-- what can be returned when the first enclosing interval is `i` and the number looked for is `v` -/
def ReturnedIn (i : DFI) (v : ℝ) (c : RealAlg) : Prop :=
  (∃ q : ℚ, c = ofRat q ∧ i.Contains q) ∨
    (c.interval.Within i ∧ c.interval.Contains v ∧ (c.isZero = true → i.Contains 0))

theorem scan_root (lower upper q : ℚ) : ∀ (fs : List (List (Poly ℤ))) (n : ℕ) (kept : List (List (Poly ℤ))),
    scan lower upper fs n kept = .root q → q = lower ∨ q = upper := by
  intro fs
  induction fs with
  | nil => intro n kept h; simp [scan] at h
  | cons f fs ih =>
    intro n kept h
    unfold scan at h
    simp only at h
    split_ifs at h
    · cases h; exact Or.inl rfl
    · cases h; exact Or.inr rfl
    · exact ih _ _ h
    · exact ih _ _ h

theorem scan_left (lower upper : ℚ) (m : ℕ) (res : List (List (Poly ℤ))) :
    ∀ (fs : List (List (Poly ℤ))) (n : ℕ) (kept : List (List (Poly ℤ))),
    scan lower upper fs n kept = .left m res →
    ∀ f ∈ res, f ∈ kept ∨ (f ∈ fs ∧ (signChangesAt f (.value lower)).isRoot = false ∧
      (signChangesAt f (.value upper)).isRoot = false ∧
      (signChangesAt f (.value lower)).count ≠ (signChangesAt f (.value upper)).count) := by
  intro fs
  induction fs with
  | nil =>
    intro n kept h f hf
    simp only [scan, Scan.left.injEq] at h
    rw [← h.2] at hf
    exact Or.inl hf
  | cons g fs ih =>
    intro n kept h f hf
    unfold scan at h
    simp only at h
    split_ifs at h with h1 h2 h3
    · rcases ih _ _ h f hf with h4 | ⟨h4, h5⟩
      · rcases List.mem_append.mp h4 with h4 | h4
        · exact Or.inl h4
        · rw [List.mem_singleton] at h4
          subst h4
          exact Or.inr ⟨by simp, by simpa using h1, by simpa using h2, h3⟩
      · exact Or.inr ⟨List.mem_cons_of_mem _ h4, h5⟩
    · rcases ih _ _ h f hf with h4 | ⟨h4, h5⟩
      · exact Or.inl h4
      · exact Or.inr ⟨List.mem_cons_of_mem _ h4, h5⟩

theorem zero_poly : zero.poly.toPoly = X := by
  have := (ofInt_represents 0).root
  rw [show zero.poly = Poly.ofCoeffs [0, 1] by decide +kernel, Poly.toPoly_ofCoeffs]
  simp [listPoly]

theorem kept_zero (p : Poly ℤ) (f : List (Poly ℤ)) (hf : p.primitiveSturmSequence Poly.intGcd = some f)
    (lower upper : ℚ) (hlu : lower ≤ upper) (h1 : (signChangesAt f (.value lower)).isRoot = false)
    (h2 : (signChangesAt f (.value upper)).isRoot = false)
    (h3 : (signChangesAt f (.value lower)).count ≠ (signChangesAt f (.value upper)).count)
    (h0 : f.head?.getD 0 = zero.poly) : lower < 0 ∧ 0 < upper := by
  by_cases hp : p.toPoly = 0
  · exfalso
    have hp' : p = 0 := Poly.toPoly_injective (hp.trans (by decide +kernel : _))
    subst hp'
    have : f = [] := by
      have : (0 : Poly ℤ).primitiveSturmSequence Poly.intGcd = some [] := by decide +kernel
      rw [this] at hf; cases hf; rfl
    subst this
    exact h3 rfl
  · obtain ⟨e1, e2, e3, e4⟩ := seqOf_spec p hp
    rw [hf] at e1
    cases e1
    rw [e2] at h0
    simp only [Option.getD_some] at h0
    subst h0
    have z1 : (aeval (lower : ℝ) zero.poly.toPoly : ℝ) ≠ 0 := fun h => by
      rw [(e3 lower).mpr h] at h1; cases h1
    have z2 : (aeval (upper : ℝ) zero.poly.toPoly : ℝ) ≠ 0 := fun h => by
      rw [(e3 upper).mpr h] at h2; cases h2
    have h4 := e4 lower upper hlu z1 z2
    have h5 : {x : ℝ | (lower : ℝ) < x ∧ x < upper ∧ aeval x zero.poly.toPoly = 0}.ncard ≠ 0 := by
      intro h; rw [h] at h4; exact h3 h4
    obtain ⟨z, a1, a2, a3⟩ := Set.nonempty_of_ncard_ne_zero h5
    rw [zero_poly, aeval_X] at a3
    subst a3
    exact ⟨by exact_mod_cast a1, by exact_mod_cast a2⟩

theorem selectLoop_within {σ : Type} {g : σ → Option DFI} {sh : σ → Option σ} {Inv : σ → Prop} {v : ℝ}
    {i0 : DFI} (hget : ∀ st i, Inv st → g st = some i → i.Within i0 ∧ i.Contains v)
    (hshrink : ∀ st st', Inv st → sh st = some st' → Inv st') (c : RealAlg) :
    ∀ (fuel : ℕ) (st : σ) (fs : List (List (Poly ℤ))), Inv st →
    (∀ f ∈ fs, ∃ p : Poly ℤ, p.primitiveSturmSequence Poly.intGcd = some f) →
    selectLoop g sh fuel st fs = .ok c → ReturnedIn i0 v c := by
  intro fuel
  induction fuel with
  | zero => intro st fs _ _ h; simp [selectLoop] at h
  | succ fuel ih =>
    intro st fs hinv hfs h
    unfold selectLoop at h
    cases hi : g st with
    | none => rw [hi] at h; simp at h
    | some i =>
      rw [hi] at h
      simp only at h
      obtain ⟨w1, w2⟩ := hget st i hinv hi
      obtain ⟨b1, b2⟩ := (DFI.contains_iff_bounds _ _).mp w2
      have hlu : i.lowerBound ≤ i.upperBound := by exact_mod_cast b1.trans b2
      cases hs : scan i.lowerBound i.upperBound fs 0 [] with
      | root q =>
        rw [hs] at h
        simp only [Except.ok.injEq] at h
        refine Or.inl ⟨q, h.symm, w1 _ ?_⟩
        rw [DFI.contains_iff_bounds]
        rcases scan_root _ _ _ _ _ _ hs with rfl | rfl
        · exact ⟨le_rfl, by exact_mod_cast hlu⟩
        · exact ⟨by exact_mod_cast hlu, le_rfl⟩
      | left n kept =>
        rw [hs] at h
        simp only at h
        have hk := scan_left _ _ _ _ _ _ _ hs
        by_cases hn : n ≤ 1
        · rw [if_pos hn] at h
          cases hkept : kept with
          | nil => rw [hkept] at h; simp at h
          | cons f fs' =>
            rw [hkept] at h
            simp only [Except.ok.injEq] at h
            subst h
            refine Or.inr ⟨w1, w2, fun hz => ?_⟩
            rcases hk f (by rw [hkept]; simp) with h4 | ⟨h4, h5, h6, h7⟩
            · simp at h4
            obtain ⟨p, hp⟩ := hfs f h4
            obtain ⟨l1, l2⟩ := kept_zero p f hp _ _ hlu h5 h6 h7 (by simpa [isZero] using hz)
            apply w1
            rw [DFI.contains_iff_bounds]
            exact ⟨by exact_mod_cast l1.le, by exact_mod_cast l2.le⟩
        · rw [if_neg hn] at h
          cases hsh : sh st with
          | none => rw [hsh] at h; simp at h
          | some st' =>
            rw [hsh] at h
            refine ih st' kept (hshrink st st' hinv hsh) (fun f hf => ?_) h
            rcases hk f hf with h4 | ⟨h4, -⟩
            · simp at h4
            · exact hfs f h4

theorem mapM_mem {α β : Type} (k : α → Option β) : ∀ (l : List α) (r : List β), l.mapM k = some r →
    ∀ b ∈ r, ∃ a, k a = some b := by
  intro l
  induction l with
  | nil => intro r h b hb; simp at h; subst h; simp at hb
  | cons a l ih =>
    intro r h b hb
    rw [List.mapM_cons] at h
    simp only [bind, Option.bind_eq_some_iff, pure, Option.some.injEq] at h
    obtain ⟨b', h1, r', h2, rfl⟩ := h
    rcases List.mem_cons.mp hb with rfl | hb
    · exact ⟨a, h1⟩
    · exact ih r' h2 b hb

theorem selectRoot_within {σ : Type} {g : σ → Option DFI} {sh : σ → Option σ} {Inv : σ → Prop} {v : ℝ}
    {i0 : DFI} (hget : ∀ st i, Inv st → g st = some i → i.Within i0 ∧ i.Contains v)
    (hshrink : ∀ st st', Inv st → sh st = some st' → Inv st') (F : FactorCall) (fuel : ℕ) (st : σ)
    (R : Poly ℤ) (c : RealAlg) (hinv : Inv st) (h : selectRoot g sh F fuel st R = .ok c) :
    ReturnedIn i0 v c := by
  unfold selectRoot at h
  cases h1 : F R with
  | error e => rw [h1] at h; simp [bind, Except.bind] at h
  | ok r =>
    rw [h1] at h
    simp only [bind, Except.bind] at h
    cases h2 : orPanic (r.factors.mapM fun f => f.1.primitiveSturmSequence Poly.intGcd) with
    | error e => rw [h2] at h; simp at h
    | ok seqs =>
      rw [h2] at h
      refine selectLoop_within hget hshrink c fuel st seqs hinv (fun f hf => ?_) h
      have := orPanic_ok h2
      obtain ⟨e, he⟩ := mapM_mem _ _ _ this f hf
      exact ⟨e.1, he⟩

end RealAlg

end Algebraics
