import Verif.Lemmas.FactorTop

/-!
# The factors returned by `factor` are pairwise coprime
-/

namespace Algebraics

open Polynomial

namespace Poly

/-- the polynomial over the rational numbers -/
noncomputable abbrev overQ (f : ℤ[X]) : ℚ[X] := f.map (Int.castRingHom ℚ)

theorem pairwise_of_squarefree (l : List ℚ[X]) (h : Squarefree l.prod) :
    l.Pairwise IsCoprime ∧ ∀ a ∈ l, Squarefree a := by
  induction l with
  | nil => simp
  | cons a l ih =>
    rw [List.prod_cons, squarefree_mul_iff] at h
    obtain ⟨h1, h2, h3⟩ := h
    obtain ⟨i1, i2⟩ := ih h3
    refine ⟨List.pairwise_cons.mpr ⟨fun b hb => ?_, i1⟩, ?_⟩
    · exact h1.isCoprime.of_isCoprime_of_dvd_right (List.dvd_prod hb)
    · simpa [h2] using i2

theorem factorLoop_distinct (choose : ℕ → List ℕ → ℕ) (hc : HeapOrder choose) (rng : ℕ → ℕ) (fuel : ℕ)
    (gs : List (Poly ℚ)) : ∀ (index pos : ℕ),
    (∀ g ∈ gs, Squarefree g.toPoly ∧
      ∃ z : Poly ℤ, g.toPoly = z.toPoly.map (Int.castRingHom ℚ) ∧ PP z.toPoly) →
    gs.Pairwise (fun g g' => IsCoprime g.toPoly g'.toPoly) →
    ∀ r pos', factorLoop choose rng fuel index gs pos = .ok (r, pos') →
      r.Pairwise (fun e e' => IsCoprime (overQ e.1.toPoly) (overQ e'.1.toPoly)) ∧
      ∀ e ∈ r, Squarefree (overQ e.1.toPoly) ∧ ∃ g ∈ gs, overQ e.1.toPoly ∣ g.toPoly := by
  induction gs with
  | nil =>
    intro index pos _ _ r pos' h
    cases h
    simp
  | cons g gs ih =>
    intro index pos hz hp r pos' h
    obtain ⟨hsq, z, z1, z2⟩ := hz g (by simp)
    obtain ⟨hp1, hp2⟩ := List.pairwise_cons.mp hp
    have hel : ofCoeffs (ratElements g) = z := toPoly_injective (ratElements_spec g z.toPoly z1)
    unfold factorLoop at h
    rw [hel] at h
    cases h1 : factorSquareFree choose rng fuel pos z with
    | error e => rw [h1] at h; cases h
    | ok lp =>
      obtain ⟨l, pos1⟩ := lp
      rw [h1] at h
      simp only at h
      obtain ⟨u1, u2⟩ := (factorSquareFree_spec choose hc rng fuel pos z z2).1 l pos1 h1
      have hprod : (l.map fun q => overQ q.toPoly).prod = g.toPoly := by
        rw [z1, ← u1, Polynomial.map_list_prod, List.map_map]
        rfl
      obtain ⟨s1, s2⟩ := pairwise_of_squarefree _ (by rw [hprod]; exact hsq)
      cases h2 : factorLoop choose rng fuel (index + 1) gs pos1 with
      | error e => rw [h2] at h; cases h
      | ok rp =>
        obtain ⟨r2, pos2⟩ := rp
        rw [h2] at h
        simp only at h
        cases h
        obtain ⟨i1, i2⟩ := ih (index + 1) pos1 (fun g hg => hz g (by simp [hg])) hp2 r2 _ h2
        have hdv : ∀ q ∈ l, overQ q.toPoly ∣ g.toPoly := by
          intro q hq
          rw [← hprod]
          exact List.dvd_prod (List.mem_map.mpr ⟨q, hq, rfl⟩)
        refine ⟨List.pairwise_append.mpr ⟨?_, i1, ?_⟩, ?_⟩
        · rw [List.pairwise_map]
          exact (List.Pairwise.sublist List.filter_sublist (List.pairwise_map.mp s1))
        · intro e he e' he'
          obtain ⟨q, hq, rfl⟩ := List.mem_map.mp he
          obtain ⟨-, g', hg', hd⟩ := i2 e' he'
          exact ((hp1 g' hg').of_isCoprime_of_dvd_right hd).of_isCoprime_of_dvd_left
            (hdv q (List.mem_filter.mp hq).1)
        · intro e he
          rcases List.mem_append.mp he with he | he
          · obtain ⟨q, hq, rfl⟩ := List.mem_map.mp he
            have hq1 := (List.mem_filter.mp hq).1
            exact ⟨s2 _ (List.mem_map.mpr ⟨q, hq1, rfl⟩), g, by simp, hdv q hq1⟩
          · obtain ⟨j1, g', hg', hd⟩ := i2 e he
            exact ⟨j1, g', by simp [hg'], hd⟩

theorem factor_distinct (choose : ℕ → List ℕ → ℕ) (hc : HeapOrder choose) (rng : ℕ → ℕ) (fuel pos : ℕ)
    (f : Poly ℤ) (r : Factors) (pos' : ℕ) (h : factor choose rng fuel pos f = .ok (r, pos')) :
    r.factors.Pairwise (fun e e' => IsCoprime (overQ e.1.toPoly) (overQ e'.1.toPoly)) ∧
      ∀ e ∈ r.factors, Squarefree (overQ e.1.toPoly) := by
  by_cases hf : f.toPoly = 0
  · have hfac : factor choose rng fuel pos f = .ok (⟨0, []⟩, pos) := by
      have : f = ofCoeffs [] := toPoly_injective (by rw [hf, toPoly_ofCoeffs]; rfl)
      rw [this]
      rfl
    rw [hfac] at h
    cases h
    simp
  · obtain ⟨z, z1, z2, l, z3, z4⟩ := factor_content f hf
    unfold factor at h
    simp only at h
    rw [z3] at h
    simp only at h
    have hinj : Function.Injective (Int.castRingHom ℚ) := Int.cast_injective
    have hdeg := natDegree_map_eq_of_injective hinj z
    by_cases hd : z.natDegree = 0
    · rw [C24_yun_constant _ (by rw [z4, hdeg]; exact hd)] at h
      simp only [factorLoop] at h
      cases h
      simp
    · obtain ⟨c, gs, y1, -, y3, y4, y5, y6, -⟩ := C24_yun
        (ofCoeffs (l.map fun v : ℤ => (v : ℚ))) (by rw [z4, hdeg]; exact hd)
      rw [y1] at h
      simp only at h
      have hl : factorLoop choose rng fuel 0 gs pos = .ok (r.factors, pos') := by
        cases hl : factorLoop choose rng fuel 0 gs pos with
        | error e => rw [hl] at h; cases h
        | ok rp =>
          rw [hl] at h
          cases h
          rfl
      obtain ⟨w1, w2⟩ := factorLoop_distinct choose hc rng fuel gs 0 pos (by
        intro g hg
        obtain ⟨sq, w, w1, w2, w3⟩ := y4 g hg
        have hsymm : (toPolyEquiv (T := ℤ).symm w).toPoly = w :=
          (toPolyEquiv (T := ℤ)).apply_symm_apply _
        exact ⟨sq, toPolyEquiv (T := ℤ).symm w, by rw [hsymm]; exact w3,
          by rw [hsymm]; exact ⟨w1, w2⟩⟩) (by
        rw [List.pairwise_iff_getElem]
        intro i j hi hj hij
        exact y5 i j hi hj hij.ne) r.factors pos' hl
      exact ⟨w1, fun e he => (w2 e he).1⟩

end Poly

end Algebraics
