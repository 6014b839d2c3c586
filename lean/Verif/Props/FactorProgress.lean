import Verif.Props.Factor
import Verif.Lemmas.FactorProgress
import Verif.Lemmas.GoodPrime

/-!
# Property C61, and C26 without an assumption on primes: factoring ends
-/

namespace Algebraics

open Polynomial

/-- C26: factoring never panics for polynomials of moderate size: degree `n` and coefficients of `h` bits with
`n (5 n + h) < 2^29`, for example degree 1000 and coefficients of 500000 bits. No assumption on primes is
made. -/
theorem C26_no_panic_sized (choose : ℕ → List ℕ → ℕ) (hc : Poly.HeapOrder choose) (rng : ℕ → ℕ)
    (fuel pos : ℕ) (f : Poly ℤ) (h : ℕ) (hh : ∀ i, |f.toPoly.coeff i| < 2 ^ h)
    (hsize : f.toPoly.natDegree * (5 * f.toPoly.natDegree + h) < 2 ^ 29) :
    f.factor choose rng fuel pos ≠ .error .panic := by
  by_cases hf : f.toPoly = 0
  · have : f = Poly.ofCoeffs [] := Poly.toPoly_injective (by rw [hf, Poly.toPoly_ofCoeffs]; rfl)
    rw [this]
    intro h
    have e : (Poly.ofCoeffs [] : Poly ℤ).factor choose rng fuel pos = .ok (⟨0, []⟩, pos) := rfl
    rw [e] at h
    cases h
  · exact C26_no_panic choose hc rng fuel pos f fun z h1 _ _ h4 h5 =>
      Poly.exists_goodPrime f z h hf h1 hh hsize h4 h5

/-- the hypotheses hold for `6 z^4 - 12 z^2 + 6`: four bits are enough -/
example (rng : ℕ → ℕ) (fuel pos : ℕ) :
    (Poly.ofCoeffs [6, 0, -12, 0, 6] : Poly ℤ).factor firstSmallest rng fuel pos ≠ .error .panic := by
  have hdeg : (Poly.ofCoeffs [6, 0, -12, 0, 6] : Poly ℤ).toPoly.natDegree ≤ 4 := by
    rw [Poly.toPoly_ofCoeffs]
    refine natDegree_le_iff_coeff_eq_zero.mpr fun N hN => ?_
    rw [listPoly_coeff, List.getD_eq_getElem?_getD, List.getElem?_eq_none (by simp; omega)]
    rfl
  refine C26_no_panic_sized firstSmallest firstSmallest_order rng fuel pos _ 4 ?_ ?_
  · intro i
    rw [Poly.toPoly_ofCoeffs, listPoly_coeff]
    match i with
    | 0 => decide
    | 1 => decide
    | 2 => decide
    | 3 => decide
    | 4 => decide
    | n + 5 => rw [List.getD_eq_getElem?_getD, List.getElem?_eq_none (by simp)]; decide
  · refine lt_of_le_of_lt (Nat.mul_le_mul hdeg (Nat.add_le_add_right (Nat.mul_le_mul_left 5 hdeg) 4)) ?_
    norm_num

/-- C61: factoring has no dead end. For each polynomial and each position in the random numbers there are
finitely many random numbers with which factoring is done, whatever comes after them, and it has used up
exactly these. -/
theorem C61_can_finish (choose : ℕ → List ℕ → ℕ) (hc : Poly.HeapOrder choose) (f : Poly ℤ)
    (hp : ∀ z : Poly ℤ, z.toPoly ∣ f.toPoly → z.toPoly.IsPrimitive → 0 < z.toPoly.leadingCoeff →
      2 ≤ z.toPoly.natDegree → Squarefree (z.toPoly.map (Int.castRingHom ℚ)) → ∃ p, z.GoodPrime p)
    (pos : ℕ) : ∃ (draws : List ℕ) (r : Poly.Factors) (N : ℕ), ∀ rng : ℕ → ℕ,
      (∀ i (h : i < draws.length), rng (pos + i) = draws[i]) → ∀ fuel, N ≤ fuel →
      f.factor choose rng fuel pos = .ok (r, pos + draws.length) := by
  obtain ⟨l, out, N, h⟩ := Poly.factor_can choose f pos
  cases out with
  | none =>
    exfalso
    have h1 : f.factor choose (fun j => l.getD (j - pos) 0) N pos = .error .panic := h _ (by
      intro i hi
      simp [hi]) N le_rfl
    exact C26_no_panic choose hc _ N pos f hp h1
  | some r => exact ⟨l, r, N, fun rng hr fuel hf => h rng hr fuel hf⟩

/-- C61: the inner loop has no dead end either. At whatever moment one looks at the polynomials that are
still to be split into their irreducible factors of degree `d`, there are finitely many random numbers with
which the loop is done. -/
theorem C61_no_dead_end {p : ℕ} [Fact p.Prime] (hp2 : p ≠ 2) (d : ℕ) (hd : 0 < d)
    (todo done : List (Poly (ZMod p)))
    (h : ∀ f ∈ todo, f.toPoly.Monic ∧ f.toPoly.natDegree ≠ 0 ∧ Squarefree f.toPoly ∧
      ∀ q, Irreducible q → q ∣ f.toPoly → q.natDegree = d)
    (hdone : ∀ f ∈ done, f.toPoly.Monic ∧ Irreducible f.toPoly ∧ f.toPoly.natDegree = d) (pos : ℕ) :
    ∃ (draws : List ℕ) (l : List (Poly (ZMod p))) (N : ℕ),
      (∀ f ∈ l, f.toPoly.Monic ∧ Irreducible f.toPoly ∧ f.toPoly.natDegree = d) ∧
      (l.map Poly.toPoly).prod = (done.map Poly.toPoly).prod * (todo.map Poly.toPoly).prod ∧
      ∀ rng : ℕ → ℕ, (∀ i (h : i < draws.length), rng (pos + i) = draws[i]) → ∀ fuel, N ≤ fuel →
        Poly.sdfLoop rng d fuel pos todo done = .ok (l, pos + draws.length) := by
  have hs : ∀ f ∈ todo, Poly.SameDegree d f.toPoly ∧ Squarefree f.toPoly := fun f hf =>
    ⟨⟨(h f hf).1, (h f hf).2.1, (h f hf).2.2.2⟩, (h f hf).2.2.1⟩
  obtain ⟨l, out, N, hl⟩ := Poly.sdfLoop_can hp2 d hd _ todo done hs le_rfl pos
  have hrun : Poly.sdfLoop (fun j => l.getD (j - pos) 0) d N pos todo done = outcome (pos + l.length) out :=
    hl _ (by intro i hi; simp [hi]) N le_rfl
  rcases Poly.sdfLoop_spec hp2 (fun j => l.getD (j - pos) 0) d hd N pos todo done (fun f hf => (hs f hf).1)
    hdone with h1 | ⟨l', pos', h1, h2, h3⟩
  · rw [h1] at hrun
    cases out <;> cases hrun
  · rw [h1] at hrun
    cases out with
    | none => cases hrun
    | some r =>
      cases hrun
      exact ⟨l, l', N, h2, h3, fun rng hr fuel hf => hl rng hr fuel hf⟩

/-- the hypotheses hold modulo 5, with `z (z - 1)` still to be split and `z - 2` done -/
example (pos : ℕ) : ∃ (draws : List ℕ) (l : List (Poly (ZMod 5))) (N : ℕ),
    ∀ rng : ℕ → ℕ, (∀ i (h : i < draws.length), rng (pos + i) = draws[i]) → ∀ fuel, N ≤ fuel →
      Poly.sdfLoop rng 1 fuel pos [Poly.ofCoeffs [0, -1, 1]] [Poly.ofCoeffs [-2, 1]] =
        .ok (l, pos + draws.length) := by
  have : Fact (Nat.Prime 5) := ⟨by norm_num⟩
  have e1 : (Poly.ofCoeffs [0, -1, 1] : Poly (ZMod 5)).toPoly = X * (X - C 1) := by
    rw [Poly.toPoly_ofCoeffs]; simp; ring
  have e2 : (Poly.ofCoeffs [-2, 1] : Poly (ZMod 5)).toPoly = X - C 2 := by
    rw [Poly.toPoly_ofCoeffs]; simp; ring
  have hcop : IsCoprime (X : (ZMod 5)[X]) (X - C 1) := ⟨1, -1, by simp⟩
  obtain ⟨draws, l, N, -, -, h⟩ := C61_no_dead_end (p := 5) (by norm_num) 1 (by norm_num)
    [Poly.ofCoeffs [0, -1, 1]] [Poly.ofCoeffs [-2, 1]] (by
      intro f hf
      rw [List.mem_singleton.mp hf, e1]
      refine ⟨monic_X.mul (monic_X_sub_C 1), ?_, ?_, ?_⟩
      · rw [monic_X.natDegree_mul (monic_X_sub_C 1), natDegree_X, natDegree_X_sub_C]; norm_num
      · exact (separable_X.mul (separable_X_sub_C) hcop).squarefree
      · intro q hq hd
        rcases hq.prime.dvd_or_dvd hd with h | h
        · have := (hq.associated_of_dvd irreducible_X h)
          rw [natDegree_eq_of_degree_eq (degree_eq_degree_of_associated this), natDegree_X]
        · have := (hq.associated_of_dvd (irreducible_X_sub_C 1) h)
          rw [natDegree_eq_of_degree_eq (degree_eq_degree_of_associated this), natDegree_X_sub_C]) (by
      intro f hf
      rw [List.mem_singleton.mp hf, e2]
      exact ⟨monic_X_sub_C 2, irreducible_X_sub_C 2, natDegree_X_sub_C 2⟩) pos
  exact ⟨draws, l, N, h⟩

/-- C61: with random numbers in which no finite pattern is avoided for ever, factoring ends, whatever the
polynomial and wherever in the random numbers it begins, and the outcome does not depend on the number of
turns it is given. Such random numbers exist (`exists_fair`). -/
theorem C61_fair_finishes (choose : ℕ → List ℕ → ℕ) (hc : Poly.HeapOrder choose) (rng : ℕ → ℕ)
    (hfair : Fair rng) (f : Poly ℤ)
    (hp : ∀ z : Poly ℤ, z.toPoly ∣ f.toPoly → z.toPoly.IsPrimitive → 0 < z.toPoly.leadingCoeff →
      2 ≤ z.toPoly.natDegree → Squarefree (z.toPoly.map (Int.castRingHom ℚ)) → ∃ p, z.GoodPrime p)
    (pos : ℕ) : ∃ (r : Poly.Factors) (pos' N : ℕ), ∀ fuel, N ≤ fuel →
      f.factor choose rng fuel pos = .ok (r, pos') := by
  obtain ⟨res, hres, N, hN⟩ := Poly.factor_fair choose rng hfair f pos
  cases res with
  | error e =>
    cases e with
    | fuel => exact absurd rfl hres
    | panic => exact absurd (hN N le_rfl) (C26_no_panic choose hc rng N pos f hp)
  | ok r =>
    obtain ⟨r, pos'⟩ := r
    exact ⟨r, pos', N, hN⟩

/-- C61: the same for polynomials of moderate size, with what the result is. -/
theorem C61_fair_finishes_sized (choose : ℕ → List ℕ → ℕ) (hc : Poly.HeapOrder choose) (rng : ℕ → ℕ)
    (hfair : Fair rng) (f : Poly ℤ) (h : ℕ) (hh : ∀ i, |f.toPoly.coeff i| < 2 ^ h)
    (hsize : f.toPoly.natDegree * (5 * f.toPoly.natDegree + h) < 2 ^ 29) (pos : ℕ) :
    ∃ (r : Poly.Factors) (pos' N : ℕ), C r.constant * Poly.powerProduct r.factors = f.toPoly ∧
      ∀ fuel, N ≤ fuel → f.factor choose rng fuel pos = .ok (r, pos') := by
  obtain ⟨res, hres, N, hN⟩ := Poly.factor_fair choose rng hfair f pos
  cases res with
  | error e =>
    cases e with
    | fuel => exact absurd rfl hres
    | panic => exact absurd (hN N le_rfl) (C26_no_panic_sized choose hc rng N pos f h hh hsize)
  | ok r =>
    obtain ⟨r, pos'⟩ := r
    exact ⟨r, pos', N, (C26_multiplies_back choose hc rng N pos f r pos' (hN N le_rfl)).1, hN⟩

/-- fair random numbers exist, and with them `6 z^4 - 12 z^2 + 6` is factored -/
example : ∃ rng, Fair rng ∧ ∃ (r : Poly.Factors) (pos' N : ℕ), ∀ fuel, N ≤ fuel →
    (Poly.ofCoeffs [6, 0, -12, 0, 6] : Poly ℤ).factor firstSmallest rng fuel 0 = .ok (r, pos') := by
  obtain ⟨rng, hr⟩ := exists_fair
  have hdeg : (Poly.ofCoeffs [6, 0, -12, 0, 6] : Poly ℤ).toPoly.natDegree ≤ 4 := by
    rw [Poly.toPoly_ofCoeffs]
    refine natDegree_le_iff_coeff_eq_zero.mpr fun N hN => ?_
    rw [listPoly_coeff, List.getD_eq_getElem?_getD, List.getElem?_eq_none (by simp; omega)]
    rfl
  obtain ⟨r, pos', N, -, h⟩ := C61_fair_finishes_sized firstSmallest firstSmallest_order rng hr
    (Poly.ofCoeffs [6, 0, -12, 0, 6]) 4 (by
      intro i
      rw [Poly.toPoly_ofCoeffs, listPoly_coeff]
      match i with
      | 0 => decide
      | 1 => decide
      | 2 => decide
      | 3 => decide
      | 4 => decide
      | n + 5 => rw [List.getD_eq_getElem?_getD, List.getElem?_eq_none (by simp)]; decide) (by
      refine lt_of_le_of_lt (Nat.mul_le_mul hdeg (Nat.add_le_add_right (Nat.mul_le_mul_left 5 hdeg) 4)) ?_
      norm_num) 0
  exact ⟨rng, hr, r, pos', N, h⟩

/-- C61: without such random numbers factoring need not end. Modulo 5 the polynomial `z (z - 1)` is never
split by random numbers that are all two, whatever the number of turns. -/
theorem C61_unfair_loops (fuel pos : ℕ) :
    (Poly.ofCoeffs [0, -1, 1] : Poly (ZMod 5)).sdf (fun _ => 2) fuel 1 pos = .error .fuel := by
  have h1 : Poly.sdfSplit 1 (Poly.randomPoly 5 (fun _ => 2) 0 1) (Poly.ofCoeffs [0, -1, 1]) = some none := by
    decide +kernel
  have h2 : ∀ pos, Poly.sdfSplit 1 (Poly.randomPoly 5 (fun _ => 2) pos 1) (Poly.ofCoeffs [0, -1, 1]) =
      some none := fun pos => h1
  have h3 : ∀ fuel pos, Poly.sdfLoop (fun _ => 2) 1 fuel pos [(Poly.ofCoeffs [0, -1, 1] : Poly (ZMod 5))] [] =
      .error .fuel := by
    intro fuel
    induction fuel with
    | zero => intro pos; rfl
    | succ fuel ih =>
      intro pos
      unfold Poly.sdfLoop
      rw [if_neg (by decide +kernel), if_neg (by decide +kernel), h2]
      exact ih _
  unfold Poly.sdf
  rw [if_neg (by decide +kernel), if_neg (by decide +kernel)]
  have h4 : (Poly.ofCoeffs [0, -1, 1] : Poly (ZMod 5)).nonzeroHighestPowerCoefficient = some 1 := by
    decide +kernel
  rw [h4]
  exact h3 fuel pos

end Algebraics
