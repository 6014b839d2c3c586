import Verif.Lemmas.FactorTop
import Verif.Props.FactorFalse

/-!
Property C27, the part that holds: the factors are irreducible when the leading coefficient is small, or
more generally when its residue modulo the prime divides it.
-/

namespace Algebraics

open Polynomial

/-- C27, in part: every factor returned is irreducible over the integers, for every stream of random
numbers and every order of the heap, provided that for each primitive divisor `z` of the input and each
prime that suits `z` the residue of the leading coefficient of `z` divides that leading coefficient.
Missing: without this condition the claim is false, see `C27_irreducible_false`. -/
theorem C27_irreducible_partial (choose : ℕ → List ℕ → ℕ) (hc : Poly.HeapOrder choose) (rng : ℕ → ℕ)
    (fuel pos : ℕ) (f : Poly ℤ)
    (hres : ∀ z : Poly ℤ, z.toPoly.IsPrimitive → 0 < z.toPoly.leadingCoeff → z.toPoly ∣ f.toPoly →
      ∀ p, z.GoodPrime p → z.toPoly.leadingCoeff % p ∣ z.toPoly.leadingCoeff)
    (r : Poly.Factors) (pos' : ℕ) (h : f.factor choose rng fuel pos = .ok (r, pos')) :
    ∀ e ∈ r.factors, Irreducible e.1.toPoly :=
  Poly.factor_irreducible choose hc rng fuel pos f (fun z h1 => hres z h1.1 h1.2) r pos' h

/-- C27, in part: every factor returned is irreducible when the leading coefficient of the input is, up to
the sign, at most 4, in particular when the input is monic.  Missing: larger leading coefficients; the
witness of `C27_irreducible_false` has 5. -/
theorem C27_small_leading_partial (choose : ℕ → List ℕ → ℕ) (hc : Poly.HeapOrder choose) (rng : ℕ → ℕ)
    (fuel pos : ℕ) (f : Poly ℤ) (hl : |f.toPoly.leadingCoeff| ≤ 4)
    (r : Poly.Factors) (pos' : ℕ) (h : f.factor choose rng fuel pos = .ok (r, pos')) :
    ∀ e ∈ r.factors, Irreducible e.1.toPoly := by
  by_cases hf : f.toPoly = 0
  · have : f = .ofCoeffs [] := Poly.toPoly_injective (by rw [hf, Poly.toPoly_ofCoeffs]; rfl)
    subst this
    have hfac : Poly.factor choose rng fuel pos (.ofCoeffs []) = .ok (⟨0, []⟩, pos) := rfl
    rw [hfac] at h
    cases h
    simp
  refine C27_irreducible_partial choose hc rng fuel pos f ?_ r pos' h
  intro z z1 z2 z3 p hp
  obtain ⟨k, hk⟩ := z3
  have hlk : f.toPoly.leadingCoeff = z.toPoly.leadingCoeff * k.leadingCoeff := by rw [hk, leadingCoeff_mul]
  have hlf : f.toPoly.leadingCoeff ≠ 0 := leadingCoeff_ne_zero.mpr hf
  have h4 : z.toPoly.leadingCoeff ≤ 4 := by
    have h5 : z.toPoly.leadingCoeff ∣ |f.toPoly.leadingCoeff| := (dvd_abs _ _).mpr ⟨_, hlk⟩
    exact (Int.le_of_dvd (abs_pos.mpr hlf) h5).trans hl
  obtain ⟨p1, p2, -, p4, -⟩ := hp
  have hp2 := p1.two_le
  generalize z.toPoly.leadingCoeff = c at z2 h4 p4
  by_cases hcp : c < p
  · rw [Int.emod_eq_of_lt z2.le hcp]
  · have hp4 : (p : ℤ) ≤ 4 := by omega
    have hp4' : p ≤ 4 := by exact_mod_cast hp4
    have hp3 : p = 3 := by
      interval_cases p
      · exact absurd rfl p2
      · rfl
      · exact absurd p1 (by norm_num)
    subst hp3
    have hc4 : c = 4 := by
      rcases (show c = 3 ∨ c = 4 by push_cast at hcp; omega) with h | h
      · exact absurd (by rw [h]; norm_num) p4
      · exact h
    rw [hc4]
    norm_num

/-! A run that the theorems apply to: `(2x + 1)(x² + 1)` is split, for every heap order and every stream
of random numbers. -/

/-- `(2x + 1)(x² + 1)` -/
def splits : Poly ℤ := .ofCoeffs [1, 2, 1, 2]

namespace Splits

open Poly Missed

def rational : Poly ℚ := .ofCoeffs [1, 2, 1, 2]

theorem prime_eq : selectPrime splits (2 ^ 31) 2 = some 3 := by
  rw [show (2 ^ 31 : ℕ) = 2147483647 + 1 by norm_num, selectPrime]
  rw [show nextPrimeI32 2 = some (some 3) by decide +kernel]
  simp only
  rw [if_neg (by decide +kernel), show (modPoly (Int.toNat 3) splits).isSquareFree = some true by decide +kernel]
  rfl

theorem ddf_eq : (modPoly 3 splits).ddf = some [ofCoeffs [2], ofCoeffs [2, 1], ofCoeffs [1, 0, 1]] := by
  decide +kernel

def factors : List (Poly (ZMod 3)) := [ofCoeffs [2], ofCoeffs [2, 1], ofCoeffs [1, 0, 1]]

theorem modular_eq (rng : ℕ → ℕ) (fuel pos : ℕ) :
    modularFactors rng fuel pos (modPoly 3 splits) = .ok (factors, pos) := by
  have h2 : sdf rng fuel 1 pos (ofCoeffs [2, 1] : Poly (ZMod 3)) = .ok ([ofCoeffs [2, 1]], pos) := by
    rw [sdf, if_neg (by decide +kernel), if_pos (by decide +kernel)]
  have h3 : sdf rng fuel 2 pos (ofCoeffs [1, 0, 1] : Poly (ZMod 3)) = .ok ([ofCoeffs [1, 0, 1]], pos) := by
    rw [sdf, if_neg (by decide +kernel), if_pos (by decide +kernel)]
  rw [modularFactors, ddf_eq]
  simp only
  rw [flatFactors, if_neg (by decide +kernel), if_pos rfl]
  rw [flatFactors, if_neg (by decide +kernel), if_neg (by omega), h2]
  simp only
  rw [flatFactors, if_neg (by decide +kernel), if_neg (by omega), h3]
  simp only
  rw [flatFactors]
  rfl

def node1 : FTree 3 := (FTree.mkNode (.leaf (.ofCoeffs [2])) (.leaf (.ofCoeffs [2, 1]))).getD (dflt 3)
def node2 : FTree 3 := (FTree.mkNode node1 (.leaf (.ofCoeffs [1, 0, 1]))).getD (dflt 3)

theorem build_eq (choose : ℕ → List ℕ → ℕ) (hc : HeapOrder choose) :
    FTree.build choose (factors.length + 1) 0 (factors.map FTree.leaf) = some (some node2) := by
  show FTree.build choose 4 0 [.leaf (.ofCoeffs [2]), .leaf (.ofCoeffs [2, 1]), .leaf (.ofCoeffs [1, 0, 1])] = _
  have hn1 : FTree.mkNode (.leaf (.ofCoeffs [2])) (.leaf (.ofCoeffs [2, 1])) = some node1 :=
    eq_some_getD _ _ (by decide +kernel)
  have hn2 : FTree.mkNode node1 (.leaf (.ofCoeffs [1, 0, 1])) = some node2 :=
    eq_some_getD _ _ (by decide +kernel)
  rw [FTree.build, pop_eq choose hc _ _ (by decide +kernel) (by simp)]
  rw [pop_at _ 0 _ _ (by decide +kernel) rfl]
  simp only [List.eraseIdx]
  rw [pop_eq choose hc _ _ (by decide +kernel) (by simp)]
  rw [pop_at _ 0 _ _ (by decide +kernel) rfl]
  simp only [List.eraseIdx]
  rw [hn1]
  simp only
  rw [FTree.build, pop_eq choose hc _ _ (by decide +kernel) (by simp)]
  rw [pop_at _ 0 _ _ (by decide +kernel) rfl]
  simp only [List.eraseIdx]
  rw [pop_eq choose hc _ _ (by decide +kernel) (by simp)]
  rw [pop_at _ 0 _ _ (by decide +kernel) rfl]
  simp only [List.eraseIdx]
  rw [hn2]
  simp only
  rw [FTree.build, pop_eq choose hc _ _ (by decide +kernel) (by simp)]
  rw [pop_at _ 0 _ _ (by decide +kernel) rfl]
  simp only [List.eraseIdx]
  rfl

def tree1 : FTree (3 * 3) := (node2.henselStep (3 * 3) (modPoly _ splits)).getD (dflt _)
def tree2 : FTree (3 * 3 * (3 * 3)) := (tree1.henselStep _ (modPoly _ splits)).getD (dflt _)
def tree3 : FTree (3 * 3 * (3 * 3) * (3 * 3 * (3 * 3))) := (tree2.henselStep _ (modPoly _ splits)).getD (dflt _)

theorem limit_eq : splits.factorLimit.toNat = 16384 := by decide +kernel

theorem sqrt_eq : Nat.sqrt 16384 = 128 := by
  symm; rw [Nat.eq_sqrt]; norm_num

theorem lift_eq : liftLoop splits splits.factorLimit.toNat (splits.factorLimit.toNat + 2) 3 node2 = some ⟨_, tree3⟩ := by
  rw [limit_eq]
  have hl : ∀ n, n ≤ 81 → needsLift 16384 n = true := by
    intro n hn
    rw [needsLift, sqrt_eq]
    rw [if_pos (by norm_num)]
    simp; omega
  have hl' : needsLift 16384 (3 * 3 * (3 * 3) * (3 * 3 * (3 * 3))) = false := by
    rw [needsLift, sqrt_eq]
    norm_num
  have h1 : node2.henselStep (3 * 3) (modPoly _ splits) = some tree1 := eq_some_getD _ _ (by decide +kernel)
  have h2 : tree1.henselStep _ (modPoly _ splits) = some tree2 := eq_some_getD _ _ (by decide +kernel)
  have h3 : tree2.henselStep _ (modPoly _ splits) = some tree3 := eq_some_getD _ _ (by decide +kernel)
  rw [show 16384 + 2 = 16382 + 1 + 1 + 1 + 1 by norm_num]
  rw [liftLoop, if_pos (hl _ (by norm_num)), h1]
  simp only
  rw [liftLoop, if_pos (hl _ (by norm_num)), h2]
  simp only
  rw [liftLoop, if_pos (hl _ (by norm_num)), h3]
  simp only
  rw [liftLoop, if_neg (by rw [hl']; simp)]

theorem recombine_eq : recombine splits tree3 = some [ofCoeffs [1, 2], ofCoeffs [1, 0, 1]] := by decide +kernel

theorem square_free_eq (choose : ℕ → List ℕ → ℕ) (hc : HeapOrder choose) (rng : ℕ → ℕ) (fuel pos : ℕ) :
    factorSquareFree choose rng fuel pos splits = .ok ([ofCoeffs [1, 2], ofCoeffs [1, 0, 1]], pos) := by
  rw [factorSquareFree, if_neg (by decide +kernel), prime_eq]
  simp only
  rw [modular_eq]
  simp only
  have : liftAndRecombine choose splits factors = some [ofCoeffs [1, 2], ofCoeffs [1, 0, 1]] := by
    rw [liftAndRecombine, build_eq choose hc]
    simp only
    rw [lift_eq]
    exact recombine_eq
  rw [this]

theorem factor_eq (choose : ℕ → List ℕ → ℕ) (hc : HeapOrder choose) (rng : ℕ → ℕ) (fuel pos : ℕ) :
    splits.factor choose rng fuel pos =
      .ok (⟨1, [(ofCoeffs [1, 2], 1), (ofCoeffs [1, 0, 1], 1)]⟩, pos) := by
  unfold Poly.factor
  simp only
  rw [show splits.coeffs.mapM (fun v => checkedExactDivInt v (splits.content intGcd)) =
    some [1, 2, 1, 2] by decide +kernel]
  simp only
  have hr : (ofCoeffs ([1, 2, 1, 2].map fun v : ℤ => (v : ℚ)) : Poly ℚ) = rational := by
    decide +kernel
  rw [hr, show rational.yun ratGcd = some (1, [rational]) by decide +kernel]
  simp only
  rw [factorLoop, show ofCoeffs (ratElements rational) = splits by decide +kernel, square_free_eq choose hc]
  simp only
  rw [factorLoop, show splits.content intGcd = 1 by decide +kernel]
  rfl

end Splits

example (rng : ℕ → ℕ) : Irreducible (Poly.ofCoeffs [1, 0, 1] : Poly ℤ).toPoly :=
  C27_small_leading_partial firstSmallest firstSmallest_order rng 0 0 splits
    (by rw [← Poly.highest_eq]; decide +kernel) _ _
    (Splits.factor_eq firstSmallest firstSmallest_order rng 0 0) (Poly.ofCoeffs [1, 0, 1], 1) (by decide +kernel)

end Algebraics
