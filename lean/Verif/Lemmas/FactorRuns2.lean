import Verif.Lemmas.FactorRuns

/-!
More runs of `factor`, computed for every stream of random numbers and every order of the heap; they are
used by the examples beside the theorems.
-/

namespace Algebraics

theorem SumRun.factor_quad (choose : ℕ → List ℕ → ℕ) (hc : Poly.HeapOrder choose) (rng : ℕ → ℕ)
    (fuel pos : ℕ) : SumRun.quad.factor choose rng fuel pos = .ok (⟨1, [(SumRun.quad, 1)]⟩, pos) := by
  unfold Poly.factor
  simp only
  rw [show SumRun.quad.coeffs.mapM (fun v => checkedExactDivInt v (SumRun.quad.content Poly.intGcd)) =
    some [-8, 0, 1] by decide +kernel]
  simp only
  rw [show (Poly.ofCoeffs ([-8, 0, 1].map fun v : ℤ => (v : ℚ)) : Poly ℚ).yun Poly.ratGcd =
    some (1, [SumRun.quadQ]) by decide +kernel]
  simp only
  rw [Poly.factorLoop, show Poly.ofCoeffs (Poly.ratElements SumRun.quadQ) = SumRun.quad by decide +kernel,
    SumRun.square_free_eq choose hc]
  simp only
  rw [Poly.factorLoop, show SumRun.quad.content Poly.intGcd = 1 by decide +kernel]
  rfl

namespace ShiftRun

open Poly Missed

def quad : Poly ℤ := .ofCoeffs [-1, -2, 1]
def quadQ : Poly ℚ := .ofCoeffs [-1, -2, 1]

theorem prime_eq : selectPrime quad (2 ^ 31) 2 = some 3 := by
  rw [show (2 ^ 31 : ℕ) = 2147483647 + 1 by norm_num, selectPrime]
  rw [show nextPrimeI32 2 = some (some 3) by decide +kernel]
  simp only
  rw [if_neg (by decide +kernel), show (modPoly (Int.toNat 3) quad).isSquareFree = some true by decide +kernel]
  rfl

theorem ddf_eq : (modPoly 3 quad).ddf = some [ofCoeffs [1], ofCoeffs [1], ofCoeffs [2, 1, 1]] := by
  decide +kernel

theorem modular_eq (rng : ℕ → ℕ) (fuel pos : ℕ) :
    modularFactors rng fuel pos (modPoly 3 quad) = .ok ([ofCoeffs [2, 1, 1]], pos) := by
  have h3 : sdf rng fuel 2 pos (ofCoeffs [2, 1, 1] : Poly (ZMod 3)) = .ok ([ofCoeffs [2, 1, 1]], pos) := by
    rw [sdf, if_neg (by decide +kernel), if_pos (by decide +kernel)]
  rw [modularFactors, ddf_eq]
  simp only
  rw [flatFactors, if_pos (by decide +kernel)]
  rw [flatFactors, if_pos (by decide +kernel)]
  rw [flatFactors, if_neg (by decide +kernel), if_neg (by omega), h3]
  simp only
  rw [flatFactors]
  rfl

def node : FTree 3 := .leaf (.ofCoeffs [2, 1, 1])

theorem build_eq (choose : ℕ → List ℕ → ℕ) (hc : HeapOrder choose) :
    FTree.build choose 2 0 [node] = some (some node) := by
  rw [FTree.build, pop_eq choose hc _ _ (by decide +kernel) (by simp)]
  rw [pop_at _ 0 _ _ (by decide +kernel) rfl]
  simp only [List.eraseIdx]
  rfl

def tree1 : FTree (3 * 3) := (node.henselStep (3 * 3) (modPoly _ quad)).getD (dflt _)
def tree2 : FTree (3 * 3 * (3 * 3)) := (tree1.henselStep _ (modPoly _ quad)).getD (dflt _)

theorem limit_eq : quad.factorLimit.toNat = 768 := by decide +kernel

theorem sqrt_eq : Nat.sqrt 768 = 27 := by
  symm; rw [Nat.eq_sqrt]; norm_num

theorem lift_eq : liftLoop quad quad.factorLimit.toNat (quad.factorLimit.toNat + 2) 3 node = some ⟨_, tree2⟩ := by
  rw [limit_eq]
  have hl : ∀ n, n ≤ 9 → needsLift 768 n = true := by
    intro n hn
    rw [needsLift, sqrt_eq]
    rw [if_neg (by norm_num)]
    simp; omega
  have hl' : needsLift 768 (3 * 3 * (3 * 3)) = false := by
    rw [needsLift, sqrt_eq]
    norm_num
  have h1 : node.henselStep (3 * 3) (modPoly _ quad) = some tree1 := eq_some_getD _ _ (by decide +kernel)
  have h2 : tree1.henselStep _ (modPoly _ quad) = some tree2 := eq_some_getD _ _ (by decide +kernel)
  rw [show 768 + 2 = 766 + 1 + 1 + 1 + 1 by norm_num]
  rw [liftLoop, if_pos (hl _ (by norm_num)), h1]
  simp only
  rw [liftLoop, if_pos (hl _ (by norm_num)), h2]
  simp only
  rw [liftLoop, if_neg (by rw [hl']; simp)]

theorem recombine_eq : recombine quad tree2 = some [quad] := by decide +kernel

theorem square_free_eq (choose : ℕ → List ℕ → ℕ) (hc : HeapOrder choose) (rng : ℕ → ℕ) (fuel pos : ℕ) :
    factorSquareFree choose rng fuel pos quad = .ok ([quad], pos) := by
  rw [factorSquareFree, if_neg (by decide +kernel), prime_eq]
  simp only
  rw [modular_eq]
  simp only
  have : liftAndRecombine choose quad [(ofCoeffs [2, 1, 1] : Poly (ZMod 3))] = some [quad] := by
    rw [liftAndRecombine, show (List.map FTree.leaf [(ofCoeffs [2, 1, 1] : Poly (ZMod 3))]) = [node] from rfl,
      show [(ofCoeffs [2, 1, 1] : Poly (ZMod 3))].length + 1 = 2 from rfl, build_eq choose hc]
    simp only
    rw [lift_eq]
    exact recombine_eq
  rw [this]

/-- factoring `z² - 2z - 1`, for every stream of random numbers and every order of the heap -/
theorem factor_eq (choose : ℕ → List ℕ → ℕ) (hc : HeapOrder choose) (rng : ℕ → ℕ) (fuel pos : ℕ) :
    quad.factor choose rng fuel pos = .ok (⟨1, [(quad, 1)]⟩, pos) := by
  unfold Poly.factor
  simp only
  rw [show quad.coeffs.mapM (fun v => checkedExactDivInt v (quad.content intGcd)) =
    some [-1, -2, 1] by decide +kernel]
  simp only
  rw [show (ofCoeffs ([-1, -2, 1].map fun v : ℤ => (v : ℚ)) : Poly ℚ).yun ratGcd =
    some (1, [quadQ]) by decide +kernel]
  simp only
  rw [factorLoop, show ofCoeffs (ratElements quadQ) = quad by decide +kernel, square_free_eq choose hc]
  simp only
  rw [factorLoop, show quad.content intGcd = 1 by decide +kernel]
  rfl

/-- the same polynomial with the opposite sign -/
def negQuad : Poly ℤ := .ofCoeffs [1, 2, -1]

theorem factor_neg (choose : ℕ → List ℕ → ℕ) (hc : HeapOrder choose) (rng : ℕ → ℕ) (fuel pos : ℕ) :
    negQuad.factor choose rng fuel pos = .ok (⟨-1, [(quad, 1)]⟩, pos) := by
  unfold Poly.factor
  simp only
  rw [show negQuad.coeffs.mapM (fun v => checkedExactDivInt v (negQuad.content intGcd)) =
    some [-1, -2, 1] by decide +kernel]
  simp only
  rw [show (ofCoeffs ([-1, -2, 1].map fun v : ℤ => (v : ℚ)) : Poly ℚ).yun ratGcd =
    some (1, [quadQ]) by decide +kernel]
  simp only
  rw [factorLoop, show ofCoeffs (ratElements quadQ) = quad by decide +kernel, square_free_eq choose hc]
  simp only
  rw [factorLoop, show negQuad.content intGcd = -1 by decide +kernel]
  rfl

end ShiftRun

namespace FractRun

open Poly Missed

def quad : Poly ℤ := .ofCoeffs [-1, 2, 1]
def quadQ : Poly ℚ := .ofCoeffs [-1, 2, 1]

theorem prime_eq : selectPrime quad (2 ^ 31) 2 = some 3 := by
  rw [show (2 ^ 31 : ℕ) = 2147483647 + 1 by norm_num, selectPrime]
  rw [show nextPrimeI32 2 = some (some 3) by decide +kernel]
  simp only
  rw [if_neg (by decide +kernel), show (modPoly (Int.toNat 3) quad).isSquareFree = some true by decide +kernel]
  rfl

theorem ddf_eq : (modPoly 3 quad).ddf = some [ofCoeffs [1], ofCoeffs [1], ofCoeffs [2, 2, 1]] := by
  decide +kernel

theorem modular_eq (rng : ℕ → ℕ) (fuel pos : ℕ) :
    modularFactors rng fuel pos (modPoly 3 quad) = .ok ([ofCoeffs [2, 2, 1]], pos) := by
  have h3 : sdf rng fuel 2 pos (ofCoeffs [2, 2, 1] : Poly (ZMod 3)) = .ok ([ofCoeffs [2, 2, 1]], pos) := by
    rw [sdf, if_neg (by decide +kernel), if_pos (by decide +kernel)]
  rw [modularFactors, ddf_eq]
  simp only
  rw [flatFactors, if_pos (by decide +kernel)]
  rw [flatFactors, if_pos (by decide +kernel)]
  rw [flatFactors, if_neg (by decide +kernel), if_neg (by omega), h3]
  simp only
  rw [flatFactors]
  rfl

def node : FTree 3 := .leaf (.ofCoeffs [2, 2, 1])

theorem build_eq (choose : ℕ → List ℕ → ℕ) (hc : HeapOrder choose) :
    FTree.build choose 2 0 [node] = some (some node) := by
  rw [FTree.build, pop_eq choose hc _ _ (by decide +kernel) (by simp)]
  rw [pop_at _ 0 _ _ (by decide +kernel) rfl]
  simp only [List.eraseIdx]
  rfl

def tree1 : FTree (3 * 3) := (node.henselStep (3 * 3) (modPoly _ quad)).getD (dflt _)
def tree2 : FTree (3 * 3 * (3 * 3)) := (tree1.henselStep _ (modPoly _ quad)).getD (dflt _)

theorem limit_eq : quad.factorLimit.toNat = 768 := by decide +kernel

theorem sqrt_eq : Nat.sqrt 768 = 27 := by
  symm; rw [Nat.eq_sqrt]; norm_num

theorem lift_eq : liftLoop quad quad.factorLimit.toNat (quad.factorLimit.toNat + 2) 3 node = some ⟨_, tree2⟩ := by
  rw [limit_eq]
  have hl : ∀ n, n ≤ 9 → needsLift 768 n = true := by
    intro n hn
    rw [needsLift, sqrt_eq]
    rw [if_neg (by norm_num)]
    simp; omega
  have hl' : needsLift 768 (3 * 3 * (3 * 3)) = false := by
    rw [needsLift, sqrt_eq]
    norm_num
  have h1 : node.henselStep (3 * 3) (modPoly _ quad) = some tree1 := eq_some_getD _ _ (by decide +kernel)
  have h2 : tree1.henselStep _ (modPoly _ quad) = some tree2 := eq_some_getD _ _ (by decide +kernel)
  rw [show 768 + 2 = 766 + 1 + 1 + 1 + 1 by norm_num]
  rw [liftLoop, if_pos (hl _ (by norm_num)), h1]
  simp only
  rw [liftLoop, if_pos (hl _ (by norm_num)), h2]
  simp only
  rw [liftLoop, if_neg (by rw [hl']; simp)]

theorem recombine_eq : recombine quad tree2 = some [quad] := by decide +kernel

theorem square_free_eq (choose : ℕ → List ℕ → ℕ) (hc : HeapOrder choose) (rng : ℕ → ℕ) (fuel pos : ℕ) :
    factorSquareFree choose rng fuel pos quad = .ok ([quad], pos) := by
  rw [factorSquareFree, if_neg (by decide +kernel), prime_eq]
  simp only
  rw [modular_eq]
  simp only
  have : liftAndRecombine choose quad [(ofCoeffs [2, 2, 1] : Poly (ZMod 3))] = some [quad] := by
    rw [liftAndRecombine, show (List.map FTree.leaf [(ofCoeffs [2, 2, 1] : Poly (ZMod 3))]) = [node] from rfl,
      show [(ofCoeffs [2, 2, 1] : Poly (ZMod 3))].length + 1 = 2 from rfl, build_eq choose hc]
    simp only
    rw [lift_eq]
    exact recombine_eq
  rw [this]

/-- factoring `z² + 2z - 1`, for every stream of random numbers and every order of the heap -/
theorem factor_eq (choose : ℕ → List ℕ → ℕ) (hc : HeapOrder choose) (rng : ℕ → ℕ) (fuel pos : ℕ) :
    quad.factor choose rng fuel pos = .ok (⟨1, [(quad, 1)]⟩, pos) := by
  unfold Poly.factor
  simp only
  rw [show quad.coeffs.mapM (fun v => checkedExactDivInt v (quad.content intGcd)) =
    some [-1, 2, 1] by decide +kernel]
  simp only
  rw [show (ofCoeffs ([-1, 2, 1].map fun v : ℤ => (v : ℚ)) : Poly ℚ).yun ratGcd =
    some (1, [quadQ]) by decide +kernel]
  simp only
  rw [factorLoop, show ofCoeffs (ratElements quadQ) = quad by decide +kernel, square_free_eq choose hc]
  simp only
  rw [factorLoop, show quad.content intGcd = 1 by decide +kernel]
  rfl

end FractRun

end Algebraics
