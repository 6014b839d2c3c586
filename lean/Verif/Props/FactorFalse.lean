import Verif.Props.Factor

/-!
Property C27 is false in full: factoring can return a reducible factor.  The modular factors are not all
monic: the one that carries the leading coefficient is lifted together with it, and a true factor can
then be missed.
-/

namespace Algebraics

open Polynomial

/-- `(5x⁴ + x² + 1)(x⁵ - x³ - 1)` -/
def missed : Poly ℤ := .ofCoeffs [-1, 0, -1, -1, -5, 0, 0, -4, 0, 5]

namespace Missed

open Poly

def rational : Poly ℚ := .ofCoeffs [-1, 0, -1, -1, -5, 0, 0, -4, 0, 5]

theorem yun_eq : rational.yun ratGcd = some (1, [rational]) := by decide +kernel

theorem coeffs_eq : missed.coeffs.mapM (fun v => checkedExactDivInt v (missed.content intGcd)) =
    some [-1, 0, -1, -1, -5, 0, 0, -4, 0, 5] := by decide +kernel

theorem content_eq : missed.content intGcd = 1 := by decide +kernel

theorem elements_eq : ofCoeffs (ratElements rational) = missed := by decide +kernel

theorem prime_eq : selectPrime missed (2 ^ 31) 2 = some 3 := by
  rw [show (2 ^ 31 : ℕ) = 2147483647 + 1 by norm_num, selectPrime]
  rw [show nextPrimeI32 2 = some (some 3) by decide +kernel]
  simp only
  rw [if_neg (by decide +kernel), show (modPoly (Int.toNat 3) missed).isSquareFree = some true by decide +kernel]
  rfl

theorem ddf_eq : (modPoly 3 missed).ddf = some [ofCoeffs [2], ofCoeffs [1], ofCoeffs [2, 1, 1], ofCoeffs [1, 1, 2, 1],
    ofCoeffs [2, 0, 2, 0, 1]] := by decide +kernel

def factors : List (Poly (ZMod 3)) := [ofCoeffs [2], ofCoeffs [2, 1, 1], ofCoeffs [1, 1, 2, 1],
    ofCoeffs [2, 0, 2, 0, 1]]

theorem modular_eq (rng : ℕ → ℕ) (fuel pos : ℕ) :
    modularFactors rng fuel pos (modPoly 3 missed) = .ok (factors, pos) := by
  have h2 : sdf rng fuel 2 pos (ofCoeffs [2, 1, 1] : Poly (ZMod 3)) = .ok ([ofCoeffs [2, 1, 1]], pos) := by
    rw [sdf, if_neg (by decide +kernel), if_pos (by decide +kernel)]
  have h3 : sdf rng fuel 3 pos (ofCoeffs [1, 1, 2, 1] : Poly (ZMod 3)) = .ok ([ofCoeffs [1, 1, 2, 1]], pos) := by
    rw [sdf, if_neg (by decide +kernel), if_pos (by decide +kernel)]
  have h4 : sdf rng fuel 4 pos (ofCoeffs [2, 0, 2, 0, 1] : Poly (ZMod 3)) =
      .ok ([ofCoeffs [2, 0, 2, 0, 1]], pos) := by
    rw [sdf, if_neg (by decide +kernel), if_pos (by decide +kernel)]
  rw [modularFactors, ddf_eq]
  simp only
  rw [flatFactors, if_neg (by decide +kernel), if_pos rfl]
  rw [flatFactors, if_pos (by decide +kernel)]
  rw [flatFactors, if_neg (by decide +kernel), if_neg (by omega), h2]
  simp only
  rw [flatFactors, if_neg (by decide +kernel), if_neg (by omega), h3]
  simp only
  rw [flatFactors, if_neg (by decide +kernel), if_neg (by omega), h4]
  simp only
  rw [flatFactors]
  rfl

/-- the heap has no choice when the degrees are different -/
theorem choose_eq (choose : ℕ → List ℕ → ℕ) (hc : HeapOrder choose) (k : ℕ) (ds : List ℕ) (h : ds.Nodup)
    (h0 : ds ≠ []) : choose k ds = firstSmallest k ds := by
  obtain ⟨d, h1, h2⟩ := hc k ds h0
  obtain ⟨e, h3, h4⟩ := firstSmallest_order k ds h0
  have hde : d = e := le_antisymm (h2 e (List.mem_of_getElem? h3)) (h4 d (List.mem_of_getElem? h1))
  subst hde
  obtain ⟨i1, i2⟩ := List.getElem?_eq_some_iff.mp h1
  obtain ⟨j1, j2⟩ := List.getElem?_eq_some_iff.mp h3
  exact (List.Nodup.getElem_inj_iff h).mp (i2.trans j2.symm)

theorem pop_eq {n : ℕ} (choose : ℕ → List ℕ → ℕ) (hc : HeapOrder choose) (k : ℕ) (heap : List (FTree n))
    (h : (heap.map FTree.degree).Nodup) (h0 : heap.map FTree.degree ≠ []) :
    FTree.pop choose k heap = FTree.pop firstSmallest k heap := by
  rw [FTree.pop, FTree.pop, choose_eq choose hc k _ h h0]

theorem pop_at {n : ℕ} (k i : ℕ) (heap : List (FTree n)) (t : FTree n)
    (h : firstSmallest k (heap.map FTree.degree) = i) (ht : heap[i]? = some t) :
    FTree.pop firstSmallest k heap = some (t, heap.eraseIdx i) := by
  rw [FTree.pop, h, ht]

theorem eq_some_getD {α : Type} (o : Option α) (d : α) (h : o.isSome = true) : o = some (o.getD d) := by
  cases o with
  | none => cases h
  | some a => rfl

def dflt (n : ℕ) : FTree n := .leaf (.ofCoeffs [])

def heap : List (FTree 3) := factors.map FTree.leaf

def node1 : FTree 3 := (FTree.mkNode (.leaf (.ofCoeffs [2])) (.leaf (.ofCoeffs [2, 1, 1]))).getD (dflt 3)
def node2 : FTree 3 := (FTree.mkNode node1 (.leaf (.ofCoeffs [1, 1, 2, 1]))).getD (dflt 3)
def node3 : FTree 3 := (FTree.mkNode (.leaf (.ofCoeffs [2, 0, 2, 0, 1])) node2).getD (dflt 3)

theorem build_eq (choose : ℕ → List ℕ → ℕ) (hc : HeapOrder choose) :
    FTree.build choose (factors.length + 1) 0 (factors.map FTree.leaf) = some (some node3) := by
  show FTree.build choose 5 0 [.leaf (.ofCoeffs [2]), .leaf (.ofCoeffs [2, 1, 1]),
    .leaf (.ofCoeffs [1, 1, 2, 1]), .leaf (.ofCoeffs [2, 0, 2, 0, 1])] = _
  have hn1 : FTree.mkNode (.leaf (.ofCoeffs [2])) (.leaf (.ofCoeffs [2, 1, 1])) = some node1 :=
    eq_some_getD _ _ (by decide +kernel)
  have hn2 : FTree.mkNode node1 (.leaf (.ofCoeffs [1, 1, 2, 1])) = some node2 :=
    eq_some_getD _ _ (by decide +kernel)
  have hn3 : FTree.mkNode (.leaf (.ofCoeffs [2, 0, 2, 0, 1])) node2 = some node3 :=
    eq_some_getD _ _ (by decide +kernel)
  rw [FTree.build, pop_eq choose hc _ _ (by decide +kernel) (by simp)]
  rw [pop_at _ 0 _ _ (by decide +kernel) rfl]
  simp only [List.eraseIdx]
  rw [pop_eq choose hc _ _ (by decide +kernel) (by simp)]
  rw [pop_at _ 0 _ _ (by decide +kernel) rfl]
  simp only [List.eraseIdx]
  rw [hn1]
  simp only
  rw [FTree.build, pop_eq choose hc _ _ (by decide +kernel) (by simp)]
  rw [pop_at _ 0 _ _ (by decide +kernel) rfl]
  simp only [List.eraseIdx]
  rw [pop_eq choose hc _ _ (by decide +kernel) (by simp)]
  rw [pop_at _ 0 _ _ (by decide +kernel) rfl]
  simp only [List.eraseIdx]
  rw [hn2]
  simp only
  rw [FTree.build, pop_eq choose hc _ _ (by decide +kernel) (by simp)]
  rw [pop_at _ 1 _ _ (by decide +kernel) rfl]
  simp only [List.eraseIdx]
  rw [pop_eq choose hc _ _ (by decide +kernel) (by simp)]
  rw [pop_at _ 0 _ _ (by decide +kernel) rfl]
  simp only [List.eraseIdx]
  rw [hn3]
  simp only
  rw [FTree.build, pop_eq choose hc _ _ (by decide +kernel) (by simp)]
  rw [pop_at _ 0 _ _ (by decide +kernel) rfl]
  simp only [List.eraseIdx]
  rfl

def tree1 : FTree (3 * 3) := (node3.henselStep (3 * 3) (modPoly _ missed)).getD (dflt _)
def tree2 : FTree (3 * 3 * (3 * 3)) := (tree1.henselStep _ (modPoly _ missed)).getD (dflt _)
def tree3 : FTree (3 * 3 * (3 * 3) * (3 * 3 * (3 * 3))) := (tree2.henselStep _ (modPoly _ missed)).getD (dflt _)
def tree4 : FTree (3 * 3 * (3 * 3) * (3 * 3 * (3 * 3)) * (3 * 3 * (3 * 3) * (3 * 3 * (3 * 3)))) :=
  (tree3.henselStep _ (modPoly _ missed)).getD (dflt _)

theorem limit_eq : missed.factorLimit.toNat = 6553600000 := by decide +kernel

theorem sqrt_eq : Nat.sqrt 6553600000 = 80954 := by
  symm; rw [Nat.eq_sqrt]; norm_num

theorem lift_eq : liftLoop missed missed.factorLimit.toNat (missed.factorLimit.toNat + 2) 3 node3 = some ⟨_, tree4⟩ := by
  rw [limit_eq]
  have hl : ∀ n, n ≤ 6561 → needsLift 6553600000 n = true := by
    intro n hn
    rw [needsLift, sqrt_eq]
    rw [if_neg (by norm_num)]
    simp; omega
  have hl' : needsLift 6553600000 (3 * 3 * (3 * 3) * (3 * 3 * (3 * 3)) * (3 * 3 * (3 * 3) * (3 * 3 * (3 * 3)))) = false := by
    rw [needsLift, sqrt_eq]
    norm_num
  have h1 : node3.henselStep (3 * 3) (modPoly _ missed) = some tree1 := eq_some_getD _ _ (by decide +kernel)
  have h2 : tree1.henselStep _ (modPoly _ missed) = some tree2 := eq_some_getD _ _ (by decide +kernel)
  have h3 : tree2.henselStep _ (modPoly _ missed) = some tree3 := eq_some_getD _ _ (by decide +kernel)
  have h4 : tree3.henselStep _ (modPoly _ missed) = some tree4 := eq_some_getD _ _ (by decide +kernel)
  rw [show 6553600000 + 2 = 6553599997 + 1 + 1 + 1 + 1 + 1 by norm_num]
  rw [liftLoop, if_pos (hl _ (by norm_num)), h1]
  simp only
  rw [liftLoop, if_pos (hl _ (by norm_num)), h2]
  simp only
  rw [liftLoop, if_pos (hl _ (by norm_num)), h3]
  simp only
  rw [liftLoop, if_pos (hl _ (by norm_num)), h4]
  simp only
  rw [liftLoop, if_neg (by rw [hl']; simp)]

theorem recombine_eq : recombine missed tree4 = some [missed] := by decide +kernel

theorem square_free_eq (choose : ℕ → List ℕ → ℕ) (hc : HeapOrder choose) (rng : ℕ → ℕ) (fuel pos : ℕ) :
    factorSquareFree choose rng fuel pos missed = .ok ([missed], pos) := by
  rw [factorSquareFree, if_neg (by decide +kernel), prime_eq]
  simp only
  rw [modular_eq]
  simp only
  have : liftAndRecombine choose missed factors = some [missed] := by
    rw [liftAndRecombine, build_eq choose hc]
    simp only
    rw [lift_eq]
    exact recombine_eq
  rw [this]

theorem factor_eq (choose : ℕ → List ℕ → ℕ) (hc : HeapOrder choose) (rng : ℕ → ℕ) (fuel pos : ℕ) :
    missed.factor choose rng fuel pos = .ok (⟨1, [(missed, 1)]⟩, pos) := by
  unfold Poly.factor
  simp only
  rw [coeffs_eq]
  simp only
  have hr : (ofCoeffs ([-1, 0, -1, -1, -5, 0, 0, -4, 0, 5].map fun v : ℤ => (v : ℚ)) : Poly ℚ) = rational := by
    decide +kernel
  rw [hr, yun_eq]
  simp only
  rw [factorLoop, elements_eq, square_free_eq choose hc]
  simp only
  rw [factorLoop, content_eq]
  rfl

end Missed

/-- C27 is false in full: factoring `(5x⁴ + x² + 1)(x⁵ - x³ - 1)` returns it as a single factor, for
every heap order and every stream of random numbers. -/
theorem C27_irreducible_false :
    (∀ choose, Poly.HeapOrder choose → ∀ rng fuel pos,
      missed.factor choose rng fuel pos = .ok (⟨1, [(missed, 1)]⟩, pos)) ∧
    missed.toPoly = (5 * X ^ 4 + X ^ 2 + 1) * (X ^ 5 - X ^ 3 - 1) ∧ ¬ Irreducible missed.toPoly := by
  have h : missed.toPoly = (5 * X ^ 4 + X ^ 2 + 1) * (X ^ 5 - X ^ 3 - 1) := by
    rw [missed, Poly.toPoly_ofCoeffs]
    simp
    ring
  refine ⟨fun choose hc rng fuel pos => Missed.factor_eq choose hc rng fuel pos, h, ?_⟩
  rw [h]
  intro hi
  rcases hi.isUnit_or_isUnit rfl with hu | hu
  · have := natDegree_eq_zero_of_isUnit hu
    rw [show (5 * X ^ 4 + X ^ 2 + 1 : ℤ[X]).natDegree = 4 by compute_degree!] at this
    omega
  · have := natDegree_eq_zero_of_isUnit hu
    rw [show (X ^ 5 - X ^ 3 - 1 : ℤ[X]).natDegree = 5 by compute_degree!] at this
    omega

end Algebraics
