import Verif.Lemmas.Factor

/-!
Properties C26 and C30: factoring integer polynomials multiplies back, and Hensel lifting
(`/repo/src/polynomial/factorization_over_integers.rs`).

The heap of the standard library enters as `choose` (which entry of smallest degree `pop` delivers),
the random number generator as the stream `rng`, read from position `pos`.  `fuel` bounds the number of
random draws; a run that needs more is reported as `.error .fuel`.
-/

namespace Algebraics

open Polynomial

/-! ## C26 -/

/-- C26: whenever factoring returns, the constant and the powers of the factors multiply back to the
input, for every stream of random numbers and every order of the heap.  Every factor is primitive, not
constant, has a positive leading coefficient and a positive power. -/
theorem C26_multiplies_back (choose : ℕ → List ℕ → ℕ) (hc : Poly.HeapOrder choose) (rng : ℕ → ℕ)
    (fuel pos : ℕ) (f : Poly ℤ) (r : Poly.Factors) (pos' : ℕ)
    (h : f.factor choose rng fuel pos = .ok (r, pos')) :
    C r.constant * Poly.powerProduct r.factors = f.toPoly ∧
      ∀ e ∈ r.factors, e.1.toPoly.IsPrimitive ∧ 0 < e.1.toPoly.leadingCoeff ∧
        e.1.toPoly.natDegree ≠ 0 ∧ 0 < e.2 := by
  obtain ⟨h1, h2⟩ := (Poly.factor_spec choose hc rng fuel pos f).1 r pos' h
  exact ⟨h1.symm, fun e he => ⟨(h2 e he).1.1, (h2 e he).1.2, (h2 e he).2⟩⟩

/-- C26: factoring never panics, as long as a suitable prime below `2^31` exists for each square-free
divisor of degree two and more. -/
theorem C26_no_panic (choose : ℕ → List ℕ → ℕ) (hc : Poly.HeapOrder choose) (rng : ℕ → ℕ)
    (fuel pos : ℕ) (f : Poly ℤ)
    (hp : ∀ z : Poly ℤ, z.toPoly ∣ f.toPoly → z.toPoly.IsPrimitive → 0 < z.toPoly.leadingCoeff →
      2 ≤ z.toPoly.natDegree → Squarefree (z.toPoly.map (Int.castRingHom ℚ)) → ∃ p, z.GoodPrime p) :
    f.factor choose rng fuel pos ≠ .error .panic :=
  (Poly.factor_spec choose hc rng fuel pos f).2 fun z h1 h2 h3 h4 => hp z h2 h1.1 h1.2 h4 h3

/-- the order in which the first of several smallest entries is delivered -/
def firstSmallest (_ : ℕ) (ds : List ℕ) : ℕ := ds.findIdx fun d => ds.all fun e => decide (d ≤ e)

theorem firstSmallest_order : Poly.HeapOrder firstSmallest := by
  intro k ds hds
  obtain ⟨m, hm, hmin⟩ : ∃ m ∈ ds, ∀ e ∈ ds, m ≤ e := by
    induction ds with
    | nil => exact absurd rfl hds
    | cons a l ih =>
      by_cases hl : l = []
      · subst hl; exact ⟨a, by simp, by simp⟩
      · obtain ⟨m, h1, h2⟩ := ih hl
        by_cases hle : a ≤ m
        · refine ⟨a, by simp, ?_⟩
          intro e he
          rcases List.mem_cons.mp he with rfl | he
          · exact le_rfl
          · exact hle.trans (h2 e he)
        · refine ⟨m, by simp [h1], ?_⟩
          intro e he
          rcases List.mem_cons.mp he with rfl | he
          · omega
          · exact h2 e he
  have hlt : firstSmallest k ds < ds.length := by
    rw [firstSmallest, List.findIdx_lt_length]
    exact ⟨m, hm, by simpa using hmin⟩
  refine ⟨ds[firstSmallest k ds], List.getElem?_eq_getElem hlt, ?_⟩
  have := List.findIdx_getElem (w := hlt)
  simp only [List.all_eq_true, decide_eq_true_eq] at this
  exact this

/-- `-12 x (2x-3)^2` -/
example : (Poly.ofCoeffs [0, -108, 144, -48] : Poly ℤ).factor firstSmallest id 0 0 =
    .ok (⟨-12, [(Poly.ofCoeffs [0, 1], 1), (Poly.ofCoeffs [-3, 2], 2)]⟩, 0) := by
  decide +kernel

/-! ## C30 -/

/-- C30: one Hensel step never panics on a correct factor tree modulo `n` when the new product lifts
the old one and has the same degree.  The result is a correct factor tree modulo `n²`; its leaves
multiply to the new product and reduce to the old leaves, in the same order. -/
theorem C30_step {n : ℕ} (hn : 1 < n) (t : FTree n) (new : Poly (ZMod (n * n))) (ht : t.Ok)
    (hp : new.toPoly.map (ZMod.castHom (Dvd.intro n rfl) (ZMod n)) = t.leafProduct)
    (hd : new.toPoly.natDegree = t.leafProduct.natDegree) :
    ∃ t', t.henselStep (n * n) new = some t' ∧ t'.Ok ∧ t'.leafProduct = new.toPoly ∧
      t'.leaves.map (fun g => g.toPoly.map (ZMod.castHom (Dvd.intro n rfl) (ZMod n))) =
        t.leaves.map Poly.toPoly := by
  have i1 : NeZero n := ⟨by omega⟩
  have i2 : NeZero (n * n) := ⟨by nlinarith⟩
  rw [← ht.product_eq] at hp hd
  obtain ⟨t', h1, h2, h3, h4, -⟩ := FTree.henselStep_spec hn t new ht hp hd
  refine ⟨t', h1, h2, by rw [← h2.product_eq, h3], ?_⟩
  rw [← h4, List.map_map]
  apply List.map_congr_left
  intro g _
  exact (Poly.red_setModulus_down g).symm

/-- C30: iterating gives a factorization modulo a power of the modulus that is as high as needed: the
loop never panics, and ends with a modulus whose square is above the limit, with leaves that multiply to
the polynomial modulo it and reduce to the leaves it started with. -/
theorem C30_iterate (f : Poly ℤ) (limit n : ℕ) (t : FTree n) (hn : 1 < n) (ht : t.Ok)
    (hp : t.leafProduct = f.toPoly.map (Int.castRingHom (ZMod n)))
    (hu : IsUnit ((f.toPoly.leadingCoeff : ℤ) : ZMod n)) :
    ∃ (k : ℕ) (t' : FTree (n ^ 2 ^ k)),
      Poly.liftLoop f limit (limit + 2) n t = some ⟨n ^ 2 ^ k, t'⟩ ∧ t'.Ok ∧
      limit < n ^ 2 ^ k * n ^ 2 ^ k ∧
      t'.leafProduct = f.toPoly.map (Int.castRingHom (ZMod (n ^ 2 ^ k))) ∧
      t'.leaves.map (fun g => g.toPoly.map
        (ZMod.castHom (dvd_pow_self n (by positivity)) (ZMod n))) = t.leaves.map Poly.toPoly := by
  have i1 : NeZero n := ⟨by omega⟩
  obtain ⟨k, t', h1, h2, h3, h4, h5, -⟩ := Poly.liftLoop_spec f limit (limit + 2) n t hn (by omega)
    (by omega) ht (Poly.toPoly_injective (by rw [ht.product_eq, hp, Poly.toPoly_modPoly])) hu
  have i2 : NeZero (n ^ 2 ^ k) := ⟨by positivity⟩
  refine ⟨k, t', h1, h2, h4, by rw [← h2.product_eq, h3, Poly.toPoly_modPoly], ?_⟩
  rw [← h5, List.map_map]
  apply List.map_congr_left
  intro g _
  exact (Poly.setModulus_down _ g).symm

/-- C30: the tree that lifting starts with is correct: it is built without a panic from any list of
factors modulo a prime that are pairwise coprime, at most one of them constant; its leaves are the
given factors, in some order. -/
theorem C30_build {p : ℕ} [Fact p.Prime] (choose : ℕ → List ℕ → ℕ) (hc : Poly.HeapOrder choose)
    (l : List (Poly (ZMod p))) (hl : l ≠ []) (h0 : ∀ g ∈ l, g.toPoly ≠ 0)
    (hco : l.Pairwise fun a b => IsCoprime a.toPoly b.toPoly ∧
      ¬ (a.toPoly.natDegree = 0 ∧ b.toPoly.natDegree = 0)) :
    ∃ t, FTree.build choose (l.length + 1) 0 (l.map FTree.leaf) = some (some t) ∧ t.Ok ∧
      t.leaves.Perm l := by
  obtain ⟨t, h1, h2, -, h4, -⟩ := FTree.build_spec choose hc.lt (l.length + 1) 0 (l.map FTree.leaf)
    (by simpa using hl) (by simp)
    (by
      intro t ht
      obtain ⟨g, hg, rfl⟩ := List.mem_map.mp ht
      exact isUnit_iff_ne_zero.mpr (leadingCoeff_ne_zero.mpr (h0 g hg)))
    (by
      rw [List.pairwise_map]
      refine hco.imp ?_
      intro a b hab
      exact ⟨hab.1, fun hu => hab.2 ⟨natDegree_eq_zero_of_isUnit hu.1, natDegree_eq_zero_of_isUnit hu.2⟩⟩)
  refine ⟨t, h1, h2, h4.trans ?_⟩
  have : (l.map FTree.leaf).flatMap FTree.leaves = l := by
    clear * -
    induction l with
    | nil => rfl
    | cons a l ih =>
      rw [List.map_cons, List.flatMap_cons, ih]; rfl
  rw [this]

/-- a correct tree of three factors modulo 5, with `2(x+1)(x+2)·x` as product -/
def sampleTree : FTree 5 :=
  .node (.node (.leaf (.ofCoeffs [1, 1])) (.leaf (.ofCoeffs [2, 1])) 2 (.ofCoeffs [2, 3, 1])
      (.ofCoeffs [-1]) (.ofCoeffs [1]))
    (.leaf (.ofCoeffs [0, 2])) 3 (.ofCoeffs [0, 4, 1, 2]) (.ofCoeffs [3]) (.ofCoeffs [3, 1])

theorem sampleTree_ok : sampleTree.Ok := by
  have hlc : ∀ (f : Poly (ZMod 5)) (c d : ZMod 5), f.highestPowerCoefficient = c → c * d = 1 →
      IsUnit f.toPoly.leadingCoeff := by
    intro f c d h1 h2
    rw [← Poly.highest_eq, h1]
    exact IsUnit.of_mul_eq_one _ h2
  have hdeg : ∀ (f : Poly (ZMod 5)) (d : ℕ), f.degree = some d → d = f.toPoly.natDegree := by
    intro f d h
    rw [Poly.degree_eq] at h
    by_cases h0 : f.toPoly = 0
    · rw [if_pos h0] at h; cases h
    · rw [if_neg h0] at h; exact (Option.some.inj h).symm
  have hmul : ∀ f g h : Poly (ZMod 5), f = g * h → f.toPoly = g.toPoly * h.toPoly := by
    intro f g h e
    rw [e, Poly.toPoly_mul]
  have hbez : ∀ a f b g : Poly (ZMod 5), a * f + b * g = Poly.ofCoeffs [1] →
      a.toPoly * f.toPoly + b.toPoly * g.toPoly = 1 := by
    intro a f b g e
    rw [← Poly.toPoly_mul, ← Poly.toPoly_mul, ← Poly.toPoly_add, e, Poly.toPoly_ofCoeffs]
    simp
  exact ⟨⟨hlc _ 1 1 (by decide +kernel) (by decide), hlc _ 1 1 (by decide +kernel) (by decide),
      hmul _ _ _ (by decide +kernel), hdeg _ _ (by decide +kernel), hbez _ _ _ _ (by decide +kernel)⟩,
    hlc _ 2 3 (by decide +kernel) (by decide), hmul _ _ _ (by decide +kernel),
    hdeg _ _ (by decide +kernel), hbez _ _ _ _ (by decide +kernel)⟩

/-- the step on this tree, with `2x³ + 6x² + 4x` as the new product modulo 25 -/
example : (sampleTree.henselStep 25 (Poly.ofCoeffs [0, 4, 6, 2])).map FTree.leaves =
    some [Poly.ofCoeffs [1, 1], Poly.ofCoeffs [2, 1], Poly.ofCoeffs [0, 2]] := by decide +kernel

/-- and with `2x³ + x² + 9x + 5` -/
example : (sampleTree.henselStep 25 (Poly.ofCoeffs [5, 9, 1, 2])).map FTree.leaves =
    some [Poly.ofCoeffs [16, 1], Poly.ofCoeffs [2, 1], Poly.ofCoeffs [15, 2]] := by decide +kernel

end Algebraics
