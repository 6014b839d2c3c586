import Verif.Spec.ModFactor
import Verif.Lemmas.ModFactor
import Verif.Props.ModPoly
import Verif.Props.FactorProgress
import Verif.Props.FactorIrr
import Verif.Props.FactorTwo

/-!
# C89: factoring with the stored arithmetic

The modular factorization runs in `i32` modular integers, the lifting and the search in big ones; every operation is
the one on stored pairs (value, modulus), with its overflow, its check of the moduli, and every assertion of the code.
The random stream, the order of the heap and fuel are as in C26.
-/

namespace Algebraics

open Polynomial

namespace ModPoly

variable {n : ℕ} {ext : ℤ → ℤ → ModInt.ExtGcd}

/-! ### stored trees and trees over `ZMod n` -/

theorem Tree.Ok.lift [NeZero n] {t : Tree} (h : t.Ok n) : ∃ s : FTree n, t = encT s ∧ s.Ok := by
  induction t with
  | leaf f =>
    obtain ⟨h1, h2⟩ := h
    obtain ⟨F, rfl⟩ := h1.lift
    rw [value_encP] at h2
    exact ⟨.leaf F, rfl, h2⟩
  | node l r d p lb rb ihl ihr =>
    obtain ⟨h1, h2, h3, h4, h5, h6, h7, h8⟩ := h
    obtain ⟨L, rfl, hL⟩ := ihl h1
    obtain ⟨R, rfl, hR⟩ := ihr h2
    obtain ⟨P, rfl⟩ := h3.lift
    obtain ⟨LB, rfl⟩ := h4.lift
    obtain ⟨RB, rfl⟩ := h5.lift
    simp only [product_encT, value_encP] at h6 h7 h8
    exact ⟨.node L R d P LB RB, rfl, hL, hR, h6, h7, h8⟩

theorem ok_encT [NeZero n] {s : FTree n} (h : s.Ok) : (encT s).Ok n := by
  induction s with
  | leaf f => exact ⟨valid_encP f, by rw [value_encP]; exact h⟩
  | node l r d p lb rb ihl ihr =>
    obtain ⟨h1, h2, h3, h4, h5⟩ := h
    refine ⟨ihl h1, ihr h2, valid_encP _, valid_encP _, valid_encP _, ?_, ?_, ?_⟩
    · rw [product_encT, product_encT, value_encP, value_encP, value_encP]; exact h3
    · rw [value_encP]; exact h4
    · simp only [product_encT, value_encP]; exact h5

theorem values_encP [NeZero n] (l : List (Poly (ZMod n))) : (l.map encP).map (value n) = l.map Poly.toPoly := by
  rw [List.map_map]
  exact List.map_congr_left fun g _ => value_encP g

theorem leafProduct_encT [NeZero n] (s : FTree n) : (encT s).leafProduct n = s.leafProduct := by
  unfold Tree.leafProduct FTree.leafProduct
  rw [leaves_encT, values_encP]

/-! ### C89 -/

variable (ext)

/-- C89: the prime that the code picks for a polynomial suits it: it is an odd prime below `2^31` that does not divide
the leading coefficient, and the polynomial is square-free modulo it; the polynomial is returned in `i32` modular
integers with this modulus.  There is a panic only if no prime suits. -/
theorem C89_prime (hext : ModInt.IsExtGcd ext) (f : Poly ℤ) :
    (∀ g q, selectPrime ext f (2 ^ 31) 2 = some (g, q) → ∃ p : ℕ, q = p ∧ f.GoodPrime p ∧ Valid p g ∧
      value p g = f.toPoly.map (Int.castRingHom (ZMod p))) ∧
    (selectPrime ext f (2 ^ 31) 2 = none → ∀ p, ¬ f.GoodPrime p) := by
  rw [selectPrime_enc hext f _ 2 (by norm_num)]
  obtain ⟨h1, h2⟩ := Poly.selectPrime_spec f (2 ^ 31) 2 (by norm_num)
  cases hs : Poly.selectPrime f (2 ^ 31) 2 with
  | none =>
    refine ⟨fun g q h => (by cases h), fun _ p hp => ?_⟩
    obtain ⟨q, hq⟩ := h2 ⟨p, hp, by have := hp.1.two_le; have := hp.2.1; omega, by have := hp.2.2.1; push_cast; omega⟩
    rw [hs] at hq
    cases hq
  | some p =>
    have hg := h1 p hs
    have := neZero hg.1.pos
    rw [Option.bind_some, ofInts32_enc (i32_fits (by exact_mod_cast hg.2.2.1))]
    refine ⟨fun g q h => ?_, fun h => (by cases h)⟩
    simp only [Option.map_some, Option.some.injEq, Prod.mk.injEq] at h
    obtain ⟨rfl, rfl⟩ := h
    exact ⟨p, rfl, hg, valid_encP _, by rw [value_encP, Poly.toPoly_modPoly]⟩

/-- C89: the factorization modulo an odd prime below `2^31`, in `i32` modular integers, of a square-free polynomial never
panics.  When it returns, the result is the leading coefficient, unless that is one, followed by monic irreducible
polynomials, and the product of all is the input. -/
theorem C89_modular_factors (hext : ModInt.IsExtGcd ext) (p : ℕ) (hp : p.Prime) (hp2 : p ≠ 2) (hp3 : p < 2 ^ 31)
    (rng : ℕ → ℕ) (fuel pos : ℕ) (f : List ModInt) (hf : Valid p f) (hsq : Squarefree (value p f)) :
    modularFactors ext rng fuel pos f ≠ .error .panic ∧
    ∀ l pos', modularFactors ext rng fuel pos f = .ok (l, pos') → ∃ c r, l = c ++ r ∧ (∀ g ∈ l, Valid p g) ∧
      c.map (value p) = (if (value p f).leadingCoeff = 1 then [] else [C (value p f).leadingCoeff]) ∧
      (∀ g ∈ r, (value p g).Monic ∧ Irreducible (value p g)) ∧ (l.map (value p)).prod = value p f := by
  have := neZero hp.pos
  have := Fact.mk hp
  obtain ⟨F, rfl⟩ := hf.lift
  rw [value_encP] at hsq ⊢
  rw [modularFactors_enc hext (i32_fits hp3) hp.one_lt]
  rcases Poly.modularFactors_spec hp2 rng fuel pos F hsq with h | ⟨r, pos', h, hr, hprod⟩
  · rw [h]
    refine ⟨?_, ?_⟩
    · intro hh; cases hh
    · intro l pos' hh; cases hh
  · rw [h]
    refine ⟨?_, ?_⟩
    · intro hh; cases hh
    · intro l pos'' hh
      injection hh with hh
      simp only [Prod.mk.injEq] at hh
      obtain ⟨rfl, rfl⟩ := hh
      refine ⟨_, r.map encP, by rw [List.map_append], ?_, ?_, ?_, ?_⟩
      · intro g hg
        obtain ⟨G, -, rfl⟩ := List.mem_map.mp hg
        exact valid_encP G
      · rw [values_encP]
        split_ifs
        · rfl
        · rw [List.map_singleton, Poly.toPoly_ofCoeffs]; simp
      · intro g hg
        obtain ⟨G, hG, rfl⟩ := List.mem_map.mp hg
        rw [value_encP]
        exact hr G hG
      · rw [values_encP, List.map_append, List.prod_append]
        conv_rhs => rw [← hprod]
        congr 1
        split_ifs with h1
        · rw [h1]; simp
        · rw [List.map_singleton, Poly.toPoly_ofCoeffs]; simp

/-- C89: the tree that the lifting starts with, in `i32` modular integers, is built without a panic from any list of
nonzero factors modulo a prime below `2^31` that are pairwise coprime, at most one of them constant.  It is correct, and
its leaves are the given factors in some order.  Moving it to big integers changes nothing. -/
theorem C89_build (hext : ModInt.IsExtGcd ext) (p : ℕ) (hp : p.Prime) (hp3 : p < 2 ^ 31)
    (choose : ℕ → List ℕ → ℕ) (hc : Poly.HeapOrder choose) (l : List (List ModInt)) (hl : l ≠ [])
    (hv : ∀ g ∈ l, Valid p g) (h0 : ∀ g ∈ l, value p g ≠ 0)
    (hco : l.Pairwise fun a b => IsCoprime (value p a) (value p b) ∧
      ¬ ((value p a).natDegree = 0 ∧ (value p b).natDegree = 0)) :
    ∃ t, Tree.build ext choose (l.length + 1) 0 (l.map Tree.leaf) = some (some t) ∧ t.Ok p ∧ t.leaves.Perm l ∧
      t.toBig p = some t := by
  have := neZero hp.pos
  have := Fact.mk hp
  obtain ⟨L, rfl⟩ : ∃ L : List (Poly (ZMod p)), l = L.map encP := by
    clear hl h0 hco
    induction l with
    | nil => exact ⟨[], rfl⟩
    | cons a l ih =>
      obtain ⟨A, rfl⟩ := (hv a (by simp)).lift
      obtain ⟨L, rfl⟩ := ih fun g hg => hv g (by simp [hg])
      exact ⟨A :: L, rfl⟩
  have hL0 : ∀ g ∈ L, g.toPoly ≠ 0 := by
    intro g hg
    have := h0 (encP g) (List.mem_map_of_mem hg)
    rwa [value_encP] at this
  obtain ⟨t, h1, h2, h3⟩ := C30_build choose hc L (by simpa using hl) hL0 (by
    rw [List.pairwise_map] at hco
    refine hco.imp ?_
    intro a b hab
    simpa only [value_encP] using hab)
  refine ⟨encT t, ?_, ok_encT h2, ?_, toBig_enc t⟩
  · have e : (L.map encP).map Tree.leaf = (L.map FTree.leaf).map encT := by
      rw [List.map_map, List.map_map]; rfl
    rw [e, List.length_map, build_enc hext (i32_fits hp3) hp.one_lt, h1]
    · rfl
    · intro s hs
      obtain ⟨g, hg, rfl⟩ := List.mem_map.mp hs
      exact len_ne_zero (hL0 g hg)
  · rw [leaves_encT]; exact h3.map _

/-- C89: one Hensel step on stored trees never panics on a correct tree modulo `n` when the new product lifts the old one
and has the same degree; none of its assertions fail.  The result is a correct tree modulo `n²`, its leaves multiply to
the new product and reduce to the old leaves, in the same order. -/
theorem C89_hensel_step (hext : ModInt.IsExtGcd ext) (n : ℕ) (hn : 1 < n) (t : Tree) (ht : t.Ok n) (new : List ModInt)
    (hv : Valid (n * n) new)
    (hp : (value (n * n) new).map (ZMod.castHom (Dvd.intro n rfl) (ZMod n)) = t.leafProduct n)
    (hd : (value (n * n) new).natDegree = (t.leafProduct n).natDegree) :
    ∃ t', t.henselStep ext n (n * n) new = some t' ∧ t'.Ok (n * n) ∧ t'.leafProduct (n * n) = value (n * n) new ∧
      t'.leaves.map (fun g => (value (n * n) g).map (ZMod.castHom (Dvd.intro n rfl) (ZMod n))) =
        t.leaves.map (value n) := by
  have := neZero (by omega : 0 < n)
  have hnn : 1 < n * n := by nlinarith
  have := neZero (by omega : 0 < n * n)
  obtain ⟨s, rfl, hs⟩ := ht.lift
  obtain ⟨N, rfl⟩ := hv.lift
  rw [value_encP, leafProduct_encT] at hp hd
  obtain ⟨s', h1, h2, h3, h4⟩ := C30_step hn s N hs hp hd
  refine ⟨encT s', ?_, ok_encT h2, by rw [leafProduct_encT, value_encP]; exact h3, ?_⟩
  · rw [← Nat.cast_mul]
    exact henselStep_enc hext hnn s N s' h1 (ok_leaves hnn h2)
  · rw [leaves_encT, leaves_encT, values_encP, ← h4, List.map_map]
    apply List.map_congr_left
    intro g _
    rw [Function.comp_apply, value_encP]

/-- C89: the lifting, on stored trees, never panics; it ends with a modulus whose square is above the limit, and with a
correct tree modulo it whose leaves multiply to the polynomial. -/
theorem C89_lift (hext : ModInt.IsExtGcd ext) (f : Poly ℤ) (limit n : ℕ) (t : Tree) (hn : 1 < n) (ht : t.Ok n)
    (hp : t.leafProduct n = f.toPoly.map (Int.castRingHom (ZMod n)))
    (hu : IsUnit ((f.toPoly.leadingCoeff : ℤ) : ZMod n)) :
    ∃ (k : ℕ) (t' : Tree), liftLoop ext f limit (limit + 2) n t = some (((n ^ 2 ^ k : ℕ) : ℤ), t') ∧
      t'.Ok (n ^ 2 ^ k) ∧ limit < n ^ 2 ^ k * n ^ 2 ^ k ∧
      t'.leafProduct (n ^ 2 ^ k) = f.toPoly.map (Int.castRingHom (ZMod (n ^ 2 ^ k))) ∧
      t'.leaves.map (fun g => (value (n ^ 2 ^ k) g).map
        (ZMod.castHom (dvd_pow_self n (by positivity)) (ZMod n))) = t.leaves.map (value n) := by
  have := neZero (by omega : 0 < n)
  obtain ⟨s, rfl, hs⟩ := ht.lift
  rw [leafProduct_encT] at hp
  obtain ⟨k, s', h1, h2, h3, h4, h5⟩ := C30_iterate f limit n s hn hs hp hu
  have : NeZero (n ^ 2 ^ k) := ⟨by positivity⟩
  refine ⟨k, encT s', ?_, ok_encT h2, h3, by rw [leafProduct_encT]; exact h4, ?_⟩
  · exact liftLoop_enc hext f limit _ n s hn hs
      (Poly.toPoly_injective (by rw [hs.product_eq, hp, Poly.toPoly_modPoly])) hu _ _ h1
  · rw [leaves_encT, leaves_encT, values_encP, ← h5, List.map_map]
    apply List.map_congr_left
    intro g _
    rw [Function.comp_apply, value_encP]

/-- C89: the search among the subsets of the lifted factors never panics, whatever correct tree it is given, and its
result multiplies back to the polynomial; every factor is primitive with a positive leading coefficient. -/
theorem C89_recombine (f : Poly ℤ) (hprim : f.toPoly.IsPrimitive) (hpos : 0 < f.toPoly.leadingCoeff) (n : ℕ)
    (hn : 1 < n) (t : Tree) (ht : t.Ok n) :
    ∃ r, recombine f n t = some r ∧ (r.map Poly.toPoly).prod = f.toPoly ∧
      ∀ g ∈ r, g.toPoly.IsPrimitive ∧ 0 < g.toPoly.leadingCoeff := by
  have := neZero (by omega : 0 < n)
  obtain ⟨s, rfl, hs⟩ := ht.lift
  rw [recombine_enc hn f s hs]
  obtain ⟨r, h1, h2, h3⟩ := Poly.recombine_product f ⟨hprim, hpos⟩ s
  exact ⟨r, h1, h2, fun g hg => ⟨(h3 g hg).1, (h3 g hg).2⟩⟩

/-- C89: factoring with the stored arithmetic is, for every input, every stream of random numbers and every order of the
heap, factoring with exact residues: it returns the same factors after the same random numbers, and stops without a
result in the same cases. -/
theorem C89_same (hext : ModInt.IsExtGcd ext) (choose : ℕ → List ℕ → ℕ) (hc : Poly.HeapOrder choose) (rng : ℕ → ℕ)
    (fuel pos : ℕ) (f : Poly ℤ) : factor ext choose rng fuel pos f = f.factor choose rng fuel pos :=
  factor_enc hext choose hc rng fuel pos f

/-- C89: whenever factoring with the stored arithmetic returns, the constant and the powers of the factors multiply back
to the input.  Every factor is primitive, not constant, has a positive leading coefficient and a positive power. -/
theorem C89_multiplies_back (hext : ModInt.IsExtGcd ext) (choose : ℕ → List ℕ → ℕ) (hc : Poly.HeapOrder choose)
    (rng : ℕ → ℕ) (fuel pos : ℕ) (f : Poly ℤ) (r : Poly.Factors) (pos' : ℕ)
    (h : factor ext choose rng fuel pos f = .ok (r, pos')) :
    C r.constant * Poly.powerProduct r.factors = f.toPoly ∧
      ∀ e ∈ r.factors, e.1.toPoly.IsPrimitive ∧ 0 < e.1.toPoly.leadingCoeff ∧
        e.1.toPoly.natDegree ≠ 0 ∧ 0 < e.2 :=
  C26_multiplies_back choose hc rng fuel pos f r pos' (C89_same ext hext choose hc rng fuel pos f ▸ h)

/-- C89: each factor is irreducible or the product of two irreducible polynomials, and it is irreducible when the leading
coefficient of the input is, up to the sign, at most 4.  (More is false, see C27.) -/
theorem C89_irreducible (hext : ModInt.IsExtGcd ext) (choose : ℕ → List ℕ → ℕ) (hc : Poly.HeapOrder choose)
    (rng : ℕ → ℕ) (fuel pos : ℕ) (f : Poly ℤ) (r : Poly.Factors) (pos' : ℕ)
    (h : factor ext choose rng fuel pos f = .ok (r, pos')) :
    (∀ e ∈ r.factors, Irreducible e.1.toPoly ∨ ∃ g h, Irreducible g ∧ Irreducible h ∧ e.1.toPoly = g * h) ∧
    (|f.toPoly.leadingCoeff| ≤ 4 → ∀ e ∈ r.factors, Irreducible e.1.toPoly) := by
  rw [C89_same ext hext choose hc] at h
  refine ⟨fun e he => ?_, fun hl => C27_small_leading_partial choose hc rng fuel pos f hl r pos' h⟩
  rcases (C27_at_most_two_partial choose hc rng fuel pos f r pos' h).1 e he with h1 | ⟨g, k, h1, h2, h3, -⟩
  · exact Or.inl h1
  · exact Or.inr ⟨g, k, h1, h2, h3⟩

/-- C89: factoring with the stored arithmetic never panics, for polynomials of moderate size: no `i32` overflows, no two
moduli differ, no assertion fails. -/
theorem C89_no_panic (hext : ModInt.IsExtGcd ext) (choose : ℕ → List ℕ → ℕ) (hc : Poly.HeapOrder choose)
    (rng : ℕ → ℕ) (fuel pos : ℕ) (f : Poly ℤ) (hf : f.Moderate) :
    factor ext choose rng fuel pos f ≠ .error .panic := by
  obtain ⟨h, h1, h2⟩ := hf
  rw [C89_same ext hext choose hc]
  exact C26_no_panic_sized choose hc rng fuel pos f h h1 h2

/-- C89: with random numbers in which no finite pattern is avoided for ever, factoring a polynomial of moderate size with
the stored arithmetic ends with factors that multiply back. -/
theorem C89_finishes (hext : ModInt.IsExtGcd ext) (choose : ℕ → List ℕ → ℕ) (hc : Poly.HeapOrder choose) (rng : ℕ → ℕ)
    (hfair : Fair rng) (f : Poly ℤ) (hf : f.Moderate) (pos : ℕ) :
    ∃ (r : Poly.Factors) (pos' N : ℕ), C r.constant * Poly.powerProduct r.factors = f.toPoly ∧
      ∀ fuel, N ≤ fuel → factor ext choose rng fuel pos f = .ok (r, pos') := by
  obtain ⟨h, h1, h2⟩ := hf
  obtain ⟨r, pos', N, h3, h4⟩ := C61_fair_finishes_sized choose hc rng hfair f h h1 h2 pos
  exact ⟨r, pos', N, h3, fun fuel hfuel => by rw [C89_same ext hext choose hc]; exact h4 fuel hfuel⟩

/-! ### the hypotheses are met -/

/-- for `x² - 2` the prime 3 does -/
example : selectPrime someExt (Poly.ofCoeffs [-2, 0, 1]) 4 2 = some ([⟨1, 3⟩, ⟨0, 3⟩, ⟨1, 3⟩], 3) := by decide +kernel

/-- for `6x² - x - 1` the primes 3 and 5 do not do -/
example : (selectPrime someExt (Poly.ofCoeffs [-1, -1, 6]) 4 2).map Prod.snd = some 7 := by decide +kernel

/-- a correct tree of three factors modulo 5, with `2(x+1)(x+2)·x` as product -/
def storedTree : Tree :=
  .node (.node (.leaf [⟨1, 5⟩, ⟨1, 5⟩]) (.leaf [⟨2, 5⟩, ⟨1, 5⟩]) 2 [⟨2, 5⟩, ⟨3, 5⟩, ⟨1, 5⟩] [⟨4, 5⟩] [⟨1, 5⟩])
    (.leaf [⟨0, 5⟩, ⟨2, 5⟩]) 3 [⟨0, 5⟩, ⟨4, 5⟩, ⟨1, 5⟩, ⟨2, 5⟩] [⟨3, 5⟩] [⟨3, 5⟩, ⟨1, 5⟩]

theorem storedTree_eq : storedTree = encT sampleTree := by
  simp only [storedTree, sampleTree, encT, Tree.node.injEq, Tree.leaf.injEq, true_and]
  decide +kernel

theorem storedTree_ok : storedTree.Ok 5 := storedTree_eq ▸ ok_encT sampleTree_ok

/-- the step on this tree, with `2x³ + x² + 9x + 5` as the new product modulo 25 -/
example : (storedTree.henselStep someExt 5 25 [⟨5, 25⟩, ⟨9, 25⟩, ⟨1, 25⟩, ⟨2, 25⟩]).map Tree.leaves =
    some [[⟨16, 25⟩, ⟨1, 25⟩], [⟨2, 25⟩, ⟨1, 25⟩], [⟨15, 25⟩, ⟨2, 25⟩]] := by decide +kernel

/-- the lifting of this tree for `2x³ + 6x² + 4x` -/
example : ∃ (k : ℕ) (t' : Tree), liftLoop someExt (Poly.ofCoeffs [0, 4, 6, 2]) 1000 1002 5 storedTree =
    some (((5 ^ 2 ^ k : ℕ) : ℤ), t') ∧ t'.Ok (5 ^ 2 ^ k) ∧ 1000 < 5 ^ 2 ^ k * 5 ^ 2 ^ k := by
  have hp : sampleTree.product = Poly.modPoly 5 (Poly.ofCoeffs [0, 4, 6, 2]) := by decide +kernel
  have hl : (Poly.ofCoeffs [0, 4, 6, 2] : Poly ℤ).toPoly.leadingCoeff = 2 := by
    rw [← Poly.highest_eq]; decide +kernel
  obtain ⟨k, t', h1, h2, h3, -⟩ := C89_lift someExt someExt_isExtGcd (Poly.ofCoeffs [0, 4, 6, 2]) 1000 5 storedTree
    (by norm_num) storedTree_ok
    (by rw [storedTree_eq, leafProduct_encT, ← sampleTree_ok.product_eq, hp, Poly.toPoly_modPoly])
    (by rw [hl]; exact IsUnit.of_mul_eq_one (3 : ZMod 5) (by decide))
  exact ⟨k, t', h1, h2, h3⟩

/-- factors of `x³ - x` modulo 7 -/
example : (Tree.build someExt firstSmallest 4 0 [.leaf [⟨0, 7⟩, ⟨1, 7⟩], .leaf [⟨1, 7⟩, ⟨1, 7⟩], .leaf [⟨6, 7⟩, ⟨1, 7⟩]]).map
    (·.map Tree.product) = some (some [⟨0, 7⟩, ⟨6, 7⟩, ⟨0, 7⟩, ⟨1, 7⟩]) := by decide +kernel

/-- the search on a tree of two factors modulo 9 finds `(x-1)(x+1)` -/
example : recombine (Poly.ofCoeffs [-1, 0, 1]) 9
    (.node (.leaf [⟨1, 9⟩, ⟨1, 9⟩]) (.leaf [⟨8, 9⟩, ⟨1, 9⟩]) 2 [⟨8, 9⟩, ⟨0, 9⟩, ⟨1, 9⟩] [⟨5, 9⟩] [⟨4, 9⟩]) =
      some [Poly.ofCoeffs [1, 1], Poly.ofCoeffs [-1, 1]] := by decide +kernel

/-- the factorization of `126 + 100 x` modulo 127 -/
example (rng : ℕ → ℕ) (fuel pos : ℕ) : modularFactors someExt rng fuel pos exP ≠ .error .panic :=
  (C89_modular_factors someExt someExt_isExtGcd 127 (by norm_num) (by norm_num) (by norm_num) rng fuel pos exP exP_valid
    exP_squarefree).1

/-- `-12 x (2x-3)^2` -/
example : factor someExt firstSmallest id 0 0 (Poly.ofCoeffs [0, -108, 144, -48]) =
    .ok (⟨-12, [(Poly.ofCoeffs [0, 1], 1), (Poly.ofCoeffs [-3, 2], 2)]⟩, 0) := by
  rw [C89_same someExt someExt_isExtGcd firstSmallest firstSmallest_order]
  decide +kernel

end ModPoly

end Algebraics
