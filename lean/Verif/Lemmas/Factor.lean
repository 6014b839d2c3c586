import Verif.Lemmas.FactorSearch
import Verif.Lemmas.Yun
import Verif.Props.Yun
import Verif.Spec.Factor

/-!
# Lemmas about factoring integer polynomials: the factors multiply back, and there is no panic
-/

set_option linter.unusedSectionVars false

namespace Algebraics
namespace Poly

open Polynomial

variable {M : ℕ}

theorem searchLoop_total (fuel : ℕ) : ∀ (size : ℕ) (s : Search M), PP s.input.toPoly →
    (s.found = true → 0 < size) → 0 < fuel →
    2 * s.modular.length + (if s.found = true then 1 else 0) < fuel + size →
    ∃ s', searchLoop fuel size s = some s' := by
  induction fuel with
  | zero => intro size s _ _ h; omega
  | succ fuel ih =>
    intro size s hpp hf _ hm
    unfold searchLoop
    simp only
    generalize hsz : (if s.found = true then size else size + 1) = size'
    have hsz0 : 0 < size' := by
      rw [← hsz]
      by_cases h : s.found = true
      · rw [if_pos h]; exact hf h
      · rw [if_neg h]; omega
    have hm' : 2 * s.modular.length < fuel + size' := by
      rw [← hsz]
      by_cases h : s.found = true
      · rw [if_pos h] at hm ⊢; omega
      · rw [if_neg h] at hm ⊢; omega
    by_cases hstop : size' * 2 > s.modular.length
    · rw [if_pos hstop]; exact ⟨s, rfl⟩
    · rw [if_neg hstop]
      obtain ⟨L, hmem, -, hL⟩ := C50_subsets size' 0 s.modular.length (by omega)
      rw [hL]
      rcases forSearch L { s with found := false } with ⟨h1, -⟩ | ⟨T, hT, s1, b, h1, h2⟩
      · rw [h1]
        exact ih _ { s with found := false } hpp (by simp) (by omega) (by simpa using hm')
      · rw [h2]
        obtain ⟨t1, t2, t3⟩ := (hmem T).mp hT
        cases b with
        | false => exact absurd h1 (searchStep_total T { s with found := false } (fun i hi => (t3 i hi).2) s1)
        | true =>
          simp only
          obtain ⟨c, -, -, c3, -, c5, -, c7⟩ := searchStep_sound T { s with found := false } s1 hpp h1
          simp only at c5
          have : Inhabited (Poly (ZMod M)) := ⟨ofCoeffs []⟩
          have hp := foldr_eraseIdx_perm s.modular T t2 (fun i hi => (t3 i hi).2)
          have hlen := hp.length_eq
          rw [← c5, List.length_append, List.length_map, t1] at hlen
          refine ih _ s1 c3 (fun _ => hsz0) (by omega) ?_
          rw [if_pos c7]; omega

theorem HeapOrder.lt {choose : ℕ → List ℕ → ℕ} (h : HeapOrder choose) (k : ℕ) (ds : List ℕ)
    (hds : ds ≠ []) : choose k ds < ds.length := by
  obtain ⟨d, h1, -⟩ := h k ds hds
  exact (List.getElem?_eq_some_iff.mp h1).1

/-! ## The prime -/

theorem modPoly_ne_zero (f : Poly ℤ) (p : ℕ) (h : ¬ (p : ℤ) ∣ f.toPoly.leadingCoeff) :
    (modPoly p f).toPoly ≠ 0 := by
  intro h0
  rw [toPoly_modPoly] at h0
  have := congrArg (fun q => q.coeff f.toPoly.natDegree) h0
  simp only [coeff_map, coeff_zero] at this
  exact h ((ZMod.intCast_zmod_eq_zero_iff_dvd _ _).mp this)

theorem selectPrime_spec (f : Poly ℤ) (k : ℕ) : ∀ (v : ℤ), v < 2 ^ 31 →
    (∀ p, selectPrime f k v = some p → GoodPrime f p) ∧
    ((∃ q : ℕ, GoodPrime f q ∧ v < q ∧ (q : ℤ) - v ≤ k) → ∃ p, selectPrime f k v = some p) := by
  induction k with
  | zero =>
    intro v _
    refine ⟨fun p h => (by cases h), ?_⟩
    rintro ⟨q, -, h1, h2⟩
    simp at h2; omega
  | succ k ih =>
    intro v hv
    unfold selectPrime
    rcases C49_next_prime_i32 v hv with ⟨p, h1, h2, h3, h4, h5, h6⟩ | ⟨h1, h2⟩
    · rw [h1]
      simp only
      obtain ⟨ih1, ih2⟩ := ih p h2
      have hnext : (∃ q : ℕ, GoodPrime f q ∧ v < q ∧ (q : ℤ) - v ≤ (k + 1 : ℕ)) → ¬ GoodPrime f p →
          ∃ q : ℕ, GoodPrime f q ∧ (p : ℤ) < q ∧ (q : ℤ) - p ≤ k := by
        rintro ⟨q, g1, g2, g3⟩ hnp
        have h7 := h6 q g1.1 g1.2.1 g2
        have h8 : p ≠ q := by rintro rfl; exact hnp g1
        refine ⟨q, g1, by omega, ?_⟩
        push_cast at g3
        omega
      rw [highest_eq]
      by_cases hd : f.toPoly.leadingCoeff % (p : ℤ) = 0
      · rw [if_pos hd]
        refine ⟨ih1, fun hq => ih2 (hnext hq ?_)⟩
        rintro ⟨-, -, -, g, -⟩
        exact g (Int.dvd_of_emod_eq_zero hd)
      · rw [if_neg hd]
        have hnd : ¬ (p : ℤ) ∣ f.toPoly.leadingCoeff := fun h => hd (Int.emod_eq_zero_of_dvd h)
        have : Fact p.Prime := ⟨h3⟩
        obtain ⟨b, b1, b2⟩ := isSquareFree_spec (modPoly p f) (modPoly_ne_zero f p hnd)
        rw [Int.toNat_natCast]
        have b1' : (modPoly p f).isSquareFree = some b := b1
        rw [b1']
        rw [toPoly_modPoly] at b2
        cases b with
        | true =>
          simp only
          refine ⟨?_, fun _ => ⟨p, rfl⟩⟩
          intro q hq
          cases hq
          exact ⟨h3, h4, h2, hnd, b2.mp rfl⟩
        | false =>
          simp only
          refine ⟨ih1, fun hq => ih2 (hnext hq ?_)⟩
          rintro ⟨-, -, -, -, g⟩
          have := b2.mpr g
          cases this
    · rw [h1]
      refine ⟨fun p h => by simp at h, ?_⟩
      rintro ⟨q, g1, g2, -⟩
      exact absurd g1.1 (h2 q g1.2.2.1 g2)

/-! ## After the modular factorization -/

section Lift

variable {p : ℕ} [Fact p.Prime]

/-- the leaves that the tree is built from -/
theorem leaves_ok (f : (ZMod p)[X]) (hf : f ≠ 0) (hd : f.natDegree ≠ 0) (hsq : Squarefree f)
    (r : List (Poly (ZMod p)))
    (hr : ∀ g ∈ r, g.toPoly.Monic ∧ Irreducible g.toPoly)
    (hprod : C f.leadingCoeff * (r.map toPoly).prod = f)
    (l : List (Poly (ZMod p)))
    (hl : l = (if f.leadingCoeff = 1 then [] else [ofCoeffs [f.leadingCoeff]]) ++ r) :
    l ≠ [] ∧ (∀ t ∈ l.map FTree.leaf, t.Ok) ∧ (l.map FTree.leaf).Pairwise FTree.Apart ∧
      ((l.map FTree.leaf).map fun s => s.product.toPoly).prod = f ∧
      ∀ v : ℕ, f.leadingCoeff = v → FTree.HeapLcs v (l.map FTree.leaf) := by
  have hp : p.Prime := Fact.out
  have hlc : f.leadingCoeff ≠ 0 := leadingCoeff_ne_zero.mpr hf
  have hC : (ofCoeffs [f.leadingCoeff] : Poly (ZMod p)).toPoly = C f.leadingCoeff := by
    rw [toPoly_ofCoeffs]; simp
  have hr0 : r ≠ [] := by
    rintro rfl
    apply hd
    rw [← hprod]; simp
  have hrp : r.Pairwise fun a b => IsCoprime a.toPoly b.toPoly := by
    have hsq' : Squarefree ((r.map toPoly).prod) :=
      hsq.squarefree_of_dvd (Dvd.intro_left _ hprod)
    clear hprod hl hr0
    induction r with
    | nil => exact List.Pairwise.nil
    | cons a r ih =>
      rw [List.map_cons, List.prod_cons] at hsq'
      rw [List.pairwise_cons]
      refine ⟨fun b hb => ?_, ih (fun g hg => hr g (by simp [hg]))
        (hsq'.squarefree_of_dvd (Dvd.intro_left _ rfl))⟩
      have hab : a.toPoly * b.toPoly ∣ a.toPoly * (r.map toPoly).prod :=
        mul_dvd_mul_left _ (List.dvd_prod (List.mem_map_of_mem hb))
      have := hsq'.squarefree_of_dvd hab
      exact (squarefree_mul_iff.mp this).1.isCoprime
  have hru : ∀ g ∈ r, ¬ IsUnit g.toPoly := fun g hg => (hr g hg).2.not_isUnit
  refine ⟨?_, ?_, ?_, ?_, ?_⟩
  · rw [hl]; simp [hr0]
  · intro t ht
    obtain ⟨g, hg, rfl⟩ := List.mem_map.mp ht
    show IsUnit g.toPoly.leadingCoeff
    rw [hl] at hg
    rcases List.mem_append.mp hg with hg | hg
    · by_cases h1 : f.leadingCoeff = 1
      · rw [if_pos h1] at hg; simp at hg
      · rw [if_neg h1, List.mem_singleton] at hg
        rw [hg, hC, leadingCoeff_C]
        exact isUnit_iff_ne_zero.mpr hlc
    · rw [(hr g hg).1.leadingCoeff]; exact isUnit_one
  · rw [List.pairwise_map, hl, List.pairwise_append]
    refine ⟨?_, ?_, ?_⟩
    · by_cases h1 : f.leadingCoeff = 1
      · rw [if_pos h1]; exact List.Pairwise.nil
      · rw [if_neg h1]; exact List.pairwise_singleton _ _
    · refine hrp.imp_of_mem ?_
      intro a b ha hb hab
      exact ⟨hab, fun h => hru a ha h.1⟩
    · intro a ha b hb
      by_cases h1 : f.leadingCoeff = 1
      · rw [if_pos h1] at ha; simp at ha
      · rw [if_neg h1, List.mem_singleton] at ha
        refine ⟨?_, fun h => hru b hb h.2⟩
        show IsCoprime a.toPoly b.toPoly
        rw [ha, hC]
        exact ⟨C f.leadingCoeff⁻¹, 0, by rw [zero_mul, add_zero, ← C_mul, inv_mul_cancel₀ hlc, C_1]⟩
  · rw [List.map_map, hl, List.map_append, List.prod_append]
    conv_rhs => rw [← hprod]
    congr 1
    by_cases h1 : f.leadingCoeff = 1
    · rw [if_pos h1, h1]; simp
    · rw [if_neg h1]
      simp only [List.map_cons, List.map_nil, List.prod_cons, List.prod_nil, mul_one]
      exact hC
  · intro v hv
    have hone : ∀ g ∈ r, FTree.Lcs 1 1 (FTree.leaf g) := by
      intro g hg
      show g.toPoly.leadingCoeff = ((1 : ℕ) : ZMod p) * ((1 : ℕ) : ZMod p)
      rw [(hr g hg).1.leadingCoeff, Nat.cast_one, one_mul]
    by_cases h1 : f.leadingCoeff = 1
    · rw [hl, if_pos h1, List.nil_append]
      obtain ⟨g, r', rfl⟩ := List.exists_cons_of_ne_nil hr0
      refine ⟨FTree.leaf g, r'.map FTree.leaf, List.Perm.refl _, ?_, ?_⟩
      · show g.toPoly.leadingCoeff = _
        rw [(hr g (by simp)).1.leadingCoeff, ← hv, h1]
        simp
      · intro s hs
        obtain ⟨g', hg', rfl⟩ := List.mem_map.mp hs
        exact hone g' (by simp [hg'])
    · rw [hl, if_neg h1]
      refine ⟨FTree.leaf (ofCoeffs [f.leadingCoeff]), r.map FTree.leaf, List.Perm.refl _, ?_, ?_⟩
      · show (ofCoeffs [f.leadingCoeff] : Poly (ZMod p)).toPoly.leadingCoeff = _
        rw [hC, leadingCoeff_C, hv]
        simp
      · intro s hs
        obtain ⟨g', hg', rfl⟩ := List.mem_map.mp hs
        exact hone g' hg'

end Lift

/-- what comes before the subset search: a correct factor tree modulo a high enough power of an odd
prime -/
theorem lifted_spec (choose : ℕ → List ℕ → ℕ) (hc : HeapOrder choose) (f : Poly ℤ)
    (hd : 2 ≤ f.toPoly.natDegree) (p : ℕ) (hp : GoodPrime f p)
    (rng : ℕ → ℕ) (fuel pos : ℕ) (l : List (Poly (ZMod p))) (pos' : ℕ)
    (hl : modularFactors rng fuel pos (modPoly p f) = .ok (l, pos')) :
    ∃ (k : ℕ) (t : FTree (p ^ 2 ^ k)), t.Ok ∧ t.product = modPoly (p ^ 2 ^ k) f ∧
      f.factorLimit.toNat < p ^ 2 ^ k * p ^ 2 ^ k ∧
      liftAndRecombine choose f l = recombine f t ∧
      (t.leaves.map (setModulus p)).Perm l ∧
      (∃ r, l = (if (modPoly p f).toPoly.leadingCoeff = 1 then []
          else [ofCoeffs [(modPoly p f).toPoly.leadingCoeff]]) ++ r ∧
        (∀ g ∈ r, g.toPoly.Monic ∧ Irreducible g.toPoly) ∧
        C (modPoly p f).toPoly.leadingCoeff * (r.map toPoly).prod = (modPoly p f).toPoly) ∧
      ∀ v w : ℕ, ((f.toPoly.leadingCoeff : ℤ) : ZMod (p ^ 2 ^ k)) = v * w →
        f.toPoly.leadingCoeff % p = v → t.Lcs v w := by
  obtain ⟨p1, p2, p3, p4, p5⟩ := hp
  have : Fact p.Prime := ⟨p1⟩
  have hp1 : 1 < p := p1.one_lt
  rw [← toPoly_modPoly] at p5
  rcases modularFactors_spec p2 rng fuel pos (modPoly p f) p5 with h | ⟨r, pos'', h, hr, hprod⟩
  · rw [h] at hl; cases hl
  rw [h] at hl
  have hl1 : l = (if (modPoly p f).toPoly.leadingCoeff = 1 then []
          else [ofCoeffs [(modPoly p f).toPoly.leadingCoeff]]) ++ r := by
    have := Except.ok.inj hl
    exact (Prod.mk.inj this).1.symm
  have hu : IsUnit ((f.toPoly.leadingCoeff : ℤ) : ZMod p) := by
    rw [isUnit_iff_ne_zero, Ne, ZMod.intCast_zmod_eq_zero_iff_dvd]; exact p4
  obtain ⟨m1, m2⟩ := modPoly_lead hp1 f hu
  obtain ⟨a1, a2, a3, a4, a5⟩ := leaves_ok (modPoly p f).toPoly (modPoly_ne_zero f p p4)
    (by rw [m1]; omega) p5 r hr hprod l hl1
  obtain ⟨t, b1, b2, b3, b4, b5⟩ := FTree.build_spec choose hc.lt (l.length + 1) 0 (l.map FTree.leaf)
    (by simpa using a1) (by simp) a2 a3
  have htp : t.product = modPoly p f := toPoly_injective (by rw [b3, a4])
  obtain ⟨k, t', c1, c2, c3, c4, c5, c6⟩ := liftLoop_spec f f.factorLimit.toNat
    (f.factorLimit.toNat + 2) p t hp1 (by omega) (by omega) b2 htp hu
  refine ⟨k, t', c2, c3, c4, ?_, ?_, ⟨r, hl1, hr, hprod⟩, ?_⟩
  · unfold liftAndRecombine
    rw [b1]
    simp only
    rw [c1]
  · rw [c5]
    refine b4.trans ?_
    have : (l.map FTree.leaf).flatMap FTree.leaves = l := by
      clear * -
      induction l with
      | nil => rfl
      | cons a l ih =>
        rw [List.map_cons, List.flatMap_cons, ih]; rfl
    rw [this]
  · intro v w hvw hv
    have hp0 : (p : ℤ) ≠ 0 := by exact_mod_cast p1.ne_zero
    have hvp : v < p := by
      have := Int.emod_lt_of_pos f.toPoly.leadingCoeff (by exact_mod_cast p1.pos : (0 : ℤ) < p)
      rw [hv] at this
      exact_mod_cast this
    have hlv : ((f.toPoly.leadingCoeff : ℤ) : ZMod p) = (v : ZMod p) := by
      have : ((f.toPoly.leadingCoeff % (p : ℤ) : ℤ) : ZMod p) = ((v : ℤ) : ZMod p) := by rw [hv]
      rw [ZMod.intCast_mod] at this
      rw [this]; simp
    have hw : ((1 : ℕ) : ZMod p) = w := by
      rw [hlv] at hu
      have h1 : (v : ZMod p) * w = v * 1 := by
        have hdn : p ∣ p ^ 2 ^ k := dvd_pow_self _ (by positivity)
        have h0 := congrArg (ZMod.castHom hdn (ZMod p)) hvw
        simp only [map_intCast, map_mul, map_natCast] at h0
        rw [mul_one, ← h0, hlv]
      rw [Nat.cast_one]
      exact (hu.mul_left_cancel h1).symm
    exact c6 v w hvp hvw (FTree.Lcs.congr v 1 w hw (b5 v (a5 v (by rw [m2, hlv]))))

/-- the subset search never panics, and its factors multiply back -/
theorem recombine_product (f : Poly ℤ) (hpp : PP f.toPoly) (t : FTree M) :
    ∃ r, recombine f t = some r ∧ (r.map toPoly).prod = f.toPoly ∧ ∀ g ∈ r, PP g.toPoly := by
  have hcont : f.content intGcd = 1 := by
    obtain ⟨c1, c2, -⟩ := content_spec f
    obtain ⟨-, -, c4⟩ := c2 hpp.ne_zero
    have hu : IsUnit (f.content intGcd) := by
      apply hpp.1
      rw [C_dvd_iff_dvd_coeff]
      exact (c1 _).mp dvd_rfl
    have := c4.mpr hpp.2
    rcases Int.isUnit_iff.mp hu with h | h
    · exact h
    · omega
  unfold recombine
  simp only
  rw [hcont, if_pos rfl]
  set modular := t.leaves.filter fun g => !decide (g.degree = some 0) with hmod
  obtain ⟨s, hs⟩ := searchLoop_total (2 * modular.length + 2) 0
    (⟨f, modular, [], false⟩ : Search M) hpp (by simp) (by omega) (by simp)
  rw [hs]
  obtain ⟨h1, h2, h3⟩ := searchLoop_product f.toPoly _ 0 (⟨f, modular, [], false⟩ : Search M) s hpp
    (by simp) (by simp) hs
  refine ⟨_, rfl, ?_, ?_⟩
  · rw [List.map_append, List.prod_append]
    simpa using h2
  · intro g hg
    rcases List.mem_append.mp hg with hg | hg
    · exact h3 g hg
    · rw [List.mem_singleton.mp hg]; exact h1

theorem factorSquareFree_spec (choose : ℕ → List ℕ → ℕ) (hc : HeapOrder choose) (rng : ℕ → ℕ)
    (fuel pos : ℕ) (f : Poly ℤ) (hpp : PP f.toPoly) :
    (∀ r pos', factorSquareFree choose rng fuel pos f = .ok (r, pos') →
      (r.map toPoly).prod = f.toPoly ∧ ∀ g ∈ r, PP g.toPoly) ∧
    ((2 ≤ f.toPoly.natDegree → ∃ p, GoodPrime f p) →
      factorSquareFree choose rng fuel pos f ≠ .error .panic) := by
  unfold factorSquareFree
  rw [degree_eq, if_neg hpp.ne_zero, Option.getD_some]
  by_cases hd : f.toPoly.natDegree ≤ 1
  · rw [if_pos hd]
    refine ⟨?_, fun _ h => by cases h⟩
    intro r pos' h
    cases h
    simpa using hpp
  · rw [if_neg hd]
    obtain ⟨s1, s2⟩ := selectPrime_spec f (2 ^ 31) 2 (by norm_num)
    cases hsel : selectPrime f (2 ^ 31) 2 with
    | none =>
      simp only
      refine ⟨fun _ _ h => (by cases h), fun hex => ?_⟩
      obtain ⟨p, hp⟩ := hex (by omega)
      obtain ⟨q, hq⟩ := s2 ⟨p, hp, by
        have := hp.1.two_le
        have h2 := hp.2.1
        have : 2 < p := by omega
        exact_mod_cast this, by
        have := hp.2.2.1
        push_cast
        omega⟩
      rw [hsel] at hq; cases hq
    | some p =>
      have hp := s1 p hsel
      simp only
      cases hm : modularFactors rng fuel pos (modPoly p f) with
      | error e =>
        simp only
        refine ⟨fun _ _ h => (by cases h), fun _ h => ?_⟩
        cases h
        have : Fact p.Prime := ⟨hp.1⟩
        rcases modularFactors_spec hp.2.1 rng fuel pos (modPoly p f)
          (by rw [toPoly_modPoly]; exact hp.2.2.2.2) with h | ⟨r, pos'', h, -⟩
        · rw [h] at hm; cases hm
        · rw [h] at hm; cases hm
      | ok lp =>
        obtain ⟨l, pos1⟩ := lp
        simp only
        obtain ⟨k, t, -, -, -, h4, -⟩ := lifted_spec choose hc f (by omega) p hp rng fuel pos l pos1 hm
        obtain ⟨r, r1, r2, r3⟩ := recombine_product f hpp t
        rw [h4, r1]
        refine ⟨?_, fun _ h => by cases h⟩
        intro r' pos' h
        cases h
        exact ⟨r2, r3⟩

/-! ## The whole factorization -/

theorem ratElements_spec (g : Poly ℚ) (z : ℤ[X]) (hz : g.toPoly = z.map (Int.castRingHom ℚ)) :
    (ofCoeffs (ratElements g) : Poly ℤ).toPoly = z := by
  obtain ⟨h0, h⟩ := C13_rational_divisor g
  have hd : ((g.raw.divisor : ℕ+) : ℕ) = 1 := by
    have hco : ∀ i, ((g.raw.elements : List ℤ).getD i 0) = ((g.raw.divisor : ℕ+) : ℕ) * z.coeff i := by
      intro i
      have h1 := h i
      rw [coefficient_eq, hz, coeff_map] at h1
      have h2 : (((g.raw.divisor : ℕ+) : ℕ) : ℚ) ≠ 0 := by exact_mod_cast h0.ne'
      rw [eq_div_iff h2] at h1
      simp only [eq_intCast] at h1
      have : (((g.raw.elements : List ℤ).getD i 0 : ℤ) : ℚ) = ((((g.raw.divisor : ℕ+) : ℕ) * z.coeff i : ℤ) : ℚ) := by
        rw [← h1]; push_cast; ring
      exact_mod_cast this
    have hu := C13_rational_reduced g (((g.raw.divisor : ℕ+) : ℕ) : ℤ) dvd_rfl (by
      intro e he
      obtain ⟨i, hi, rfl⟩ := List.getElem_of_mem he
      have := hco i
      rw [List.getD_eq_getElem?_getD, List.getElem?_eq_getElem hi, Option.getD_some] at this
      rw [this]
      exact Dvd.intro _ rfl)
    rcases Int.isUnit_iff.mp hu with h | h
    · exact_mod_cast h
    · omega
  ext i
  rw [toPoly_ofCoeffs, listPoly_coeff]
  have h1 := h i
  rw [coefficient_eq, hz, coeff_map, hd] at h1
  simp only [eq_intCast, Nat.cast_one, div_one] at h1
  exact_mod_cast h1.symm

theorem factorLoop_spec (choose : ℕ → List ℕ → ℕ) (hc : HeapOrder choose) (rng : ℕ → ℕ) (fuel : ℕ)
    (gs : List (Poly ℚ)) : ∀ (index pos : ℕ) (zs : List ℤ[X]), zs.length = gs.length →
    (∀ (i : ℕ) (hi : i < gs.length) (hi' : i < zs.length),
      gs[i].toPoly = zs[i].map (Int.castRingHom ℚ) ∧ PP zs[i]) →
    (∀ r pos', factorLoop choose rng fuel index gs pos = .ok (r, pos') →
      powerProduct r = ∏ i : Fin zs.length, zs[i] ^ (index + i.val + 1) ∧
      ∀ e ∈ r, PP e.1.toPoly ∧ e.1.toPoly.natDegree ≠ 0 ∧ 0 < e.2) ∧
    ((∀ z ∈ zs, 2 ≤ z.natDegree → ∃ p, GoodPrime (toPolyEquiv (T := ℤ).symm z) p) →
      factorLoop choose rng fuel index gs pos ≠ .error .panic) := by
  induction gs with
  | nil =>
    intro index pos zs hlen _
    have : zs = [] := List.length_eq_zero_iff.mp hlen
    subst this
    refine ⟨?_, fun _ h => (by cases h)⟩
    intro r pos' h
    cases h
    exact ⟨by simp [powerProduct], by simp⟩
  | cons g gs ih =>
    intro index pos zs hlen hzs
    obtain ⟨z, zs, rfl⟩ : ∃ z zs', zs = z :: zs' := by
      cases zs with
      | nil => simp at hlen
      | cons z zs => exact ⟨z, zs, rfl⟩
    obtain ⟨hz, hpp⟩ := hzs 0 (by simp) (by simp)
    simp only [List.getElem_cons_zero] at hz hpp
    have hel := ratElements_spec g z hz
    have hpp' : PP (ofCoeffs (ratElements g) : Poly ℤ).toPoly := by rw [hel]; exact hpp
    have heq : toPolyEquiv (T := ℤ).symm z = (ofCoeffs (ratElements g) : Poly ℤ) := by
      rw [RingEquiv.symm_apply_eq]; exact hel.symm
    obtain ⟨s1, s2⟩ := factorSquareFree_spec choose hc rng fuel pos _ hpp'
    unfold factorLoop
    cases h1 : factorSquareFree choose rng fuel pos (ofCoeffs (ratElements g)) with
    | error e =>
      simp only
      refine ⟨fun _ _ h => (by cases h), fun hex h => ?_⟩
      cases h
      refine s2 (fun hd => ?_) h1
      rw [hel] at hd
      obtain ⟨p, hp⟩ := hex z (by simp) hd
      rw [heq] at hp
      exact ⟨p, hp⟩
    | ok lp =>
      obtain ⟨l, pos1⟩ := lp
      obtain ⟨u1, u2⟩ := s1 l pos1 h1
      simp only
      obtain ⟨i1, i2⟩ := ih (index + 1) pos1 zs (by simpa using hlen) (by
        intro i hi hi'
        have := hzs (i + 1) (by simp; omega) (by simp; omega)
        simpa using this)
      cases h2 : factorLoop choose rng fuel (index + 1) gs pos1 with
      | error e =>
        simp only
        refine ⟨fun _ _ h => (by cases h), fun hex h => ?_⟩
        cases h
        exact i2 (fun z hz => hex z (by simp [hz])) h2
      | ok rp =>
        obtain ⟨r, pos2⟩ := rp
        obtain ⟨v1, v2⟩ := i1 r pos2 h2
        simp only
        refine ⟨?_, fun _ h => (by cases h)⟩
        intro r' pos' h
        cases h
        constructor
        · rw [powerProduct, List.map_append, List.prod_append]
          have hr : (r.map fun e => e.1.toPoly ^ e.2).prod = _ := v1
          rw [hr]
          have hprod : ∏ i : Fin (z :: zs).length, (z :: zs)[i] ^ (index + i.val + 1) =
              z ^ (index + 1) * ∏ i : Fin zs.length, zs[i] ^ (index + 1 + i.val + 1) := by
            refine (Fin.prod_univ_succ (n := zs.length)
              (fun i : Fin (zs.length + 1) => ((z :: zs)[i] : ℤ[X]) ^ (index + i.val + 1))).trans ?_
            congr 1
            apply Finset.prod_congr rfl
            intro i _
            simp only [Fin.val_succ]
            rw [show index + (i.val + 1) + 1 = index + 1 + i.val + 1 by ring]
            rfl
          rw [hprod]
          congr 1
          rw [← hel, ← u1]
          clear * -
          induction l with
          | nil => simp
          | cons q l ih =>
            rw [List.map_cons, List.prod_cons, mul_pow, ← ih, List.filter_cons]
            by_cases h : q.isOne = true
            · rw [h, (isOne_iff q).mp h]; simp
            · rw [Bool.not_eq_true] at h
              rw [h]; simp
        · intro e he
          rcases List.mem_append.mp he with he | he
          · obtain ⟨q, hq, rfl⟩ := List.mem_map.mp he
            obtain ⟨hq1, hq2⟩ := List.mem_filter.mp hq
            refine ⟨u2 q hq1, fun h0 => ?_, by simp⟩
            rw [Bool.not_eq_true'] at hq2
            have := (isOne_iff q).mpr ((u2 q hq1).const h0)
            rw [hq2] at this
            cases this
          · exact v2 e he

/-- an integer polynomial is its content times a primitive polynomial of positive leading
coefficient -/
theorem factor_content (f : Poly ℤ) (hf : f.toPoly ≠ 0) :
    ∃ z : ℤ[X], PP z ∧ f.toPoly = C (f.content intGcd) * z ∧
      ∃ l, f.coeffs.mapM (fun v => checkedExactDivInt v (f.content intGcd)) = some l ∧
        (ofCoeffs (l.map fun v : ℤ => (v : ℚ)) : Poly ℚ).toPoly = z.map (Int.castRingHom ℚ) := by
  obtain ⟨r, h1, h2⟩ := primitivePart_spec f
  obtain ⟨r', h1', -, h3⟩ := C19_primitive_part f
  rw [h1] at h1'
  cases h1'
  obtain ⟨-, c2, -⟩ := content_spec f
  obtain ⟨c3, -, -⟩ := c2 hf
  unfold primitivePart at h1
  rw [c3] at h1
  simp only at h1
  unfold divCoeff at h1
  obtain ⟨l, hl, rfl⟩ := Option.map_eq_some_iff.mp h1
  refine ⟨_, h3 hf, by rw [mul_comm]; exact h2, l, hl, ?_⟩
  ext i
  rw [toPoly_ofCoeffs, toPoly_ofCoeffs, coeff_map, listPoly_coeff, listPoly_coeff]
  rw [List.getD_eq_getElem?_getD, List.getElem?_map, List.getD_eq_getElem?_getD]
  cases l[i]? <;> simp

theorem factor_spec (choose : ℕ → List ℕ → ℕ) (hc : HeapOrder choose) (rng : ℕ → ℕ)
    (fuel pos : ℕ) (f : Poly ℤ) :
    (∀ r pos', factor choose rng fuel pos f = .ok (r, pos') →
      f.toPoly = C r.constant * powerProduct r.factors ∧
      ∀ e ∈ r.factors, PP e.1.toPoly ∧ e.1.toPoly.natDegree ≠ 0 ∧ 0 < e.2) ∧
    ((∀ z : Poly ℤ, PP z.toPoly → z.toPoly ∣ f.toPoly →
        Squarefree (z.toPoly.map (Int.castRingHom ℚ)) → 2 ≤ z.toPoly.natDegree → ∃ p, GoodPrime z p) →
      factor choose rng fuel pos f ≠ .error .panic) := by
  by_cases hf : f.toPoly = 0
  · have hfac : factor choose rng fuel pos f = .ok (⟨0, []⟩, pos) := by
      have : f = ofCoeffs [] := toPoly_injective (by rw [hf, toPoly_ofCoeffs]; rfl)
      rw [this]
      rfl
    rw [hfac]
    refine ⟨?_, fun _ h => (by cases h)⟩
    intro r pos' h
    cases h
    exact ⟨by simp [hf], by simp⟩
  · obtain ⟨z, z1, z2, l, z3, z4⟩ := factor_content f hf
    unfold factor
    simp only
    rw [z3]
    simp only
    have hinj : Function.Injective (Int.castRingHom ℚ) := Int.cast_injective
    have hdeg := natDegree_map_eq_of_injective hinj z
    by_cases hd : z.natDegree = 0
    · rw [C24_yun_constant _ (by rw [z4, hdeg]; exact hd)]
      simp only [factorLoop]
      refine ⟨?_, fun _ h => (by cases h)⟩
      intro r pos' h
      cases h
      refine ⟨?_, by simp⟩
      rw [z2, z1.const hd]; simp [powerProduct]
    · obtain ⟨c, gs, y1, -, -, y4, -, y6, -⟩ := C24_yun
        (ofCoeffs (l.map fun v : ℤ => (v : ℚ))) (by rw [z4, hdeg]; exact hd)
      rw [y1]
      simp only
      choose zf hzf using fun (g : Poly ℚ) (hg : g ∈ gs) => (y4 g hg).2
      set zs : List ℤ[X] := gs.attach.map fun g => zf g.1 g.2 with hzs
      have hlen : zs.length = gs.length := by simp [hzs]
      have hget : ∀ (i : ℕ) (hi : i < gs.length) (hi' : i < zs.length),
          gs[i].toPoly = zs[i].map (Int.castRingHom ℚ) ∧ PP zs[i] := by
        intro i hi hi'
        have : zs[i] = zf gs[i] (List.getElem_mem hi) := by simp [hzs]
        rw [this]
        obtain ⟨g1, g2, g3⟩ := hzf gs[i] (List.getElem_mem hi)
        exact ⟨g3, g1, g2⟩
      obtain ⟨w1, w2⟩ := factorLoop_spec choose hc rng fuel gs 0 pos zs hlen hget
      have hprod : z = ∏ i : Fin zs.length, zs[i] ^ (0 + i.val + 1) := by
        have hPP : PP (∏ i : Fin zs.length, zs[i] ^ (0 + i.val + 1)) := by
          apply Finset.prod_induction _ PP (fun _ _ => PP.mul) PP.one
          intro i _
          have h1 := (hget i (by have := i.2; omega) i.2).2
          generalize 0 + i.val + 1 = k
          induction k with
          | zero => rw [pow_zero]; exact PP.one
          | succ k ih => rw [pow_succ]; exact ih.mul h1
        have hmap : z.map (Int.castRingHom ℚ) =
            C c * (∏ i : Fin zs.length, zs[i] ^ (0 + i.val + 1)).map (Int.castRingHom ℚ) := by
          rw [← z4, y6, Polynomial.map_prod]
          congr 1
          refine Fintype.prod_equiv (finCongr hlen.symm) _ _ ?_
          intro i
          have h1 := (hget i.val i.2 (by rw [hlen]; exact i.2)).1
          rw [Polynomial.map_pow, zero_add]
          show gs[i.val].toPoly ^ (i.val + 1) = _
          rw [h1]
          rfl
        have hden : (c.den : ℤ) ≠ 0 := by exact_mod_cast c.den_ne_zero
        refine PP.eq_of_C_mul z1 hPP (x := c.den) (y := c.num) hden ?_
        apply map_injective _ hinj
        rw [Polynomial.map_mul, Polynomial.map_mul, hmap, map_C, map_C, ← mul_assoc, ← C_mul]
        congr 2
        simp only [eq_intCast]
        push_cast
        exact Rat.den_mul_eq_num c
      have hdvd : ∀ w ∈ zs, w ∣ f.toPoly := by
        intro w hw
        obtain ⟨i, hi, rfl⟩ := List.getElem_of_mem hw
        rw [z2]
        refine Dvd.dvd.mul_left ?_ _
        rw [hprod]
        refine Dvd.dvd.trans ?_ (Finset.dvd_prod_of_mem _ (Finset.mem_univ (⟨i, hi⟩ : Fin zs.length)))
        exact dvd_pow_self _ (by omega)
      cases hl : factorLoop choose rng fuel 0 gs pos with
      | error e =>
        simp only
        refine ⟨fun _ _ h => (by cases h), fun hex h => ?_⟩
        cases h
        refine w2 ?_ hl
        intro w hw hd2
        obtain ⟨i, hi, rfl⟩ := List.getElem_of_mem hw
        have hi' : i < gs.length := by omega
        obtain ⟨g1, g2⟩ := hget i hi' hi
        have hsymm : (toPolyEquiv (T := ℤ).symm zs[i]).toPoly = zs[i] :=
          (toPolyEquiv (T := ℤ)).apply_symm_apply _
        refine hex _ (by rw [hsymm]; exact g2) (by rw [hsymm]; exact hdvd _ hw) ?_
          (by rw [hsymm]; exact hd2)
        rw [hsymm, ← g1]
        exact (y4 _ (List.getElem_mem hi')).1
      | ok rp =>
        obtain ⟨r, pos1⟩ := rp
        obtain ⟨v1, v2⟩ := w1 r pos1 hl
        simp only
        refine ⟨?_, fun _ h => (by cases h)⟩
        intro r' pos' h
        cases h
        exact ⟨by rw [v1, ← hprod]; exact z2, v2⟩

end Poly
end Algebraics
