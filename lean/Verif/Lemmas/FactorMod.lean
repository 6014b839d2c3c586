import Verif.Model.Factor
import Verif.Lemmas.PolyGcd
import Verif.Lemmas.PolyMore
import Mathlib.FieldTheory.Finite.Extension
import Mathlib.RingTheory.UniqueFactorizationDomain.NormalizedFactors

/-!
# Lemmas about the factoring code modulo a prime
-/

set_option linter.unusedSectionVars false

namespace Algebraics
namespace Poly

open Polynomial

theorem isOne_iff {T : Type} [CommRing T] [PolyCoeff T] [DecidableEq T] [Nontrivial T] (p : Poly T) :
    p.isOne = true ↔ p.toPoly = 1 := by
  unfold isOne
  rw [decide_eq_true_iff, ← toPoly_one (T := T)]
  constructor
  · intro h
    congr 1
    apply coeffs_injective
    rw [h]
    show _ = (ofCoeffs [(1 : T)]).coeffs
    rw [coeffs_ofCoeffs]
    simp [stripZeros, List.rdropWhile]
  · intro h
    rw [toPoly_injective h]
    show (ofCoeffs [(1 : T)]).coeffs = _
    rw [coeffs_ofCoeffs]
    simp [stripZeros, List.rdropWhile]

theorem zmod_subCoeff {n : ℕ} (p : Poly (ZMod n)) (c : ZMod n) :
    (p.subCoeff c).toPoly = p.toPoly - C c :=
  (addCoeff_trivial (T := ZMod n) rfl p c rfl rfl).2

variable {p : ℕ} [Fact p.Prime]

/-- irreducible polynomials and `X ^ p ^ i - X` -/
theorem irreducible_dvd_iff {q : (ZMod p)[X]} (hq : Irreducible q) (i : ℕ) :
    q ∣ X ^ p ^ i - X ↔ q.natDegree ∣ i := by
  have := hq.natDegree_dvd_iff_dvd_X_pow_card_pow_sub_X (n := i)
  rw [Nat.card_zmod] at this
  exact this.symm

/-- a nonconstant polynomial has an irreducible factor -/
theorem exists_irreducible {f : (ZMod p)[X]} (h0 : f ≠ 0) (h : f.natDegree ≠ 0) :
    ∃ q, Irreducible q ∧ q ∣ f := by
  apply WfDvdMonoid.exists_irreducible_factor _ h0
  intro hu
  exact h (natDegree_eq_zero_of_isUnit hu)

theorem ddfLoop_spec (k : ℕ) : ∀ (i : ℕ) (self power : Poly (ZMod p)), 0 < i → 0 < k →
    self.toPoly.Monic → Squarefree self.toPoly →
    (∀ q, Irreducible q → q ∣ self.toPoly → i ≤ q.natDegree) →
    self.toPoly ∣ power.toPoly - X ^ p ^ i →
    self.toPoly.natDegree + 2 ≤ k + i →
    ∃ l, ddfLoop (makeMonomial 1 1) k self power = some l ∧
      (l.map toPoly).prod = self.toPoly ∧
      ∀ j (h : j < l.length), (l[j]).toPoly.Monic ∧
        ∀ q, Irreducible q → q ∣ (l[j]).toPoly → q.natDegree = i + j := by
  have hp : 0 < p := (Fact.out : p.Prime).pos
  induction k with
  | zero => intro i _ _ _ h; omega
  | succ k ih =>
    intro i self power hi _ hmon hsq hirr hpow hdeg
    unfold ddfLoop
    have hlen := len_of_ne self hmon.ne_zero
    by_cases h1 : self.len ≤ 1
    · rw [if_pos h1]
      refine ⟨[], rfl, ?_, fun j h => by simp at h⟩
      have : self.toPoly.natDegree = 0 := by omega
      rw [List.map_nil, List.prod_nil, hmon.natDegree_eq_zero.mp this]
    · rw [if_neg h1]
      obtain ⟨g, hg, hgd, hgm⟩ := gcd_spec (power - makeMonomial 1 1) self
      rw [hg]
      simp only
      have hxp : (power - makeMonomial 1 1 : Poly (ZMod p)).toPoly = power.toPoly - X := by
        rw [toPoly_sub, toPoly_makeMonomial, monomial_one_one_eq_X]
      rw [hxp] at hgd
      have hgs : g.toPoly ∣ self.toPoly := ((hgd _).mp dvd_rfl).2
      have hgx : g.toPoly ∣ power.toPoly - X := ((hgd _).mp dvd_rfl).1
      have hg0 : g.toPoly ≠ 0 := ne_zero_of_dvd_ne_zero hmon.ne_zero hgs
      have hgmon : g.toPoly.Monic := hgm.resolve_left hg0
      obtain ⟨s', hs', hs'e⟩ := div_field self g hg0
      rw [hs']
      simp only
      have hmul : self.toPoly = g.toPoly * s'.toPoly := by
        rw [hs'e]; exact (EuclideanDomain.mul_div_cancel' hg0 hgs).symm
      have hs'mon : s'.toPoly.Monic := by
        rw [hmul] at hmon; exact hgmon.of_mul_monic_left hmon
      obtain ⟨pw, hpw, hpwe⟩ := powmod_field power s' hs'mon.ne_zero p hp
      rw [hpw]
      simp only
      have key : ∀ q : (ZMod p)[X], q ∣ self.toPoly → (q ∣ power.toPoly - X ↔ q ∣ X ^ p ^ i - X) := by
        intro q hq
        have h2 := hq.trans hpow
        rw [show power.toPoly - X = (power.toPoly - X ^ p ^ i) + (X ^ p ^ i - X) by ring]
        exact dvd_add_right h2
      have hgirr : ∀ q, Irreducible q → q ∣ g.toPoly → q.natDegree = i := by
        intro q hq hqg
        have h2 := (key q (hqg.trans hgs)).mp (hqg.trans hgx)
        have h3 := Nat.le_of_dvd hi ((irreducible_dvd_iff hq i).mp h2)
        have h4 := hirr q hq (hqg.trans hgs)
        omega
      have hs'irr : ∀ q, Irreducible q → q ∣ s'.toPoly → i + 1 ≤ q.natDegree := by
        intro q hq hqs
        have hqself : q ∣ self.toPoly := by rw [hmul]; exact hqs.mul_left _
        have h4 := hirr q hq hqself
        by_contra hlt
        have h5 : q.natDegree = i := by omega
        have h6 : q ∣ X ^ p ^ i - X := (irreducible_dvd_iff hq i).mpr (by rw [h5])
        have h7 : q ∣ g.toPoly := (hgd q).mpr ⟨(key q hqself).mpr h6, hqself⟩
        have h8 : q * q ∣ self.toPoly := by rw [hmul]; exact mul_dvd_mul h7 hqs
        exact hq.not_isUnit (hsq q h8)
      have hs'pow : s'.toPoly ∣ pw.toPoly - X ^ p ^ (i + 1) := by
        have h2 : s'.toPoly ∣ power.toPoly - X ^ p ^ i :=
          (Dvd.intro_left _ hmul.symm).trans hpow
        have h3 : s'.toPoly ∣ power.toPoly ^ p - (X ^ p ^ i) ^ p := h2.trans (sub_dvd_pow_sub_pow _ _ p)
        have h4 : s'.toPoly ∣ power.toPoly ^ p % s'.toPoly - power.toPoly ^ p := by
          refine ⟨-(power.toPoly ^ p / s'.toPoly), ?_⟩
          have := EuclideanDomain.div_add_mod (power.toPoly ^ p) s'.toPoly
          linear_combination this
        rw [hpwe, pow_succ, pow_mul]
        have := dvd_add h4 h3
        rwa [sub_add_sub_cancel] at this
      have hdle : s'.toPoly.natDegree ≤ self.toPoly.natDegree := by
        rw [hmul, hgmon.natDegree_mul hs'mon]; omega
      have hk : 0 < k := by
        by_contra hk0
        obtain ⟨q, hq, hqs⟩ := exists_irreducible hmon.ne_zero (by omega : self.toPoly.natDegree ≠ 0)
        have h2 := hirr q hq hqs
        have h3 := natDegree_le_of_dvd hqs hmon.ne_zero
        omega
      obtain ⟨l, hl, hl1, hl2⟩ := ih (i + 1) s' pw (by omega) hk hs'mon
        (hsq.squarefree_of_dvd (Dvd.intro_left _ hmul.symm)) hs'irr hs'pow (by omega)
      refine ⟨g :: l, by rw [hl]; rfl, ?_, ?_⟩
      · rw [List.map_cons, List.prod_cons, hl1, hmul]
      · intro j h
        cases j with
        | zero => exact ⟨hgmon, hgirr⟩
        | succ j =>
          have h' : j < l.length := by simpa using h
          obtain ⟨a, b⟩ := hl2 j h'
          refine ⟨a, fun q hq hqd => ?_⟩
          rw [b q hq hqd]; omega

/-- `distinct_degree_factorization` of a square-free polynomial. -/
theorem ddf_spec (f : Poly (ZMod p)) (hf : Squarefree f.toPoly) :
    ∃ l, f.ddf = some (ofCoeffs [f.toPoly.leadingCoeff] :: l) ∧
      C f.toPoly.leadingCoeff * (l.map toPoly).prod = f.toPoly ∧
      ∀ j (h : j < l.length), (l[j]).toPoly.Monic ∧
        ∀ q, Irreducible q → q ∣ (l[j]).toPoly → q.natDegree = 1 + j := by
  have hp : 0 < p := (Fact.out : p.Prime).pos
  have hf0 : f.toPoly ≠ 0 := hf.ne_zero
  have hlc : f.toPoly.leadingCoeff ≠ 0 := leadingCoeff_ne_zero.mpr hf0
  unfold ddf
  rw [nonzeroHighest_eq, if_neg hf0]
  simp only
  obtain ⟨s, hs, hse⟩ := divCoeff_field f _ hlc
  rw [hs]
  simp only
  have hmon : s.toPoly.Monic := by rw [hse]; exact monic_mul_leadingCoeff_inv hf0
  have hass : f.toPoly = s.toPoly * C f.toPoly.leadingCoeff := by
    rw [hse, mul_assoc, ← C_mul, inv_mul_cancel₀ hlc, C_1, mul_one]
  obtain ⟨pw, hpw, hpwe⟩ := powmod_field (makeMonomial 1 1) s hmon.ne_zero p hp
  rw [hpw]
  simp only
  have hlen := len_of_ne s hmon.ne_zero
  obtain ⟨l, hl, hl1, hl2⟩ := ddfLoop_spec s.len 1 s pw (by omega) (by omega) hmon
    (hf.squarefree_of_dvd (Dvd.intro _ hass.symm))
    (fun q hq _ => hq.natDegree_pos)
    (by
      rw [hpwe, toPoly_makeMonomial, monomial_one_one_eq_X, pow_one]
      refine ⟨-(X ^ p / s.toPoly), ?_⟩
      have := EuclideanDomain.div_add_mod (X ^ p) s.toPoly
      linear_combination this) (by omega)
  refine ⟨l, by rw [hl]; rfl, ?_, hl2⟩
  rw [hl1, mul_comm, ← hass]

theorem sdfSplit_spec (hp2 : p ≠ 2) (d : ℕ) (hd : 0 < d) (random f : Poly (ZMod p))
    (hf : f.toPoly.Monic) :
    sdfSplit d random f = some none ∨ ∃ g q, sdfSplit d random f = some (some (g, q)) ∧
      f.toPoly = q.toPoly * g.toPoly ∧ g.toPoly.Monic ∧ q.toPoly.Monic ∧
      g.toPoly.natDegree ≠ 0 ∧ q.toPoly.natDegree ≠ 0 := by
  have hp : p.Prime := Fact.out
  have h3 : 3 ≤ p := by have := hp.two_le; omega
  have hpd : 3 ≤ p ^ d := le_trans h3 (Nat.le_self_pow (by omega) p)
  have hexp : ((p : ℤ) ^ d - 1) / 2 = (((p ^ d - 1) / 2 : ℕ) : ℤ) := by
    rw [Int.natCast_div, Nat.cast_sub (by omega)]; push_cast; rfl
  unfold sdfSplit
  rw [hexp]
  obtain ⟨r, hr, -⟩ := powmod_field random f hf.ne_zero ((p ^ d - 1) / 2) (by omega)
  rw [hr]
  simp only
  obtain ⟨g, hg, hgd, hgm⟩ := gcd_spec f (r.subCoeff 1)
  rw [hg]
  simp only
  have hgs : g.toPoly ∣ f.toPoly := ((hgd _).mp dvd_rfl).1
  have hg0 : g.toPoly ≠ 0 := ne_zero_of_dvd_ne_zero hf.ne_zero hgs
  have hgmon := hgm.resolve_left hg0
  by_cases hc : 0 < g.degree.getD 0 ∧ g.len < f.len
  · rw [if_pos hc]
    right
    obtain ⟨qq, hqq⟩ := hgs
    obtain ⟨q, hq⟩ := (toPolyEquiv (T := ZMod p)).surjective qq
    have hq : q.toPoly = qq := hq
    have hmul : f.toPoly = q.toPoly * g.toPoly := by rw [hqq, hq, mul_comm]
    rw [(exactDivPoly_eq_some_iff f g q).mpr ⟨hg0, hmul⟩]
    have hqm : q.toPoly.Monic := by rw [hmul] at hf; exact hgmon.of_mul_monic_right hf
    refine ⟨g, q, rfl, hmul, hgmon, hqm, ?_, ?_⟩
    · have := hc.1
      rw [degree_eq, if_neg hg0] at this
      simpa using (Nat.pos_iff_ne_zero.mp this)
    · have := hc.2
      rw [len_of_ne g hg0, len_of_ne f hf.ne_zero, hmul, hqm.natDegree_mul hgmon] at this
      omega
  · rw [if_neg hc]; exact Or.inl rfl

/-- what the stack of `same_degree_factorization` holds: products of distinct irreducible
polynomials of degree `d` -/
def SameDegree (d : ℕ) (f : (ZMod p)[X]) : Prop :=
  f.Monic ∧ f.natDegree ≠ 0 ∧ ∀ q, Irreducible q → q ∣ f → q.natDegree = d

theorem SameDegree.le {d : ℕ} {f : (ZMod p)[X]} (h : SameDegree d f) : d ≤ f.natDegree := by
  obtain ⟨q, hq, hqf⟩ := exists_irreducible h.1.ne_zero h.2.1
  rw [← h.2.2 q hq hqf]
  exact natDegree_le_of_dvd hqf h.1.ne_zero

theorem SameDegree.irreducible {d : ℕ} {f : (ZMod p)[X]} (h : SameDegree d f)
    (hd : f.natDegree = d) : Irreducible f := by
  obtain ⟨q, hq, c, hc⟩ := exists_irreducible h.1.ne_zero h.2.1
  have hq0 := hq.ne_zero
  have hc0 : c ≠ 0 := by rintro rfl; exact h.1.ne_zero (by rw [hc, mul_zero])
  have h1 := h.2.2 q hq ⟨c, hc⟩
  have h2 : c.natDegree = 0 := by
    have := natDegree_mul hq0 hc0
    rw [← hc] at this; omega
  have hu : IsUnit c := by
    rw [eq_C_of_natDegree_eq_zero h2] at hc0 ⊢
    exact isUnit_C.mpr (isUnit_iff_ne_zero.mpr (by simpa using hc0))
  rw [hc]
  exact (irreducible_mul_isUnit hu).mpr hq

theorem sdfLoop_spec (hp2 : p ≠ 2) (rng : ℕ → ℕ) (d : ℕ) (hd : 0 < d) (fuel : ℕ) :
    ∀ (pos : ℕ) (stack retval : List (Poly (ZMod p))),
    (∀ f ∈ stack, SameDegree d f.toPoly) →
    (∀ f ∈ retval, f.toPoly.Monic ∧ Irreducible f.toPoly ∧ f.toPoly.natDegree = d) →
    sdfLoop rng d fuel pos stack retval = .error .fuel ∨
      ∃ l pos', sdfLoop rng d fuel pos stack retval = .ok (l, pos') ∧
        (∀ f ∈ l, f.toPoly.Monic ∧ Irreducible f.toPoly ∧ f.toPoly.natDegree = d) ∧
        (l.map toPoly).prod = (retval.map toPoly).prod * (stack.map toPoly).prod := by
  induction fuel with
  | zero => intro pos stack retval _ _; left; cases stack <;> rfl
  | succ fuel ih =>
    intro pos stack retval hs hr
    cases stack with
    | nil => exact Or.inr ⟨retval, pos, rfl, hr, by simp⟩
    | cons f stack =>
      have hf := hs f (by simp)
      have hs' : ∀ g ∈ stack, SameDegree d g.toPoly := fun g hg => hs g (by simp [hg])
      have hfd : f.degree = some f.toPoly.natDegree := by rw [degree_eq, if_neg hf.1.ne_zero]
      unfold sdfLoop
      rw [hfd, Option.getD_some, if_neg (not_lt.mpr hf.le)]
      by_cases h1 : some f.toPoly.natDegree = some d
      · rw [if_pos h1]
        have h1' : f.toPoly.natDegree = d := by simpa using h1
        rcases ih pos stack (retval ++ [f]) hs' (by
          intro g hg
          rcases List.mem_append.mp hg with hg | hg
          · exact hr g hg
          · rw [List.mem_singleton.mp hg]
            exact ⟨hf.1, hf.irreducible h1', h1'⟩) with h | ⟨l, pos', h, h2, h3⟩
        · exact Or.inl h
        · refine Or.inr ⟨l, pos', h, h2, ?_⟩
          rw [h3, List.map_append, List.prod_append, List.map_cons, List.map_cons, List.prod_cons,
            List.map_nil, List.prod_cons, List.prod_nil]
          ring
      · rw [if_neg h1]
        rcases sdfSplit_spec hp2 d hd (randomPoly p rng pos d) f hf.1 with h2 | ⟨g, q, h2, hm, hg, hq, hg0, hq0⟩
        · rw [h2]; exact ih _ (f :: stack) retval hs hr
        · rw [h2]
          simp only
          rcases ih (pos + (2 * d - 1)) (q :: g :: stack) retval (by
            intro r hr
            simp only [List.mem_cons] at hr
            rcases hr with rfl | rfl | hr
            · exact ⟨hq, hq0, fun t ht htq => hf.2.2 t ht (by rw [hm]; exact htq.mul_right _)⟩
            · exact ⟨hg, hg0, fun t ht htq => hf.2.2 t ht (by rw [hm]; exact htq.mul_left _)⟩
            · exact hs' r hr) hr with h | ⟨l, pos', h, h3, h4⟩
          · exact Or.inl h
          · refine Or.inr ⟨l, pos', h, h3, ?_⟩
            rw [h4]
            simp only [List.map_cons, List.prod_cons, hm]
            ring

/-- `same_degree_factorization` of a monic product of irreducible polynomials of degree `d` -/
theorem sdf_spec (hp2 : p ≠ 2) (rng : ℕ → ℕ) (fuel d pos : ℕ) (hd : 0 < d) (f : Poly (ZMod p))
    (hf : SameDegree d f.toPoly) :
    sdf rng fuel d pos f = .error .fuel ∨
      ∃ l pos', sdf rng fuel d pos f = .ok (l, pos') ∧
        (∀ f ∈ l, f.toPoly.Monic ∧ Irreducible f.toPoly ∧ f.toPoly.natDegree = d) ∧
        (l.map toPoly).prod = f.toPoly := by
  have hlen := len_of_ne f hf.1.ne_zero
  have hd0 := hf.2.1
  have hfd : f.degree = some f.toPoly.natDegree := by rw [degree_eq, if_neg hf.1.ne_zero]
  unfold sdf
  rw [if_neg (by omega), hfd]
  by_cases h1 : some f.toPoly.natDegree = some d
  · rw [if_pos h1]
    have h1' : f.toPoly.natDegree = d := by simpa using h1
    refine Or.inr ⟨[f], pos, rfl, ?_, by simp⟩
    intro g hg
    rw [List.mem_singleton.mp hg]
    exact ⟨hf.1, hf.irreducible h1', h1'⟩
  · rw [if_neg h1, nonzeroHighest_eq, if_neg hf.1.ne_zero]
    simp only
    rw [if_pos hf.1.leadingCoeff]
    rcases sdfLoop_spec hp2 rng d hd fuel pos [f] [] (by simpa using hf) (by simp) with
      h | ⟨l, pos', h, h2, h3⟩
    · exact Or.inl h
    · exact Or.inr ⟨l, pos', h, h2, by rw [h3]; simp⟩

theorem sdfLoop_any (hp2 : p ≠ 2) (rng : ℕ → ℕ) (d : ℕ) (hd : 0 < d) (fuel : ℕ) :
    ∀ (pos : ℕ) (stack retval l : List (Poly (ZMod p))) (pos' : ℕ),
    (∀ f ∈ stack, f.toPoly.Monic) → (∀ f ∈ retval, f.toPoly.natDegree = d) →
    sdfLoop rng d fuel pos stack retval = .ok (l, pos') →
      (∀ f ∈ l, f.toPoly.natDegree = d) ∧
        (l.map toPoly).prod = (retval.map toPoly).prod * (stack.map toPoly).prod := by
  induction fuel with
  | zero => intro pos stack retval l pos' _ _ h; cases stack <;> cases h
  | succ fuel ih =>
    intro pos stack retval l pos' hs hr h
    cases stack with
    | nil =>
      cases h
      exact ⟨hr, by simp⟩
    | cons f stack =>
      have hf := hs f (by simp)
      have hs' : ∀ g ∈ stack, g.toPoly.Monic := fun g hg => hs g (by simp [hg])
      have hfd : f.degree = some f.toPoly.natDegree := by rw [degree_eq, if_neg hf.ne_zero]
      unfold sdfLoop at h
      rw [hfd, Option.getD_some] at h
      by_cases h0 : f.toPoly.natDegree < d
      · rw [if_pos h0] at h; cases h
      rw [if_neg h0] at h
      by_cases h1 : some f.toPoly.natDegree = some d
      · rw [if_pos h1] at h
        have h1' : f.toPoly.natDegree = d := by simpa using h1
        obtain ⟨h2, h3⟩ := ih pos stack (retval ++ [f]) l pos' hs' (by
          intro g hg
          rcases List.mem_append.mp hg with hg | hg
          · exact hr g hg
          · rw [List.mem_singleton.mp hg]
            exact h1') h
        refine ⟨h2, ?_⟩
        rw [h3, List.map_append, List.prod_append, List.map_cons, List.map_cons, List.prod_cons,
          List.map_nil, List.prod_cons, List.prod_nil]
        ring
      · rw [if_neg h1] at h
        rcases sdfSplit_spec hp2 d hd (randomPoly p rng pos d) f hf with h2 | ⟨g, q, h2, hm, hg, hq, -, -⟩
        · rw [h2] at h; exact ih _ (f :: stack) retval l pos' hs hr h
        · rw [h2] at h
          simp only at h
          obtain ⟨h3, h4⟩ := ih (pos + (2 * d - 1)) (q :: g :: stack) retval l pos' (by
            intro r hr
            simp only [List.mem_cons] at hr
            rcases hr with rfl | rfl | hr
            · exact hq
            · exact hg
            · exact hs' r hr) hr h
          refine ⟨h3, ?_⟩
          rw [h4]
          simp only [List.map_cons, List.prod_cons, hm]
          ring

/-- `same_degree_factorization` of anything -/
theorem sdf_any (hp2 : p ≠ 2) (rng : ℕ → ℕ) (fuel d pos : ℕ) (f : Poly (ZMod p))
    (l : List (Poly (ZMod p))) (pos' : ℕ) (h : sdf rng fuel d pos f = .ok (l, pos')) :
    (l.map toPoly).prod = f.toPoly ∧ ∀ g ∈ l, g.toPoly.natDegree = d := by
  unfold sdf at h
  by_cases h0 : d < 1 ∨ f.len ≤ 1
  · rw [if_pos h0] at h; cases h
  rw [if_neg h0] at h
  have hf0 : f.toPoly ≠ 0 := by
    intro hz
    have : f.len = 0 := by
      have := (len_eq_zero_iff f).mpr hz
      exact this
    omega
  have hfd : f.degree = some f.toPoly.natDegree := by rw [degree_eq, if_neg hf0]
  rw [hfd] at h
  by_cases h1 : some f.toPoly.natDegree = some d
  · rw [if_pos h1] at h
    cases h
    exact ⟨by simp, by simpa using h1⟩
  · rw [if_neg h1, nonzeroHighest_eq, if_neg hf0] at h
    simp only at h
    by_cases h2 : f.toPoly.leadingCoeff = 1
    · rw [if_pos h2] at h
      obtain ⟨h3, h4⟩ := sdfLoop_any hp2 rng d (by omega) fuel pos [f] [] l pos' (by simpa [Monic] using h2)
        (by simp) h
      exact ⟨by rw [h4]; simp, h3⟩
    · rw [if_neg h2] at h; cases h

/-- the factors modulo `p` that the tree is built from -/
theorem flatFactors_spec (hp2 : p ≠ 2) (rng : ℕ → ℕ) (fuel : ℕ) (l : List (Poly (ZMod p))) :
    ∀ (i pos : ℕ), 0 < i →
    (∀ j (h : j < l.length), (l[j]).toPoly.Monic ∧
        ∀ q, Irreducible q → q ∣ (l[j]).toPoly → q.natDegree = i + j) →
    flatFactors rng fuel i l pos = .error .fuel ∨
      ∃ r pos', flatFactors rng fuel i l pos = .ok (r, pos') ∧
        (∀ f ∈ r, f.toPoly.Monic ∧ Irreducible f.toPoly) ∧
        (r.map toPoly).prod = (l.map toPoly).prod := by
  induction l with
  | nil => intro i pos _ _; exact Or.inr ⟨[], pos, rfl, by simp, rfl⟩
  | cons f l ih =>
    intro i pos hi hl
    have hf := hl 0 (by simp)
    simp only [List.getElem_cons_zero, add_zero] at hf
    have hl' : ∀ j (h : j < l.length), (l[j]).toPoly.Monic ∧
        ∀ q, Irreducible q → q ∣ (l[j]).toPoly → q.natDegree = i + 1 + j := by
      intro j h
      obtain ⟨a, b⟩ := hl (j + 1) (by simpa using h)
      refine ⟨by simpa using a, fun q hq hd => ?_⟩
      have := b q hq (by simpa using hd)
      omega
    unfold flatFactors
    by_cases h1 : f.isOne = true
    · rw [if_pos h1]
      rcases ih (i + 1) pos (by omega) hl' with h | ⟨r, pos', h, h2, h3⟩
      · exact Or.inl h
      · refine Or.inr ⟨r, pos', h, h2, ?_⟩
        rw [h3, List.map_cons, List.prod_cons, (isOne_iff f).mp h1, one_mul]
    · rw [if_neg h1, if_neg (by omega)]
      have hne : f.toPoly ≠ 1 := fun h => h1 ((isOne_iff f).mpr h)
      have hsd : SameDegree i f.toPoly :=
        ⟨hf.1, fun h => hne (hf.1.natDegree_eq_zero.mp h), hf.2⟩
      rcases sdf_spec hp2 rng fuel i pos hi f hsd with h | ⟨l1, pos1, h, h2, h3⟩
      · rw [h]; exact Or.inl rfl
      · rw [h]
        simp only
        rcases ih (i + 1) pos1 (by omega) hl' with h' | ⟨r, pos', h', h4, h5⟩
        · rw [h']; exact Or.inl rfl
        · rw [h']
          refine Or.inr ⟨l1 ++ r, pos', rfl, ?_, ?_⟩
          · intro g hg
            rcases List.mem_append.mp hg with hg | hg
            · exact ⟨(h2 g hg).1, (h2 g hg).2.1⟩
            · exact h4 g hg
          · rw [List.map_append, List.prod_append, h3, h5, List.map_cons, List.prod_cons]

/-- the modular factorization: the leading coefficient (unless it is one), then monic irreducible
factors -/
theorem modularFactors_spec (hp2 : p ≠ 2) (rng : ℕ → ℕ) (fuel pos : ℕ) (f : Poly (ZMod p))
    (hf : Squarefree f.toPoly) :
    modularFactors rng fuel pos f = .error .fuel ∨
      ∃ r pos', modularFactors rng fuel pos f =
          .ok ((if f.toPoly.leadingCoeff = 1 then [] else [ofCoeffs [f.toPoly.leadingCoeff]]) ++ r, pos') ∧
        (∀ g ∈ r, g.toPoly.Monic ∧ Irreducible g.toPoly) ∧
        C f.toPoly.leadingCoeff * (r.map toPoly).prod = f.toPoly := by
  obtain ⟨l, hl, h1, h2⟩ := ddf_spec f hf
  unfold modularFactors
  rw [hl]
  simp only
  have hc : (ofCoeffs [f.toPoly.leadingCoeff] : Poly (ZMod p)).toPoly = C f.toPoly.leadingCoeff := by
    rw [toPoly_ofCoeffs]; simp
  unfold flatFactors
  by_cases h3 : f.toPoly.leadingCoeff = 1
  · rw [if_pos ((isOne_iff _).mpr (by rw [hc, h3, C_1]))]
    rcases flatFactors_spec hp2 rng fuel l 1 pos (by omega) h2 with h | ⟨r, pos', h, h4, h5⟩
    · exact Or.inl h
    · refine Or.inr ⟨r, pos', ?_, h4, by rw [h5, h1]⟩
      rw [if_pos h3, List.nil_append, h]
  · rw [if_neg (fun h => h3 (by
      have := (isOne_iff _).mp h
      rw [hc] at this
      exact C_injective (by rw [this, C_1]))), if_pos rfl]
    rcases flatFactors_spec hp2 rng fuel l 1 pos (by omega) h2 with h | ⟨r, pos', h, h4, h5⟩
    · rw [h]; exact Or.inl rfl
    · refine Or.inr ⟨r, pos', ?_, h4, by rw [h5, h1]⟩
      rw [if_neg h3, h]; rfl

end Poly
end Algebraics
