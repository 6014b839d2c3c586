import Verif.Lemmas.Factor
import Verif.Spec.Factor
import Mathlib.NumberTheory.LegendreSymbol.QuadraticChar.Basic
import Mathlib.RingTheory.AdjoinRoot

/-!
# `same_degree_factorization` can always make progress

Over a field of `p` elements, `p` odd: for two different irreducible polynomials of degree `d` there is a
monic polynomial of degree `2 d - 1` whose power `(p ^ d - 1) / 2` is one modulo exactly one of them.
-/

namespace Algebraics

open Polynomial

/-- in a finite field of odd characteristic the set of nonzero squares is not closed under adding a fixed
nonzero element -/
theorem squares_not_invariant {F : Type*} [Field F] [Fintype F] (h2 : ringChar F ≠ 2) (u : F)
    (hu : u ≠ 0) (h : ∀ z : F, z ^ (Fintype.card F / 2) = 1 ↔ (z + u) ^ (Fintype.card F / 2) = 1) :
    False := by
  classical
  set m := Fintype.card F / 2 with hm
  set S := (Finset.univ : Finset F).filter fun z => z ^ m = 1 with hS
  have hmem : ∀ z, z ∈ S ↔ z ^ m = 1 := fun z => by simp [hS]
  -- the sum over `S` is invariant
  have h1 : ∑ z ∈ S, z = ∑ z ∈ S, (z + u) := by
    symm
    refine Finset.sum_bij (fun z _ => z + u) ?_ ?_ ?_ ?_
    · intro z hz; rw [hmem] at hz ⊢; exact (h z).mp hz
    · intro a _ b _ hab; exact add_right_cancel hab
    · intro b hb
      refine ⟨b - u, ?_, by ring⟩
      rw [hmem] at hb ⊢
      rw [h, sub_add_cancel]; exact hb
    · intro _ _; rfl
  rw [Finset.sum_add_distrib, Finset.sum_const, left_eq_add, nsmul_eq_mul] at h1
  have hcard : (S.card : F) = 0 := (mul_eq_zero.mp h1).resolve_right hu
  -- half of the nonzero elements are squares
  have h3 : ∀ z : F, quadraticChar F z = 2 * (if z ∈ S then 1 else 0) - (if z = 0 then 0 else 1) := by
    intro z
    have e := @quadraticChar_eq_pow_of_char_ne_two F _ _ _ h2 z
    by_cases hz : z = 0
    · have hm0 : m ≠ 0 := by
        have := Fintype.one_lt_card (α := F)
        omega
      rw [if_pos hz, if_neg (by rw [hmem, hz, zero_pow hm0]; exact zero_ne_one), hz,
        MulChar.map_zero]
      rfl
    · rw [e hz, if_neg hz]
      by_cases hs : z ∈ S
      · rw [if_pos hs, if_pos ((hmem z).mp hs)]; rfl
      · rw [if_neg hs, if_neg (fun h => hs ((hmem z).mpr h))]; rfl
  have h4 := quadraticChar_sum_zero h2
  simp_rw [h3] at h4
  rw [Finset.sum_sub_distrib, ← Finset.mul_sum, sub_eq_zero] at h4
  have h5 : (∑ z : F, (if z ∈ S then (1 : ℤ) else 0)) = S.card := by
    rw [Finset.sum_ite_mem, Finset.univ_inter]; simp
  have h6 : (∑ z : F, (if z = 0 then (0 : ℤ) else 1)) = Fintype.card F - 1 := by
    have : ∀ z : F, (if z = 0 then (0 : ℤ) else 1) = 1 - (if z = 0 then 1 else 0) := by
      intro z; by_cases hz : z = 0 <;> simp [hz]
    simp_rw [this]
    rw [Finset.sum_sub_distrib]
    simp
  rw [h5, h6] at h4
  have h7 := congrArg (Int.cast : ℤ → F) h4
  push_cast at h7
  rw [hcard, FiniteField.cast_card_eq_zero] at h7
  simp at h7

namespace Poly

variable {p : ℕ} [Fact p.Prime]

/-- two different monic irreducible polynomials of degree `d` are told apart by a monic polynomial of
degree `2 d - 1` -/
theorem exists_splitting (hp2 : p ≠ 2) (d : ℕ) (hd : 0 < d) (f1 f2 : (ZMod p)[X]) (h1 : Irreducible f1)
    (h2 : Irreducible f2) (hm1 : f1.Monic) (hm2 : f2.Monic) (hd1 : f1.natDegree = d)
    (hd2 : f2.natDegree = d) (hne : f1 ≠ f2) : ∃ h : (ZMod p)[X], h.Monic ∧ h.natDegree = 2 * d - 1 ∧
      ¬ (f1 ∣ h ^ ((p ^ d - 1) / 2) - 1 ↔ f2 ∣ h ^ ((p ^ d - 1) / 2) - 1) := by
  have hp : p.Prime := Fact.out
  have hodd : p % 2 = 1 := hp.eq_two_or_odd.resolve_left hp2
  have hpd : (p ^ d - 1) / 2 = p ^ d / 2 := by
    have : p ^ d % 2 = 1 := by simp [Nat.pow_mod, hodd]
    omega
  rw [hpd]
  by_contra hcon
  push Not at hcon
  have : Fact (Irreducible f2) := ⟨h2⟩
  let F := AdjoinRoot f2
  let pb := AdjoinRoot.powerBasis h2.ne_zero
  have hfin : Module.Finite (ZMod p) F := pb.finite
  have hfinite : Finite F := Module.finite_of_finite (ZMod p)
  let _ : Fintype F := Fintype.ofFinite F
  have hcard : Fintype.card F = p ^ d := by
    rw [Module.card_eq_pow_finrank (K := ZMod p), pb.finrank, AdjoinRoot.powerBasis_dim, hd2, ZMod.card]
  have hchar : ringChar F ≠ 2 := by
    have hc : CharP F p := charP_of_injective_algebraMap (algebraMap (ZMod p) F).injective p
    rw [ringChar.eq_iff.mpr hc]
    exact hp2
  have key : ∀ h : (ZMod p)[X], f2 ∣ h ^ (p ^ d / 2) - 1 ↔
      (AdjoinRoot.mk f2 h) ^ (Fintype.card F / 2) = 1 := by
    intro h
    rw [hcard, ← map_pow, ← sub_eq_zero, ← map_one (AdjoinRoot.mk f2), ← map_sub, AdjoinRoot.mk_eq_zero]
  have hndvd : ¬ f2 ∣ f1 := by
    intro hdv
    exact hne (eq_of_monic_of_dvd_of_natDegree_le hm2 hm1 hdv (by rw [hd1, hd2]))
  by_cases hd' : d = 1
  · subst hd'
    -- both polynomials are linear
    obtain ⟨a, rfl⟩ : ∃ a, f1 = X - C a := ⟨-f1.coeff 0, by
      rw [C_neg, sub_neg_eq_add]
      have := hm1.eq_X_add_C hd1
      exact this⟩
    obtain ⟨b, rfl⟩ : ∃ b, f2 = X - C b := ⟨-f2.coeff 0, by
      rw [C_neg, sub_neg_eq_add]
      exact hm2.eq_X_add_C hd2⟩
    have hab : a - b ≠ 0 := by
      intro h
      exact hne (by rw [sub_eq_zero.mp h])
    refine squares_not_invariant (F := ZMod p) ?_ (a - b) hab ?_
    · rw [ZMod.ringChar_zmod_n]; exact hp2
    · intro z
      have hc := hcon (X - C (b - z)) (monic_X_sub_C _) (natDegree_X_sub_C _)
      rw [dvd_iff_isRoot, dvd_iff_isRoot] at hc
      simp only [IsRoot, eval_sub, eval_pow, eval_X, eval_C, eval_one, sub_eq_zero] at hc
      rw [ZMod.card]
      rw [pow_one] at hc
      rw [show b - (b - z) = z by ring, show a - (b - z) = z + (a - b) by ring] at hc
      exact hc.symm
  · refine squares_not_invariant (F := F) hchar (AdjoinRoot.mk f2 f1) ?_ ?_
    · rw [Ne, AdjoinRoot.mk_eq_zero]; exact hndvd
    · intro z
      obtain ⟨g, rfl⟩ := AdjoinRoot.mk_surjective z
      -- a monic representative of degree `2 d - 1`
      set r := (g - X ^ (2 * d - 1)) %ₘ f2 with hr
      have hrdeg : r.degree < ((2 * d - 1 : ℕ) : WithBot ℕ) := by
        refine (degree_modByMonic_lt _ hm2).trans_le ?_
        rw [degree_eq_natDegree hm2.ne_zero, hd2]
        exact_mod_cast (by omega : d ≤ 2 * d - 1)
      set h := X ^ (2 * d - 1) + r with hh
      have hmk : AdjoinRoot.mk f2 h = AdjoinRoot.mk f2 g := by
        rw [AdjoinRoot.mk_eq_mk, hh, hr]
        have := modByMonic_add_div (g - X ^ (2 * d - 1)) f2
        refine ⟨-((g - X ^ (2 * d - 1)) /ₘ f2), ?_⟩
        linear_combination this
      have hmon : h.Monic := monic_X_pow_add hrdeg
      have hnd : h.natDegree = 2 * d - 1 := by
        rw [hh, natDegree_eq_of_degree_eq (degree_add_eq_left_of_degree_lt (by rwa [degree_X_pow])),
          natDegree_X_pow]
      have hf1deg : f1.degree < h.degree := by
        rw [degree_eq_natDegree hm1.ne_zero, degree_eq_natDegree hmon.ne_zero, hd1, hnd]
        exact_mod_cast (by omega : d < 2 * d - 1)
      have hmon' : (h + f1).Monic := hmon.add_of_left hf1deg
      have hnd' : (h + f1).natDegree = 2 * d - 1 := by
        rw [← hnd]; exact natDegree_eq_of_degree_eq (degree_add_eq_left_of_degree_lt hf1deg)
      have e1 := hcon h hmon hnd
      have e2 := hcon (h + f1) hmon' hnd'
      have e3 : f1 ∣ h ^ (p ^ d / 2) - 1 ↔ f1 ∣ (h + f1) ^ (p ^ d / 2) - 1 := by
        have hsub : f1 ∣ (h + f1) ^ (p ^ d / 2) - h ^ (p ^ d / 2) := by
          have := sub_dvd_pow_sub_pow (h + f1) h (p ^ d / 2)
          rwa [add_sub_cancel_left] at this
        rw [show (h + f1) ^ (p ^ d / 2) - 1 = ((h + f1) ^ (p ^ d / 2) - h ^ (p ^ d / 2)) +
          (h ^ (p ^ d / 2) - 1) by ring]
        exact (dvd_add_right hsub).symm
      rw [← hmk, ← map_add, ← key, ← key, ← e1, ← e2, e3]

/-- the monic polynomials of degree `2 d - 1` are all drawn -/
theorem randomPoly_draws (d : ℕ) (h : (ZMod p)[X]) (hm : h.Monic)
    (hdeg : h.natDegree = 2 * d - 1) (rng : ℕ → ℕ) (pos : ℕ)
    (hr : ∀ i, i < 2 * d - 1 → rng (pos + i) = (h.coeff i).val) :
    (randomPoly p rng pos d).toPoly = h := by
  unfold randomPoly
  have hp : 0 < p := (Fact.out : p.Prime).pos
  ext i
  rw [toPoly_ofCoeffs, listPoly_coeff, List.getD_eq_getElem?_getD]
  rcases lt_trichotomy i (2 * d - 1) with hi | hi | hi
  · rw [List.getElem?_append_left (by simpa using hi)]
    simp only [List.getElem?_map, List.getElem?_range hi, Option.map_some, Option.getD_some]
    have : NeZero p := ⟨hp.ne'⟩
    rw [hr i hi, Nat.mod_eq_of_lt (ZMod.val_lt _), ZMod.natCast_zmod_val]
  · rw [List.getElem?_append_right (by simp [hi])]
    subst hi
    simp only [List.length_map, List.length_range, Nat.sub_self, List.getElem?_cons_zero,
      Option.getD_some]
    rw [← hdeg]; exact hm.symm
  · rw [List.getElem?_eq_none (by simp; omega), Option.getD_none,
      coeff_eq_zero_of_natDegree_lt (by omega)]

/-- a product of two and more irreducible polynomials of degree `d` has two different ones -/
theorem two_factors (d : ℕ) (f : (ZMod p)[X]) (hf : SameDegree d f) (hs : Squarefree f)
    (hd : f.natDegree ≠ d) : ∃ f1 f2 : (ZMod p)[X], Irreducible f1 ∧ Irreducible f2 ∧ f1.Monic ∧
      f2.Monic ∧ f1.natDegree = d ∧ f2.natDegree = d ∧ f1 ≠ f2 ∧ f1 ∣ f ∧ f2 ∣ f := by
  have norm : ∀ q : (ZMod p)[X], Irreducible q → Irreducible (_root_.normalize q) ∧ (_root_.normalize q).Monic ∧
      (_root_.normalize q).natDegree = q.natDegree := by
    intro q hq
    have ha := normalize_associated q
    exact ⟨ha.symm.irreducible hq, monic_normalize hq.ne_zero, natDegree_eq_of_degree_eq degree_normalize⟩
  obtain ⟨q1, hq1, c, hc⟩ := exists_irreducible hf.1.ne_zero hf.2.1
  have hq1d := hf.2.2 q1 hq1 ⟨c, hc⟩
  have hc0 : c ≠ 0 := by rintro rfl; exact hf.1.ne_zero (by rw [hc, mul_zero])
  have hcd : c.natDegree ≠ 0 := by
    intro h
    apply hd
    rw [hc, natDegree_mul hq1.ne_zero hc0, h, hq1d, add_zero]
  obtain ⟨q2, hq2, hq2c⟩ := exists_irreducible hc0 hcd
  have hq2f : q2 ∣ f := by rw [hc]; exact hq2c.mul_left _
  refine ⟨_root_.normalize q1, _root_.normalize q2, (norm q1 hq1).1, (norm q2 hq2).1, (norm q1 hq1).2.1,
    (norm q2 hq2).2.1, by rw [(norm q1 hq1).2.2, hq1d], by rw [(norm q2 hq2).2.2, hf.2.2 q2 hq2 hq2f],
    ?_, normalize_dvd_iff.mpr ⟨c, hc⟩, normalize_dvd_iff.mpr hq2f⟩
  intro heq
  have h12 : q1 ∣ q2 := by
    rw [← dvd_normalize_iff, ← heq, dvd_normalize_iff]
  exact hq1.not_isUnit (hs q1 (by rw [hc]; exact mul_dvd_mul_left q1 (h12.trans hq2c)))

/-- a polynomial that tells two factors apart splits the product -/
theorem sdfSplit_splits (hp2 : p ≠ 2) (d : ℕ) (hd : 0 < d) (random f : Poly (ZMod p))
    (hf : f.toPoly.Monic) (f1 f2 : (ZMod p)[X]) (h1 : Irreducible f1) (h2 : Irreducible f2)
    (h1f : f1 ∣ f.toPoly) (h2f : f2 ∣ f.toPoly)
    (hr : ¬ (f1 ∣ random.toPoly ^ ((p ^ d - 1) / 2) - 1 ↔ f2 ∣ random.toPoly ^ ((p ^ d - 1) / 2) - 1)) :
    sdfSplit d random f ≠ some none := by
  have hp : p.Prime := Fact.out
  have h3 : 3 ≤ p := by have := hp.two_le; omega
  have hpd : 3 ≤ p ^ d := le_trans h3 (Nat.le_self_pow (by omega) p)
  have hexp : ((p : ℤ) ^ d - 1) / 2 = (((p ^ d - 1) / 2 : ℕ) : ℤ) := by
    rw [Int.natCast_div, Nat.cast_sub (by omega)]; push_cast; rfl
  unfold sdfSplit
  rw [hexp]
  obtain ⟨r, hr', hre⟩ := powmod_field random f hf.ne_zero ((p ^ d - 1) / 2) (by omega)
  rw [hr']
  simp only
  obtain ⟨g, hg, hgd, hgm⟩ := gcd_spec f (r.subCoeff 1)
  rw [hg]
  simp only
  have hgs : g.toPoly ∣ f.toPoly := ((hgd _).mp dvd_rfl).1
  have hg0 : g.toPoly ≠ 0 := ne_zero_of_dvd_ne_zero hf.ne_zero hgs
  have hgmon := hgm.resolve_left hg0
  -- which factors divide the greatest common divisor
  have hdv : ∀ q : (ZMod p)[X], q ∣ f.toPoly →
      (q ∣ g.toPoly ↔ q ∣ random.toPoly ^ ((p ^ d - 1) / 2) - 1) := by
    intro q hq
    rw [hgd, zmod_subCoeff, hre, C_1]
    have hmod : f.toPoly ∣ random.toPoly ^ ((p ^ d - 1) / 2) -
        random.toPoly ^ ((p ^ d - 1) / 2) % f.toPoly :=
      ⟨random.toPoly ^ ((p ^ d - 1) / 2) / f.toPoly, by
        have := EuclideanDomain.div_add_mod (random.toPoly ^ ((p ^ d - 1) / 2)) f.toPoly
        linear_combination -this⟩
    constructor
    · rintro ⟨-, h⟩
      have := dvd_add (hq.trans hmod) h
      convert this using 1; ring
    · intro h
      refine ⟨hq, ?_⟩
      have := dvd_sub h (hq.trans hmod)
      convert this using 1; ring
  rw [← hdv f1 h1f, ← hdv f2 h2f] at hr
  have hc : 0 < g.degree.getD 0 ∧ g.len < f.len := by
    rw [degree_eq, if_neg hg0, Option.getD_some, len_of_ne g hg0, len_of_ne f hf.ne_zero]
    have hlt : ∀ q : (ZMod p)[X], Irreducible q → q ∣ g.toPoly → 0 < g.toPoly.natDegree := by
      intro q hq hqg
      exact hq.natDegree_pos.trans_le (natDegree_le_of_dvd hqg hg0)
    have hne : ∀ q : (ZMod p)[X], q ∣ f.toPoly → ¬ q ∣ g.toPoly →
        g.toPoly.natDegree < f.toPoly.natDegree := by
      intro q hqf hqg
      refine lt_of_le_of_ne (natDegree_le_of_dvd hgs hf.ne_zero) fun h => hqg ?_
      rwa [← eq_of_monic_of_dvd_of_natDegree_le hgmon hf hgs h.ge]
    by_cases ha : f1 ∣ g.toPoly
    · have hb : ¬ f2 ∣ g.toPoly := fun hb => hr ⟨fun _ => hb, fun _ => ha⟩
      have := hlt f1 h1 ha
      have := hne f2 h2f hb
      omega
    · have hb : f2 ∣ g.toPoly := by
        by_contra hb
        exact hr ⟨fun h => absurd h ha, fun h => absurd h hb⟩
      have := hlt f2 h2 hb
      have := hne f1 h1f ha
      omega
  rw [if_pos hc]
  cases f.exactDivPoly g <;> simp

end Poly

/-! ## Runs that a continuation of the random numbers brings to an end -/

/-- the random numbers from position `pos` on begin with `l` -/
def Draws (rng : ℕ → ℕ) (pos : ℕ) (l : List ℕ) : Prop :=
  ∀ i (h : i < l.length), rng (pos + i) = l[i]

theorem Draws.left {rng : ℕ → ℕ} {pos : ℕ} {l r : List ℕ} (h : Draws rng pos (l ++ r)) :
    Draws rng pos l := fun i hi => by
  rw [h i (by rw [List.length_append]; omega), List.getElem_append_left hi]

theorem Draws.right {rng : ℕ → ℕ} {pos : ℕ} {l r : List ℕ} (h : Draws rng pos (l ++ r)) :
    Draws rng (pos + l.length) r := fun i hi => by
  rw [add_assoc, h (l.length + i) (by rw [List.length_append]; omega),
    List.getElem_append_right (by omega)]
  simp

/-- the outcome of a run: a panic, or a result and the new position -/
def outcome {α : Type} (pos : ℕ) : Option α → Except Stop (α × ℕ)
  | none => .error .panic
  | some r => .ok (r, pos)

/-- from each position there are finitely many random numbers with which the run ends, with the same
outcome whatever follows them -/
def CanStop {α : Type} (run : (ℕ → ℕ) → ℕ → ℕ → Except Stop (α × ℕ)) : Prop :=
  ∀ pos, ∃ (l : List ℕ) (out : Option α) (N : ℕ), ∀ rng, Draws rng pos l → ∀ fuel, N ≤ fuel →
    run rng fuel pos = outcome (pos + l.length) out

theorem CanStop.const {α : Type} {run : (ℕ → ℕ) → ℕ → ℕ → Except Stop (α × ℕ)} (out : Option α)
    (h : ∀ rng fuel pos, run rng fuel pos = outcome pos out) : CanStop run :=
  fun pos => ⟨[], out, 0, fun rng _ fuel _ => h rng fuel pos⟩

theorem CanStop.seq {α β : Type} {run1 : (ℕ → ℕ) → ℕ → ℕ → Except Stop (α × ℕ)}
    {run2 : α → (ℕ → ℕ) → ℕ → ℕ → Except Stop (β × ℕ)} {run : (ℕ → ℕ) → ℕ → ℕ → Except Stop (β × ℕ)}
    (h1 : CanStop run1) (h2 : ∀ a, CanStop (run2 a))
    (h : ∀ rng fuel pos, run rng fuel pos = match run1 rng fuel pos with
      | .error e => .error e
      | .ok (a, pos) => run2 a rng fuel pos) : CanStop run := by
  intro pos
  obtain ⟨l, out, N, hl⟩ := h1 pos
  cases out with
  | none =>
    exact ⟨l, none, N, fun rng hr fuel hf => by rw [h, hl rng hr fuel hf]; rfl⟩
  | some a =>
    obtain ⟨l', out', N', hl'⟩ := h2 a (pos + l.length)
    refine ⟨l ++ l', out', max N N', fun rng hr fuel hf => ?_⟩
    rw [h, hl rng hr.left fuel (le_trans (le_max_left _ _) hf)]
    show run2 a rng fuel (pos + l.length) = _
    rw [hl' rng hr.right fuel (le_trans (le_max_right _ _) hf), List.length_append, add_assoc]

namespace Poly

variable {p : ℕ} [Fact p.Prime]

/-- `same_degree_factorization` can finish, from each state of its stack -/
theorem sdfLoop_can (hp2 : p ≠ 2) (d : ℕ) (hd : 0 < d) (M : ℕ) :
    ∀ (stack retval : List (Poly (ZMod p))),
    (∀ f ∈ stack, SameDegree d f.toPoly ∧ Squarefree f.toPoly) →
    (stack.map fun f => 2 * f.toPoly.natDegree - 1).sum ≤ M →
    CanStop fun rng fuel pos => sdfLoop rng d fuel pos stack retval := by
  induction M with
  | zero =>
    intro stack retval hs hM
    cases stack with
    | nil => exact fun pos => ⟨[], some retval, 1, fun rng _ fuel hf => by
        obtain ⟨k, rfl⟩ := Nat.exists_eq_add_of_le' hf; rfl⟩
    | cons f stack =>
      have := (hs f (by simp)).1.2.1
      simp only [List.map_cons, List.sum_cons] at hM
      omega
  | succ M ih =>
    intro stack retval hs hM
    cases stack with
    | nil => exact fun pos => ⟨[], some retval, 1, fun rng _ fuel hf => by
        obtain ⟨k, rfl⟩ := Nat.exists_eq_add_of_le' hf; rfl⟩
    | cons f stack =>
      obtain ⟨hf, hsq⟩ := hs f (by simp)
      have hf0 := hf.2.1
      have hs' : ∀ g ∈ stack, SameDegree d g.toPoly ∧ Squarefree g.toPoly :=
        fun g hg => hs g (by simp [hg])
      have hfd : f.degree = some f.toPoly.natDegree := by rw [degree_eq, if_neg hf.1.ne_zero]
      simp only [List.map_cons, List.sum_cons] at hM
      intro pos
      by_cases h1 : f.toPoly.natDegree = d
      · obtain ⟨l, out, N, hl⟩ := ih stack (retval ++ [f]) hs' (by omega) pos
        refine ⟨l, out, N + 1, fun rng hr fuel hfu => ?_⟩
        obtain ⟨k, rfl⟩ := Nat.exists_eq_add_of_le' (Nat.le_of_lt_succ (Nat.lt_succ_of_le hfu))
        show sdfLoop rng d (k + N + 1) pos (f :: stack) retval = _
        unfold sdfLoop
        rw [hfd, Option.getD_some, if_neg (not_lt.mpr hf.le), if_pos (by rw [h1])]
        exact hl rng hr _ (by omega)
      · obtain ⟨f1, f2, i1, i2, m1, m2, d1, d2, hne, v1, v2⟩ := two_factors d f.toPoly hf hsq h1
        obtain ⟨h, hmon, hdeg, hsplit⟩ := exists_splitting hp2 d hd f1 f2 i1 i2 m1 m2 d1 d2 hne
        obtain ⟨R, hR⟩ := (toPolyEquiv (T := ZMod p)).surjective h
        have hR : R.toPoly = h := hR
        have hnot := sdfSplit_splits hp2 d hd R f hf.1 f1 f2 i1 i2 v1 v2 (by rw [hR]; exact hsplit)
        rcases sdfSplit_spec hp2 d hd R f hf.1 with h2 | ⟨g, q, h2, hm, hg, hq, hg0, hq0⟩
        · exact absurd h2 hnot
        have hdsum : f.toPoly.natDegree = q.toPoly.natDegree + g.toPoly.natDegree := by
          rw [hm, hq.natDegree_mul hg]
        obtain ⟨l, out, N, hl⟩ := ih (q :: g :: stack) retval (by
            intro r hr
            simp only [List.mem_cons] at hr
            rcases hr with rfl | rfl | hr
            · exact ⟨⟨hq, hq0, fun t ht htq => hf.2.2 t ht (by rw [hm]; exact htq.mul_right _)⟩,
                hsq.squarefree_of_dvd (by rw [hm]; exact dvd_mul_right _ _)⟩
            · exact ⟨⟨hg, hg0, fun t ht htq => hf.2.2 t ht (by rw [hm]; exact htq.mul_left _)⟩,
                hsq.squarefree_of_dvd (by rw [hm]; exact dvd_mul_left _ _)⟩
            · exact hs' r hr) (by
            simp only [List.map_cons, List.sum_cons]
            omega) (pos + (2 * d - 1))
        set l0 := (List.range (2 * d - 1)).map fun i => (h.coeff i).val with hl0
        have hlen : l0.length = 2 * d - 1 := by simp [hl0]
        refine ⟨l0 ++ l, out, N + 1, fun rng hr fuel hfu => ?_⟩
        obtain ⟨k, rfl⟩ := Nat.exists_eq_add_of_le' (Nat.le_of_lt_succ (Nat.lt_succ_of_le hfu))
        show sdfLoop rng d (k + N + 1) pos (f :: stack) retval = _
        unfold sdfLoop
        rw [hfd, Option.getD_some, if_neg (not_lt.mpr hf.le), if_neg (by simpa using h1)]
        have hrand : randomPoly p rng pos d = R := by
          apply toPoly_injective
          rw [hR]
          refine randomPoly_draws d h hmon hdeg rng pos ?_
          intro i hi
          rw [hr.left i (by rw [hlen]; exact hi)]
          simp [hl0]
        rw [hrand, h2]
        simp only
        have hright := hr.right
        rw [hlen] at hright
        refine (hl rng hright (k + N) (by omega)).trans ?_
        rw [List.length_append, hlen, add_assoc]

theorem sdf_can (hp2 : p ≠ 2) (d : ℕ) (hd : 0 < d) (f : Poly (ZMod p)) (hf : SameDegree d f.toPoly)
    (hs : Squarefree f.toPoly) : CanStop fun rng fuel pos => sdf rng fuel d pos f := by
  have hlen := len_of_ne f hf.1.ne_zero
  have hd0 := hf.2.1
  have hfd : f.degree = some f.toPoly.natDegree := by rw [degree_eq, if_neg hf.1.ne_zero]
  by_cases h1 : f.toPoly.natDegree = d
  · refine CanStop.const (some [f]) fun rng fuel pos => ?_
    unfold sdf
    rw [if_neg (by omega), hfd, if_pos (by rw [h1])]
    rfl
  · intro pos
    obtain ⟨l, out, N, hl⟩ := sdfLoop_can hp2 d hd _ [f] [] (by simpa using ⟨hf, hs⟩) le_rfl pos
    refine ⟨l, out, N, fun rng hr fuel hfu => ?_⟩
    rw [← hl rng hr fuel hfu]
    show sdf rng fuel d pos f = sdfLoop rng d fuel pos [f] []
    unfold sdf
    rw [if_neg (by omega), hfd, if_neg (by simpa using h1), nonzeroHighest_eq, if_neg hf.1.ne_zero]
    simp only
    rw [if_pos hf.1.leadingCoeff]

theorem flatFactors_can (hp2 : p ≠ 2) (l : List (Poly (ZMod p))) :
    ∀ (i : ℕ), 0 < i →
    (∀ j (h : j < l.length), (l[j]).toPoly.Monic ∧ Squarefree (l[j]).toPoly ∧
        ∀ q, Irreducible q → q ∣ (l[j]).toPoly → q.natDegree = i + j) →
    CanStop fun rng fuel pos => flatFactors rng fuel i l pos := by
  induction l with
  | nil => intro i _ _; exact CanStop.const (some []) fun rng fuel pos => rfl
  | cons f l ih =>
    intro i hi hl
    have hf := hl 0 (by simp)
    simp only [List.getElem_cons_zero, add_zero] at hf
    have hl' : ∀ j (h : j < l.length), (l[j]).toPoly.Monic ∧ Squarefree (l[j]).toPoly ∧
        ∀ q, Irreducible q → q ∣ (l[j]).toPoly → q.natDegree = i + 1 + j := by
      intro j h
      obtain ⟨a, c, b⟩ := hl (j + 1) (by simpa using h)
      refine ⟨by simpa using a, by simpa using c, fun q hq hd => ?_⟩
      have := b q hq (by simpa using hd)
      omega
    have ih' := ih (i + 1) (by omega) hl'
    by_cases h1 : f.isOne = true
    · intro pos
      obtain ⟨dr, out, N, h⟩ := ih' pos
      refine ⟨dr, out, N, fun rng hr fuel hfu => ?_⟩
      rw [← h rng hr fuel hfu]
      show flatFactors rng fuel i (f :: l) pos = flatFactors rng fuel (i + 1) l pos
      rw [flatFactors, if_pos h1]
    · have hne : f.toPoly ≠ 1 := fun h => h1 ((isOne_iff f).mpr h)
      have hsd : SameDegree i f.toPoly :=
        ⟨hf.1, fun h => hne (hf.1.natDegree_eq_zero.mp h), hf.2.2⟩
      refine CanStop.seq (sdf_can hp2 i hi f hsd hf.2.1)
        (run2 := fun a rng fuel pos => match flatFactors rng fuel (i + 1) l pos with
          | .error e => .error e
          | .ok (r, pos) => .ok (a ++ r, pos)) ?_ ?_
      · intro a
        exact CanStop.seq ih' (run2 := fun r _ _ pos => .ok (a ++ r, pos))
          (fun r => CanStop.const (some (a ++ r)) fun _ _ _ => rfl) fun rng fuel pos => by
            cases flatFactors rng fuel (i + 1) l pos <;> rfl
      · intro rng fuel pos
        show flatFactors rng fuel i (f :: l) pos = _
        rw [flatFactors, if_neg h1, if_neg (by omega)]
        cases sdf rng fuel i pos f with
        | error e => rfl
        | ok r =>
          obtain ⟨r, pos⟩ := r
          simp only
          cases flatFactors rng fuel (i + 1) l pos <;> rfl

theorem modularFactors_can (hp2 : p ≠ 2) (f : Poly (ZMod p)) (hf : Squarefree f.toPoly) :
    CanStop fun rng fuel pos => modularFactors rng fuel pos f := by
  obtain ⟨l, hl, h1, h2⟩ := ddf_spec f hf
  have hcan : CanStop fun rng fuel pos => flatFactors rng fuel 1 l pos := by
    refine flatFactors_can hp2 l 1 (by omega) fun j hj => ⟨(h2 j hj).1, ?_, (h2 j hj).2⟩
    refine hf.squarefree_of_dvd ?_
    rw [← h1]
    refine Dvd.dvd.mul_left (List.dvd_prod ?_) _
    exact List.mem_map.mpr ⟨l[j], List.getElem_mem hj, rfl⟩
  by_cases h3 : (ofCoeffs [f.toPoly.leadingCoeff] : Poly (ZMod p)).isOne = true
  · intro pos
    obtain ⟨dr, out, N, h⟩ := hcan pos
    refine ⟨dr, out, N, fun rng hr fuel hfu => ?_⟩
    rw [← h rng hr fuel hfu]
    show modularFactors rng fuel pos f = flatFactors rng fuel 1 l pos
    unfold modularFactors
    rw [hl]
    simp only
    rw [flatFactors, if_pos h3]
  · refine CanStop.seq hcan (run2 := fun r _ _ pos => .ok (ofCoeffs [f.toPoly.leadingCoeff] :: r, pos))
      (fun r => CanStop.const (some (ofCoeffs [f.toPoly.leadingCoeff] :: r)) fun _ _ _ => rfl) ?_
    intro rng fuel pos
    show modularFactors rng fuel pos f = _
    unfold modularFactors
    rw [hl]
    simp only
    rw [flatFactors, if_neg h3, if_pos rfl]
    rw [Nat.zero_add]
    cases flatFactors rng fuel 1 l pos <;> rfl

theorem factorSquareFree_can (choose : ℕ → List ℕ → ℕ) (f : Poly ℤ) :
    CanStop fun rng fuel pos => factorSquareFree choose rng fuel pos f := by
  by_cases hd : f.degree.getD 0 ≤ 1
  · refine CanStop.const (some [f]) fun rng fuel pos => ?_
    show factorSquareFree choose rng fuel pos f = _
    rw [factorSquareFree, if_pos hd]; rfl
  cases hsel : selectPrime f (2 ^ 31) 2 with
  | none =>
    refine CanStop.const none fun rng fuel pos => ?_
    show factorSquareFree choose rng fuel pos f = _
    rw [factorSquareFree, if_neg hd, hsel]; rfl
  | some p =>
    have hp := (selectPrime_spec f (2 ^ 31) 2 (by norm_num)).1 p hsel
    have : Fact p.Prime := ⟨hp.1⟩
    refine CanStop.seq (modularFactors_can hp.2.1 (modPoly p f)
      (by rw [toPoly_modPoly]; exact hp.2.2.2.2))
      (run2 := fun l _ _ pos => match liftAndRecombine choose f l with
        | none => .error .panic
        | some r => .ok (r, pos)) (fun l => ?_) fun rng fuel pos => ?_
    · refine CanStop.const (liftAndRecombine choose f l) fun rng fuel pos => ?_
      cases liftAndRecombine choose f l <;> rfl
    · show factorSquareFree choose rng fuel pos f = _
      rw [factorSquareFree, if_neg hd, hsel]
      simp only
      cases modularFactors rng fuel pos (modPoly p f) with
      | error e => rfl
      | ok r =>
        obtain ⟨r, pos⟩ := r
        simp only
        cases liftAndRecombine choose f r <;> rfl

theorem factorLoop_can (choose : ℕ → List ℕ → ℕ) (gs : List (Poly ℚ)) : ∀ (index : ℕ),
    CanStop fun rng fuel pos => factorLoop choose rng fuel index gs pos := by
  induction gs with
  | nil => intro index; exact CanStop.const (some []) fun _ _ _ => rfl
  | cons g gs ih =>
    intro index
    refine CanStop.seq (factorSquareFree_can choose (ofCoeffs (ratElements g)))
      (run2 := fun l rng fuel pos => match factorLoop choose rng fuel (index + 1) gs pos with
        | .error e => .error e
        | .ok (r, pos) =>
          .ok ((l.filter fun q => !q.isOne).map (fun q => (q, index + 1)) ++ r, pos)) (fun l => ?_)
      fun rng fuel pos => by
        show factorLoop choose rng fuel index (g :: gs) pos = _
        rw [factorLoop]
        cases factorSquareFree choose rng fuel pos (ofCoeffs (ratElements g)) with
        | error e => rfl
        | ok r =>
          obtain ⟨r, pos⟩ := r
          simp only
          cases factorLoop choose rng fuel (index + 1) gs pos <;> rfl
    exact CanStop.seq (ih (index + 1))
      (run2 := fun r _ _ pos => .ok ((l.filter fun q => !q.isOne).map (fun q => (q, index + 1)) ++ r, pos))
      (fun r => CanStop.const (some ((l.filter fun q => !q.isOne).map (fun q => (q, index + 1)) ++ r))
        fun _ _ _ => rfl) fun rng fuel pos => by
          cases factorLoop choose rng fuel (index + 1) gs pos <;> rfl

theorem factor_can (choose : ℕ → List ℕ → ℕ) (f : Poly ℤ) :
    CanStop fun rng fuel pos => factor choose rng fuel pos f := by
  cases hm : f.coeffs.mapM (fun v => checkedExactDivInt v (f.content intGcd)) with
  | none =>
    refine CanStop.const none fun rng fuel pos => ?_
    show factor choose rng fuel pos f = _
    simp only [factor, hm]; rfl
  | some l =>
    cases hy : (ofCoeffs (l.map fun v : ℤ => (v : ℚ)) : Poly ℚ).yun ratGcd with
    | none =>
      refine CanStop.const none fun rng fuel pos => ?_
      show factor choose rng fuel pos f = _
      simp only [factor, hm, hy]; rfl
    | some cg =>
      obtain ⟨c, gs⟩ := cg
      refine CanStop.seq (factorLoop_can choose gs 0)
        (run2 := fun r _ _ pos => .ok (⟨f.content intGcd, r⟩, pos))
        (fun r => CanStop.const (some ⟨f.content intGcd, r⟩) fun _ _ _ => rfl) fun rng fuel pos => ?_
      show factor choose rng fuel pos f = _
      simp only [factor, hm, hy]
      cases factorLoop choose rng fuel 0 gs pos <;> rfl

end Poly

/-! ## Fair random numbers -/

/-- the run ends from each position -/
def Stops {α : Type} (run : ℕ → ℕ → Except Stop (α × ℕ)) : Prop :=
  ∀ pos, ∃ res, res ≠ .error .fuel ∧ ∃ N, ∀ fuel, N ≤ fuel → run fuel pos = res

theorem Stops.const {α : Type} {run : ℕ → ℕ → Except Stop (α × ℕ)} (out : Option α)
    (h : ∀ fuel pos, run fuel pos = outcome pos out) : Stops run :=
  fun pos => ⟨outcome pos out, by cases out <;> simp [outcome], 0, fun fuel _ => h fuel pos⟩

theorem Stops.seq {α β : Type} {run1 : ℕ → ℕ → Except Stop (α × ℕ)}
    {run2 : α → ℕ → ℕ → Except Stop (β × ℕ)} {run : ℕ → ℕ → Except Stop (β × ℕ)}
    (h1 : Stops run1) (h2 : ∀ a, Stops (run2 a))
    (he : ∀ fuel pos e, run1 fuel pos = .error e → run fuel pos = .error e)
    (ho : ∀ fuel pos a pos', run1 fuel pos = .ok (a, pos') → run fuel pos = run2 a fuel pos') :
    Stops run := by
  intro pos
  obtain ⟨res, hres, N, hN⟩ := h1 pos
  cases res with
  | error e =>
    exact ⟨.error e, fun h => hres (by cases h; rfl), N, fun fuel hf => he fuel pos e (hN fuel hf)⟩
  | ok r =>
    obtain ⟨a, pos'⟩ := r
    obtain ⟨res', hres', N', hN'⟩ := h2 a pos'
    refine ⟨res', hres', max N N', fun fuel hf => ?_⟩
    rw [ho fuel pos a pos' (hN fuel (le_trans (le_max_left _ _) hf)),
      hN' fuel (le_trans (le_max_right _ _) hf)]

namespace Poly

theorem randomPoly_mod {p : ℕ} [Fact p.Prime] (d : ℕ) (h : (ZMod p)[X]) (hm : h.Monic)
    (hdeg : h.natDegree = 2 * d - 1) (rng : ℕ → ℕ) (pos : ℕ)
    (hr : ∀ i, i < 2 * d - 1 → rng (pos + i) % p = (h.coeff i).val) :
    (randomPoly p rng pos d).toPoly = h := by
  have : NeZero p := ⟨(Fact.out : p.Prime).ne_zero⟩
  rw [← randomPoly_draws d h hm hdeg (fun j => rng j % p) pos fun i hi => hr i hi]
  unfold randomPoly
  simp only [Nat.mod_mod]

variable {p : ℕ} [Fact p.Prime]

/-- `same_degree_factorization` finishes for fair random numbers -/
theorem sdfLoop_fair (hp2 : p ≠ 2) (h31 : p < 2 ^ 31) (rng : ℕ → ℕ) (hfair : Fair rng) (d : ℕ) (hd : 0 < d) (M : ℕ) :
    ∀ (stack retval : List (Poly (ZMod p))),
    (∀ f ∈ stack, SameDegree d f.toPoly ∧ Squarefree f.toPoly) →
    (stack.map fun f => 2 * f.toPoly.natDegree - 1).sum ≤ M →
    Stops fun fuel pos => sdfLoop rng d fuel pos stack retval := by
  have hp : p.Prime := Fact.out
  have : NeZero p := ⟨hp.ne_zero⟩
  induction M with
  | zero =>
    intro stack retval hs hM
    cases stack with
    | nil => exact fun pos => ⟨.ok (retval, pos), by simp, 1, fun fuel hf => by
        obtain ⟨k, rfl⟩ := Nat.exists_eq_add_of_le' hf; rfl⟩
    | cons f stack =>
      have := (hs f (by simp)).1.2.1
      simp only [List.map_cons, List.sum_cons] at hM
      omega
  | succ M ih =>
    intro stack retval hs hM
    cases stack with
    | nil => exact fun pos => ⟨.ok (retval, pos), by simp, 1, fun fuel hf => by
        obtain ⟨k, rfl⟩ := Nat.exists_eq_add_of_le' hf; rfl⟩
    | cons f stack =>
      obtain ⟨hf, hsq⟩ := hs f (by simp)
      have hf0 := hf.2.1
      have hs' : ∀ g ∈ stack, SameDegree d g.toPoly ∧ Squarefree g.toPoly :=
        fun g hg => hs g (by simp [hg])
      have hfd : f.degree = some f.toPoly.natDegree := by rw [degree_eq, if_neg hf.1.ne_zero]
      simp only [List.map_cons, List.sum_cons] at hM
      intro pos
      by_cases h1 : f.toPoly.natDegree = d
      · obtain ⟨res, hres, N, hN⟩ := ih stack (retval ++ [f]) hs' (by omega) pos
        refine ⟨res, hres, N + 1, fun fuel hfu => ?_⟩
        obtain ⟨k, rfl⟩ := Nat.exists_eq_add_of_le' hfu
        show sdfLoop rng d (k + N + 1) pos (f :: stack) retval = _
        unfold sdfLoop
        rw [hfd, Option.getD_some, if_neg (not_lt.mpr hf.le), if_pos (by rw [h1])]
        exact hN _ (by omega)
      · obtain ⟨f1, f2, i1, i2, m1, m2, d1, d2, hne, v1, v2⟩ := two_factors d f.toPoly hf hsq h1
        obtain ⟨h, hmon, hdeg, hsplit⟩ := exists_splitting hp2 d hd f1 f2 i1 i2 m1 m2 d1 d2 hne
        -- a split makes progress
        have hgo : ∀ pos g q, sdfSplit d (randomPoly p rng pos d) f = some (some (g, q)) →
            f.toPoly = q.toPoly * g.toPoly → g.toPoly.Monic → q.toPoly.Monic →
            g.toPoly.natDegree ≠ 0 → q.toPoly.natDegree ≠ 0 →
            ∃ res, res ≠ .error .fuel ∧ ∃ N, ∀ fuel, N ≤ fuel →
              sdfLoop rng d fuel pos (f :: stack) retval = res := by
          intro pos g q h2 hm hg hq hg0 hq0
          have hdsum : f.toPoly.natDegree = q.toPoly.natDegree + g.toPoly.natDegree := by
            rw [hm, hq.natDegree_mul hg]
          obtain ⟨res, hres, N, hN⟩ := ih (q :: g :: stack) retval (by
            intro r hr
            simp only [List.mem_cons] at hr
            rcases hr with rfl | rfl | hr
            · exact ⟨⟨hq, hq0, fun t ht htq => hf.2.2 t ht (by rw [hm]; exact htq.mul_right _)⟩,
                hsq.squarefree_of_dvd (by rw [hm]; exact dvd_mul_right _ _)⟩
            · exact ⟨⟨hg, hg0, fun t ht htq => hf.2.2 t ht (by rw [hm]; exact htq.mul_left _)⟩,
                hsq.squarefree_of_dvd (by rw [hm]; exact dvd_mul_left _ _)⟩
            · exact hs' r hr) (by
            simp only [List.map_cons, List.sum_cons]
            omega) (pos + (2 * d - 1))
          refine ⟨res, hres, N + 1, fun fuel hfu => ?_⟩
          obtain ⟨k, rfl⟩ := Nat.exists_eq_add_of_le' hfu
          show sdfLoop rng d (k + N + 1) pos (f :: stack) retval = _
          unfold sdfLoop
          rw [hfd, Option.getD_some, if_neg (not_lt.mpr hf.le), if_neg (by simpa using h1), h2]
          exact hN (k + N) (by omega)
        -- the pattern comes after `k` blocks
        have hwait : ∀ k pos, (∀ i < 2 * d - 1, rng (pos + k * (2 * d - 1) + i) % p = (h.coeff i).val) →
            ∃ res, res ≠ .error .fuel ∧ ∃ N, ∀ fuel, N ≤ fuel →
              sdfLoop rng d fuel pos (f :: stack) retval = res := by
          intro k
          induction k with
          | zero =>
            intro pos hk
            have hR : (randomPoly p rng pos d).toPoly = h :=
              randomPoly_mod d h hmon hdeg rng pos fun i hi => by simpa using hk i hi
            have hnot := sdfSplit_splits hp2 d hd (randomPoly p rng pos d) f hf.1 f1 f2 i1 i2 v1 v2
              (by rw [hR]; exact hsplit)
            rcases sdfSplit_spec hp2 d hd (randomPoly p rng pos d) f hf.1 with
              h2 | ⟨g, q, h2, hm, hg, hq, hg0, hq0⟩
            · exact absurd h2 hnot
            · exact hgo pos g q h2 hm hg hq hg0 hq0
          | succ k ihk =>
            intro pos hk
            rcases sdfSplit_spec hp2 d hd (randomPoly p rng pos d) f hf.1 with
              h2 | ⟨g, q, h2, hm, hg, hq, hg0, hq0⟩
            · obtain ⟨res, hres, N, hN⟩ := ihk (pos + (2 * d - 1)) (by
                intro i hi
                rw [← hk i hi]
                congr 2
                ring)
              refine ⟨res, hres, N + 1, fun fuel hfu => ?_⟩
              obtain ⟨j, rfl⟩ := Nat.exists_eq_add_of_le' hfu
              show sdfLoop rng d (j + N + 1) pos (f :: stack) retval = _
              unfold sdfLoop
              rw [hfd, Option.getD_some, if_neg (not_lt.mpr hf.le), if_neg (by simpa using h1), h2]
              exact hN (j + N) (by omega)
            · exact hgo pos g q h2 hm hg hq hg0 hq0
        obtain ⟨k, hk⟩ := hfair pos (2 * d - 1) p (fun i => (h.coeff i).val) h31
          (fun i _ => ZMod.val_lt _) (by omega)
        exact hwait k pos hk

theorem sdf_fair (hp2 : p ≠ 2) (h31 : p < 2 ^ 31) (rng : ℕ → ℕ) (hfair : Fair rng) (d : ℕ) (hd : 0 < d) (f : Poly (ZMod p))
    (hf : SameDegree d f.toPoly) (hs : Squarefree f.toPoly) :
    Stops fun fuel pos => sdf rng fuel d pos f := by
  have hlen := len_of_ne f hf.1.ne_zero
  have hd0 := hf.2.1
  have hfd : f.degree = some f.toPoly.natDegree := by rw [degree_eq, if_neg hf.1.ne_zero]
  by_cases h1 : f.toPoly.natDegree = d
  · refine Stops.const (some [f]) fun fuel pos => ?_
    unfold sdf
    rw [if_neg (by omega), hfd, if_pos (by rw [h1])]
    rfl
  · have e : (fun fuel pos => sdf rng fuel d pos f) = fun fuel pos => sdfLoop rng d fuel pos [f] [] := by
      funext fuel pos
      unfold sdf
      rw [if_neg (by omega), hfd, if_neg (by simpa using h1), nonzeroHighest_eq, if_neg hf.1.ne_zero]
      simp only
      rw [if_pos hf.1.leadingCoeff]
    rw [e]
    exact sdfLoop_fair hp2 h31 rng hfair d hd _ [f] [] (by simpa using ⟨hf, hs⟩) le_rfl

theorem flatFactors_fair (hp2 : p ≠ 2) (h31 : p < 2 ^ 31) (rng : ℕ → ℕ) (hfair : Fair rng) (l : List (Poly (ZMod p))) :
    ∀ (i : ℕ), 0 < i →
    (∀ j (h : j < l.length), (l[j]).toPoly.Monic ∧ Squarefree (l[j]).toPoly ∧
        ∀ q, Irreducible q → q ∣ (l[j]).toPoly → q.natDegree = i + j) →
    Stops fun fuel pos => flatFactors rng fuel i l pos := by
  induction l with
  | nil => intro i _ _; exact Stops.const (some []) fun fuel pos => rfl
  | cons f l ih =>
    intro i hi hl
    have hf := hl 0 (by simp)
    simp only [List.getElem_cons_zero, add_zero] at hf
    have hl' : ∀ j (h : j < l.length), (l[j]).toPoly.Monic ∧ Squarefree (l[j]).toPoly ∧
        ∀ q, Irreducible q → q ∣ (l[j]).toPoly → q.natDegree = i + 1 + j := by
      intro j h
      obtain ⟨a, c, b⟩ := hl (j + 1) (by simpa using h)
      refine ⟨by simpa using a, by simpa using c, fun q hq hd => ?_⟩
      have := b q hq (by simpa using hd)
      omega
    have ih' := ih (i + 1) (by omega) hl'
    by_cases h1 : f.isOne = true
    · have e : (fun fuel pos => flatFactors rng fuel i (f :: l) pos) =
          fun fuel pos => flatFactors rng fuel (i + 1) l pos := by
        funext fuel pos
        rw [flatFactors, if_pos h1]
      rw [e]; exact ih'
    · have hne : f.toPoly ≠ 1 := fun h => h1 ((isOne_iff f).mpr h)
      have hsd : SameDegree i f.toPoly :=
        ⟨hf.1, fun h => hne (hf.1.natDegree_eq_zero.mp h), hf.2.2⟩
      refine Stops.seq (sdf_fair hp2 h31 rng hfair i hi f hsd hf.2.1)
        (run2 := fun a fuel pos => match flatFactors rng fuel (i + 1) l pos with
          | .error e => .error e
          | .ok (r, pos) => .ok (a ++ r, pos)) ?_ ?_ ?_
      · intro a
        refine Stops.seq ih' (run2 := fun r _ pos => .ok (a ++ r, pos))
          (fun r => Stops.const (some (a ++ r)) fun _ _ => rfl) ?_ ?_
        · intro fuel pos e he; simp only [he]
        · intro fuel pos r pos' he; simp only [he]
      · intro fuel pos e he
        rw [flatFactors, if_neg h1, if_neg (by omega)]
        simp only [he]
      · intro fuel pos r pos' he
        rw [flatFactors, if_neg h1, if_neg (by omega)]
        simp only [he]
        cases flatFactors rng fuel (i + 1) l pos' <;> rfl

theorem modularFactors_fair (hp2 : p ≠ 2) (h31 : p < 2 ^ 31) (rng : ℕ → ℕ) (hfair : Fair rng) (f : Poly (ZMod p))
    (hf : Squarefree f.toPoly) : Stops fun fuel pos => modularFactors rng fuel pos f := by
  obtain ⟨l, hl, h1, h2⟩ := ddf_spec f hf
  have hcan : Stops fun fuel pos => flatFactors rng fuel 1 l pos := by
    refine flatFactors_fair hp2 h31 rng hfair l 1 (by omega) fun j hj => ⟨(h2 j hj).1, ?_, (h2 j hj).2⟩
    refine hf.squarefree_of_dvd ?_
    rw [← h1]
    refine Dvd.dvd.mul_left (List.dvd_prod ?_) _
    exact List.mem_map.mpr ⟨l[j], List.getElem_mem hj, rfl⟩
  have hmf : ∀ fuel pos, modularFactors rng fuel pos f =
      flatFactors rng fuel 0 (ofCoeffs [f.toPoly.leadingCoeff] :: l) pos := by
    intro fuel pos
    unfold modularFactors
    rw [hl]
  simp only [hmf]
  by_cases h3 : (ofCoeffs [f.toPoly.leadingCoeff] : Poly (ZMod p)).isOne = true
  · simp only [flatFactors, if_pos h3]; exact hcan
  · simp only [flatFactors, if_neg h3, if_pos, Nat.zero_add]
    refine Stops.seq hcan (run2 := fun r _ pos => .ok (ofCoeffs [f.toPoly.leadingCoeff] :: r, pos))
      (fun r => Stops.const (some (ofCoeffs [f.toPoly.leadingCoeff] :: r)) fun _ _ => rfl) ?_ ?_
    · intro fuel pos e he; simp only [he]
    · intro fuel pos r pos' he; simp only [he]

theorem factorSquareFree_fair (choose : ℕ → List ℕ → ℕ) (rng : ℕ → ℕ) (hfair : Fair rng) (f : Poly ℤ) :
    Stops fun fuel pos => factorSquareFree choose rng fuel pos f := by
  by_cases hd : f.degree.getD 0 ≤ 1
  · refine Stops.const (some [f]) fun fuel pos => ?_
    show factorSquareFree choose rng fuel pos f = _
    rw [factorSquareFree, if_pos hd]; rfl
  cases hsel : selectPrime f (2 ^ 31) 2 with
  | none =>
    refine Stops.const none fun fuel pos => ?_
    show factorSquareFree choose rng fuel pos f = _
    rw [factorSquareFree, if_neg hd, hsel]; rfl
  | some p =>
    have hp := (selectPrime_spec f (2 ^ 31) 2 (by norm_num)).1 p hsel
    have : Fact p.Prime := ⟨hp.1⟩
    refine Stops.seq (modularFactors_fair hp.2.1 (by exact_mod_cast hp.2.2.1) rng hfair (modPoly p f)
      (by rw [toPoly_modPoly]; exact hp.2.2.2.2))
      (run2 := fun l _ pos => outcome pos (liftAndRecombine choose f l))
      (fun l => Stops.const (liftAndRecombine choose f l) fun fuel pos => rfl) ?_ ?_
    · intro fuel pos e he
      rw [factorSquareFree, if_neg hd, hsel]; simp only [he]
    · intro fuel pos r pos' he
      rw [factorSquareFree, if_neg hd, hsel]; simp only [he]
      cases liftAndRecombine choose f r <;> rfl

theorem factorLoop_fair (choose : ℕ → List ℕ → ℕ) (rng : ℕ → ℕ) (hfair : Fair rng) (gs : List (Poly ℚ)) :
    ∀ (index : ℕ), Stops fun fuel pos => factorLoop choose rng fuel index gs pos := by
  induction gs with
  | nil => intro index; exact Stops.const (some []) fun _ _ => rfl
  | cons g gs ih =>
    intro index
    refine Stops.seq (factorSquareFree_fair choose rng hfair (ofCoeffs (ratElements g)))
      (run2 := fun l fuel pos => match factorLoop choose rng fuel (index + 1) gs pos with
        | .error e => .error e
        | .ok (r, pos) =>
          .ok ((l.filter fun q => !q.isOne).map (fun q => (q, index + 1)) ++ r, pos)) (fun l => ?_) ?_ ?_
    · refine Stops.seq (ih (index + 1))
        (run2 := fun r _ pos => .ok ((l.filter fun q => !q.isOne).map (fun q => (q, index + 1)) ++ r, pos))
        (fun r => Stops.const (some ((l.filter fun q => !q.isOne).map (fun q => (q, index + 1)) ++ r))
          fun _ _ => rfl) ?_ ?_
      · intro fuel pos e he; simp only [he]
      · intro fuel pos r pos' he; simp only [he]
    · intro fuel pos e he; simp only [factorLoop, he]
    · intro fuel pos r pos' he
      simp only [factorLoop, he]
      cases factorLoop choose rng fuel (index + 1) gs pos' <;> rfl

theorem factor_fair (choose : ℕ → List ℕ → ℕ) (rng : ℕ → ℕ) (hfair : Fair rng) (f : Poly ℤ) :
    Stops fun fuel pos => factor choose rng fuel pos f := by
  cases hm : f.coeffs.mapM (fun v => checkedExactDivInt v (f.content intGcd)) with
  | none =>
    refine Stops.const none fun fuel pos => ?_
    show factor choose rng fuel pos f = _
    simp only [factor, hm]; rfl
  | some l =>
    cases hy : (ofCoeffs (l.map fun v : ℤ => (v : ℚ)) : Poly ℚ).yun ratGcd with
    | none =>
      refine Stops.const none fun fuel pos => ?_
      show factor choose rng fuel pos f = _
      simp only [factor, hm, hy]; rfl
    | some cg =>
      obtain ⟨c, gs⟩ := cg
      refine Stops.seq (factorLoop_fair choose rng hfair gs 0)
        (run2 := fun r _ pos => .ok (⟨f.content intGcd, r⟩, pos))
        (fun r => Stops.const (some ⟨f.content intGcd, r⟩) fun _ _ => rfl) ?_ ?_
      · intro fuel pos e he
        simp only [factor, hm, hy, he]
      · intro fuel pos r pos' he
        simp only [factor, hm, hy, he]

end Poly

/-! ## Fair random numbers exist -/

/-- one more pattern at the end of a prefix -/
theorem fair_extend (L : List ℕ) (pos n m : ℕ) (w : ℕ → ℕ) (hw : ∀ i < n, w i < m) (hn : 0 < n) :
    ∃ L' : List ℕ, L <+: L' ∧ L.length < L'.length ∧
      ∃ k, ∀ i < n, ∃ v, L'[pos + k * n + i]? = some v ∧ v % m = w i := by
  set s := pos + L.length * n with hs
  have hsl : L.length ≤ s := by
    rw [hs]
    have := Nat.mul_le_mul_left L.length hn
    omega
  refine ⟨L ++ List.replicate (s - L.length) 0 ++ (List.range n).map w, ?_, ?_, L.length, ?_⟩
  · rw [List.append_assoc]; exact List.prefix_append _ _
  · simp; omega
  · intro i hi
    refine ⟨w i, ?_, Nat.mod_eq_of_lt (hw i hi)⟩
    rw [← hs, List.getElem?_append_right (by simp; omega)]
    have : s + i - (L ++ List.replicate (s - L.length) 0).length = i := by simp; omega
    rw [this]
    simp [hi]

theorem exists_fair : ∃ rng, Fair rng := by
  classical
  -- all requirements, in a sequence
  obtain ⟨req, hreq⟩ : ∃ req : ℕ → ℕ × ℕ × List ℕ, Function.Surjective req :=
    exists_surjective_nat _
  let good : ℕ × ℕ × List ℕ → Prop := fun r => 0 < r.2.2.length ∧ ∀ v ∈ r.2.2, v < r.2.1
  have step : ∀ (L : List ℕ) (r : ℕ × ℕ × List ℕ), ∃ L' : List ℕ, L <+: L' ∧ L.length < L'.length ∧
      (good r → ∃ k, ∀ i < r.2.2.length, ∃ v, L'[r.1 + k * r.2.2.length + i]? = some v ∧
        v % r.2.1 = r.2.2.getD i 0) := by
    intro L r
    by_cases hg : good r
    · obtain ⟨L', h1, h2, h3⟩ := fair_extend L r.1 r.2.2.length r.2.1 (fun i => r.2.2.getD i 0) (by
        intro i hi
        refine hg.2 _ ?_
        rw [List.getD_eq_getElem?_getD, List.getElem?_eq_getElem hi, Option.getD_some]
        exact List.getElem_mem hi) hg.1
      exact ⟨L', h1, h2, fun _ => h3⟩
    · exact ⟨L ++ [0], List.prefix_append _ _, by simp, fun h => absurd h hg⟩
  choose next hn1 hn2 hn3 using step
  let pre : ℕ → List ℕ := fun j => Nat.rec [] (fun j L => next L (req j)) j
  have hpre : ∀ j, pre (j + 1) = next (pre j) (req j) := fun j => rfl
  have hmono : ∀ j k, j ≤ k → pre j <+: pre k := by
    intro j k hjk
    induction hjk with
    | refl => exact List.prefix_refl _
    | step _ ih => exact ih.trans (hn1 _ _)
  have hlen : ∀ j, j ≤ (pre j).length := by
    intro j
    induction j with
    | zero => exact Nat.zero_le _
    | succ j ih =>
      have := hn2 (pre j) (req j)
      rw [hpre]; omega
  refine ⟨fun i => ((pre (i + 1))[i]?).getD 0, ?_⟩
  have hval : ∀ j i v, (pre j)[i]? = some v → ((pre (i + 1))[i]?).getD 0 = v := by
    intro j i v hv
    have hi : i < (pre (i + 1)).length := Nat.lt_of_lt_of_le (Nat.lt_succ_self i) (hlen (i + 1))
    obtain ⟨hij, hv'⟩ := List.getElem?_eq_some_iff.mp hv
    rw [List.getElem?_eq_getElem hi, Option.getD_some]
    rcases le_total j (i + 1) with h | h
    · have := (hmono _ _ h).getElem hij
      rw [← this, hv']
    · have := (hmono _ _ h).getElem hi
      rw [this, hv']
  intro pos n m w _ hw hn
  obtain ⟨j, hj⟩ := hreq (pos, m, (List.range n).map w)
  have hg : good (req j) := by
    rw [hj]
    refine ⟨by simpa using hn, ?_⟩
    intro v hv
    obtain ⟨i, hi, rfl⟩ := List.mem_map.mp hv
    exact hw i (List.mem_range.mp hi)
  obtain ⟨k, hk⟩ := hn3 (pre j) (req j) hg
  rw [← hpre, hj] at hk
  simp only [List.length_map, List.length_range] at hk
  refine ⟨k, fun i hi => ?_⟩
  obtain ⟨v, h1, h2⟩ := hk i hi
  show ((pre (pos + k * n + i + 1))[pos + k * n + i]?).getD 0 % m = w i
  rw [hval (j + 1) _ v h1, h2]
  simp [hi]

end Algebraics
