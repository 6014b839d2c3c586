import Mathlib.Data.ZMod.Basic
import Mathlib.Algebra.Field.ZMod
import Mathlib.RingTheory.Polynomial.Nilpotent
import Mathlib.RingTheory.Coprime.Lemmas
import Mathlib.Algebra.Polynomial.FieldDivision
import Mathlib.Algebra.Squarefree.Basic
import Mathlib.RingTheory.PrincipalIdealDomain

/-!
# Factors modulo a prime power
-/

set_option linter.unusedSectionVars false

namespace Algebraics

open Polynomial

/-- splitting a product of irreducibles -/
theorem split_product {R K : Type} [CommRing R] [Field K] (φ : R →+* K) (E : List R[X]) :
    ∀ (g h : K[X]), (∀ e ∈ E, Irreducible (e.map φ)) →
    Associated (g * h) (E.map (Polynomial.map φ)).prod →
    ∃ A B, E.Perm (A ++ B) ∧ Associated g (A.map (Polynomial.map φ)).prod ∧
      Associated h (B.map (Polynomial.map φ)).prod := by
  induction E with
  | nil =>
    intro g h _ ha
    have hu : IsUnit (g * h) := ha.symm.isUnit (by simp)
    rw [IsUnit.mul_iff] at hu
    exact ⟨[], [], List.Perm.refl _, by simpa using associated_one_iff_isUnit.mpr hu.1,
      by simpa using associated_one_iff_isUnit.mpr hu.2⟩
  | cons e E ih =>
    intro g h hE ha
    have he := hE e (by simp)
    rw [List.map_cons, List.prod_cons] at ha
    have hd : e.map φ ∣ g * h := (Dvd.intro _ rfl : e.map φ ∣ _).trans ha.symm.dvd
    rcases he.prime.dvd_or_dvd hd with ⟨g1, rfl⟩ | ⟨h1, rfl⟩
    · have h2 : Associated (g1 * h) (E.map (Polynomial.map φ)).prod := by
        refine Associated.of_mul_left (a := e.map φ) (c := e.map φ) ?_ (Associated.refl _) he.ne_zero
        rwa [← mul_assoc]
      obtain ⟨A, B, p1, p2, p3⟩ := ih g1 h (fun e' h' => hE e' (by simp [h'])) h2
      refine ⟨e :: A, B, p1.cons e, ?_, p3⟩
      rw [List.map_cons, List.prod_cons]
      exact p2.mul_left _
    · have h2 : Associated (g * h1) (E.map (Polynomial.map φ)).prod := by
        refine Associated.of_mul_left (a := e.map φ) (c := e.map φ) ?_ (Associated.refl _) he.ne_zero
        rwa [mul_left_comm]
      obtain ⟨A, B, p1, p2, p3⟩ := ih g h1 (fun e' h' => hE e' (by simp [h'])) h2
      refine ⟨A, e :: B, (p1.cons e).trans List.perm_middle.symm, p2, ?_⟩
      rw [List.map_cons, List.prod_cons]
      exact p3.mul_left _

section

variable {p e : ℕ} [Fact p.Prime] (he : e ≠ 0)

/-- reduction modulo the prime -/
def redp : ZMod (p ^ e) →+* ZMod p := ZMod.castHom (dvd_pow_self p he) (ZMod p)

theorem redp_surj : Function.Surjective (redp (p := p) he) :=
  ZMod.castHom_surjective _

theorem redp_nilpotent (x : ZMod (p ^ e)) (h : redp he x = 0) : IsNilpotent x := by
  have hp : p.Prime := Fact.out
  have : NeZero (p ^ e) := ⟨pow_ne_zero _ hp.ne_zero⟩
  refine ⟨e, ?_⟩
  rw [redp, ZMod.castHom_apply, ← ZMod.natCast_val, ZMod.natCast_eq_zero_iff] at h
  rw [← ZMod.natCast_zmod_val x, ← Nat.cast_pow, ZMod.natCast_eq_zero_iff]
  exact pow_dvd_pow_of_dvd h e

theorem redp_unit (x : ZMod (p ^ e)) (h : IsUnit (redp he x)) : IsUnit x := by
  obtain ⟨y, hy⟩ := redp_surj (p := p) he (h.unit⁻¹ : (ZMod p)ˣ)
  have h1 : IsNilpotent (x * y - 1) := redp_nilpotent he _ (by
    rw [map_sub, map_mul, hy, map_one, IsUnit.mul_val_inv, sub_self])
  have h2 : IsUnit (x * y) := by
    have := h1.isUnit_add_one
    rwa [sub_add_cancel] at this
  exact isUnit_of_mul_isUnit_left h2

/-- coprimality lifts -/
theorem lift_coprime (a b : (ZMod (p ^ e))[X]) (h : IsCoprime (a.map (redp he)) (b.map (redp he))) :
    IsCoprime a b := by
  obtain ⟨x, y, hxy⟩ := h
  obtain ⟨x', rfl⟩ := map_surjective _ (redp_surj he) x
  obtain ⟨y', rfl⟩ := map_surjective _ (redp_surj he) y
  have h1 : IsNilpotent (x' * a + y' * b - 1) := by
    rw [Polynomial.isNilpotent_iff]
    intro i
    apply redp_nilpotent he
    rw [← coeff_map, Polynomial.map_sub, Polynomial.map_add, Polynomial.map_mul, Polynomial.map_mul, hxy]
    simp
  have h2 : IsUnit (x' * a + y' * b) := by
    have := h1.isUnit_add_one
    rwa [sub_add_cancel] at this
  obtain ⟨u, hu⟩ := h2
  refine ⟨↑u⁻¹ * x', ↑u⁻¹ * y', ?_⟩
  have : (↑u⁻¹ : (ZMod (p ^ e))[X]) * (x' * a + y' * b) = 1 := by rw [← hu]; simp
  rw [← this]; ring

include he in
theorem nontriv : Nontrivial (ZMod (p ^ e)) := by
  have hp : p.Prime := Fact.out
  have : Fact (1 < p ^ e) := ⟨Nat.one_lt_pow he hp.one_lt⟩
  infer_instance

theorem map_lead (a : (ZMod (p ^ e))[X]) (h : IsUnit a.leadingCoeff) :
    (a.map (redp he)).natDegree = a.natDegree ∧
    (a.map (redp he)).leadingCoeff = redp he a.leadingCoeff := by
  have h1 : redp he a.leadingCoeff ≠ 0 := (h.map (redp he)).ne_zero
  exact ⟨natDegree_map_of_leadingCoeff_ne_zero _ h1, leadingCoeff_map_of_leadingCoeff_ne_zero _ h1⟩

theorem prod_lead {R : Type} [CommRing R] [Nontrivial R] (E : List R[X])
    (hE : ∀ a ∈ E, IsUnit a.leadingCoeff) :
    E.prod.leadingCoeff = (E.map leadingCoeff).prod ∧ IsUnit E.prod.leadingCoeff := by
  induction E with
  | nil => simp
  | cons a E ih =>
    obtain ⟨h1, h2⟩ := ih fun b hb => hE b (by simp [hb])
    have h3 := (hE a (by simp)).mul h2
    rw [List.prod_cons, leadingCoeff_mul' h3.ne_zero, List.map_cons, List.prod_cons, h1]
    exact ⟨rfl, h1 ▸ h3⟩

/-- one side of the splitting -/
theorem split_side (A B : List (ZMod (p ^ e))[X]) (g h : (ZMod (p ^ e))[X]) (c : ZMod (p ^ e)) (hc : IsUnit c)
    (hA : ∀ a ∈ A, IsUnit a.leadingCoeff) (hgh : g * h = C c * (A.prod * B.prod)) (hg : IsUnit g.leadingCoeff)
    (h2 : Associated (g.map (redp he)) (A.prod.map (redp he)))
    (hcop : IsCoprime (A.prod.map (redp he)) (B.prod.map (redp he))) :
    ∃ u, IsUnit u ∧ A.prod = C u * g := by
  have := nontriv (p := p) he
  have hco : IsCoprime g B.prod := by
    apply lift_coprime he
    exact hcop.of_isCoprime_of_dvd_left h2.dvd
  have hdvd : g ∣ A.prod := by
    have e1 : g ∣ C c * (A.prod * B.prod) := Dvd.intro _ hgh
    have e2 : g ∣ A.prod * B.prod := by
      obtain ⟨c', rfl⟩ := hc
      have hc2 : A.prod * B.prod = C (↑c'⁻¹ : ZMod (p ^ e)) * (C (c' : ZMod (p ^ e)) * (A.prod * B.prod)) := by
        rw [← mul_assoc (C _) (C _), ← C_mul]; simp
      rw [hc2]
      exact e1.mul_left _
    exact hco.dvd_of_dvd_mul_right e2
  obtain ⟨q, hq⟩ := hdvd
  obtain ⟨-, hAu⟩ := prod_lead A hA
  have hq0 : q ≠ 0 := by
    rintro rfl
    rw [mul_zero] at hq
    rw [hq, leadingCoeff_zero] at hAu
    exact hAu.ne_zero rfl
  have hl0 : g.leadingCoeff * q.leadingCoeff ≠ 0 := by
    intro h0
    exact hq0 (leadingCoeff_eq_zero.mp ((hg.mul_right_eq_zero).mp h0))
  have hd := natDegree_mul' hl0
  rw [← hq] at hd
  have hd2 : A.prod.natDegree = g.natDegree := by
    rw [← (map_lead he g hg).1, ← (map_lead he A.prod hAu).1]
    exact (natDegree_eq_of_degree_eq (degree_eq_degree_of_associated h2)).symm
  have hq1 := eq_C_of_natDegree_eq_zero (show q.natDegree = 0 by omega)
  refine ⟨q.coeff 0, ?_, by rw [hq, mul_comm, ← hq1]⟩
  rw [hq, leadingCoeff_mul' hl0, hq1, leadingCoeff_C] at hAu
  exact isUnit_of_mul_isUnit_right hAu

/-- a factorization of a product of lifted irreducible factors comes from splitting the list -/
theorem split_lifted (E : List (ZMod (p ^ e))[X]) (hu : ∀ a ∈ E, IsUnit a.leadingCoeff)
    (hi : ∀ a ∈ E, Irreducible (a.map (redp he)))
    (hsq : Squarefree (E.map (Polynomial.map (redp he))).prod)
    (g h : (ZMod (p ^ e))[X]) (c : ZMod (p ^ e)) (hc : IsUnit c) (hgh : g * h = C c * E.prod)
    (hg : IsUnit g.leadingCoeff) (hh : IsUnit h.leadingCoeff) :
    ∃ A B, E.Perm (A ++ B) ∧ (∃ u, IsUnit u ∧ A.prod = C u * g) ∧ (∃ u, IsUnit u ∧ B.prod = C u * h) := by
  have := nontriv (p := p) he
  have hmap : ∀ l : List (ZMod (p ^ e))[X],
      (l.map (Polynomial.map (redp he))).prod = l.prod.map (redp he) := by
    intro l
    rw [Polynomial.map_list_prod]
  have hass : Associated (g.map (redp he) * h.map (redp he)) (E.map (Polynomial.map (redp he))).prod := by
    rw [hmap, ← Polynomial.map_mul, hgh, Polynomial.map_mul, map_C]
    exact (associated_unit_mul_left _ _ (isUnit_C.mpr (hc.map _)))
  obtain ⟨A, B, h1, h2, h3⟩ := split_product (redp he) E _ _ hi hass
  have hA : ∀ a ∈ A, IsUnit a.leadingCoeff := fun a ha => hu a (h1.mem_iff.mpr (by simp [ha]))
  have hB : ∀ a ∈ B, IsUnit a.leadingCoeff := fun a ha => hu a (h1.mem_iff.mpr (by simp [ha]))
  have hEp : E.prod = A.prod * B.prod := by rw [h1.prod_eq, List.prod_append]
  have hcop : IsCoprime (A.prod.map (redp he)) (B.prod.map (redp he)) := by
    rw [hmap, hEp, Polynomial.map_mul] at hsq
    exact (squarefree_mul_iff.mp hsq).1.isCoprime
  rw [hmap] at h2 h3
  refine ⟨A, B, h1, split_side he A B g h c hc hA (by rw [hgh, hEp]) hg h2 hcop, ?_⟩
  refine split_side he B A h g c hc hB (by rw [mul_comm, hgh, hEp, mul_comm A.prod]) hh h3 hcop.symm

end

end Algebraics
