import Verif.Lemmas.AlgNumOps

/-!
# Leading coefficients of the resultants

The resultants of algebraic integers are monic up to the sign.
-/

namespace Algebraics

open Polynomial

namespace RealAlg

theorem overC_leadingCoeff (p : ℤ[X]) : (overC p).leadingCoeff = (p.leadingCoeff : ℂ) :=
  leadingCoeff_map_of_injective (RingHom.injective_int _) p

/-- the value of a resultant at `z`. -/
theorem resultant_value (U V : Poly (Poly ℤ)) (R : Poly ℤ) (hU0 : U.toPoly ≠ 0) (hV0 : V.toPoly ≠ 0)
    (hR : Poly.resultant U V = some R) (z : ℂ)
    (hU : (U.toPoly.map (evalAt z)).natDegree = U.toPoly.natDegree)
    (hV : (V.toPoly.map (evalAt z)).natDegree = V.toPoly.natDegree) :
    aeval z R.toPoly =
      Polynomial.resultant (U.toPoly.map (evalAt z)) (V.toPoly.map (evalAt z)) := by
  rw [C22_resultant_sylvester U V hU0 hV0, Option.some_inj] at hR
  have h1 : R = Polynomial.resultant U.toPoly V.toPoly := hR.symm
  rw [← evalAt_apply, h1, ← Polynomial.resultant_map_map, ← hU, ← hV]

theorem leadingCoeff_map_prod {ι : Type} (s : Multiset ι) (f : ι → ℂ[X]) (c : ℂ)
    (h : ∀ i ∈ s, (f i).leadingCoeff = c) : (s.map f).prod.leadingCoeff = c ^ s.card := by
  rw [leadingCoeff_multiset_prod, Multiset.map_map]
  rw [Multiset.map_congr rfl (g := fun _ => c) (by intro i hi; exact h i hi)]
  simp

/-- the resultant of a sum, over the roots of the first polynomial. -/
theorem addResultant_prod (p q R : Poly ℤ) (hp : p.toPoly ≠ 0) (hq : q.toPoly ≠ 0)
    (hR : addResultant p q = some R) :
    overC R.toPoly = C ((overC p.toPoly).leadingCoeff ^ q.toPoly.natDegree) *
      ((overC p.toPoly).roots.map fun x => (overC q.toPoly).comp (X - C x)).prod := by
  have hsplit : (overC p.toPoly).Splits := IsAlgClosed.splits _
  apply Polynomial.funext
  intro z
  have hd2 : ((evalAtAddPoint q).toPoly.map (evalAt z)).natDegree = q.toPoly.natDegree := by
    rw [evalAtAddPoint_map, natDegree_comp, natDegree_C_sub_X, mul_one, overC_natDegree]
  rw [overC_eval, resultant_value _ _ R (liftPoly_ne_zero hp) (evalAtAddPoint_ne_zero hq) hR z
    (by rw [liftPoly_map, overC_natDegree, liftPoly_natDegree])
    (by rw [hd2, evalAtAddPoint_natDegree]), liftPoly_map,
    resultant_eq_prod_eval _ _ _ (le_refl _) hsplit, hd2, eval_mul, eval_C,
    eval_multiset_prod, Multiset.map_map]
  congr 2
  apply Multiset.map_congr rfl
  intro x _
  rw [evalAtAddPoint_map]
  simp [eval_comp]

theorem addResultant_leading (p q R : Poly ℤ) (hp : p.toPoly ≠ 0) (hq : q.toPoly ≠ 0)
    (hR : addResultant p q = some R) :
    R.toPoly.leadingCoeff =
      p.toPoly.leadingCoeff ^ q.toPoly.natDegree * q.toPoly.leadingCoeff ^ p.toPoly.natDegree := by
  have hsplit : (overC p.toPoly).Splits := IsAlgClosed.splits _
  have key := addResultant_prod p q R hp hq hR
  have h := congrArg leadingCoeff key
  rw [leadingCoeff_mul, leadingCoeff_C, leadingCoeff_map_prod _ _ (overC q.toPoly).leadingCoeff
    (by
      intro x _
      rw [leadingCoeff_comp (by rw [natDegree_X_sub_C]; norm_num), leadingCoeff_X_sub_C, one_pow,
        mul_one]),
    overC_leadingCoeff, overC_leadingCoeff, overC_leadingCoeff,
    ← hsplit.natDegree_eq_card_roots, overC_natDegree] at h
  exact_mod_cast h

theorem mulPoly_eval_eq (p : Poly ℤ) (h : p.toPoly ≠ 0) (z w : ℂ) (hw : w ≠ 0) :
    ((mulPoly p).toPoly.map (evalAt z)).eval w =
      w ^ p.toPoly.natDegree * (overC p.toPoly).eval (z * w⁻¹) := by
  have h1 := eval_reverse_list (p.coeffs.mapIdx fun (i : ℕ) (c : ℤ) => (c : ℂ) * z ^ i) w hw
  have h2 := eval_mapIdx z w⁻¹ p.coeffs 0
  simp only [add_zero, pow_zero, one_mul] at h2
  have hl : (p.coeffs.mapIdx fun (i : ℕ) (c : ℤ) => (c : ℂ) * z ^ i).length =
      p.toPoly.natDegree + 1 := by
    rw [List.length_mapIdx, ← Poly.len_eq, Poly.len_of_ne p h]
  rw [h2, ← mulPoly_map_list, mul_comm w⁻¹ z, hl, pow_succ'] at h1
  have h3 : (map (Int.castRingHom ℂ) (listPoly p.coeffs)) = overC p.toPoly := rfl
  rw [h3, mul_assoc] at h1
  exact mul_left_cancel₀ hw h1

/-- the resultant of a product, over the roots of the second polynomial, up to the sign. -/
theorem mulResultant_prod (p q R : Poly ℤ) (hp : p.toPoly.coeff 0 ≠ 0)
    (hq : q.toPoly.coeff 0 ≠ 0) (hR : mulResultant p q = some R) :
    ∃ m : ℕ, overC R.toPoly = C ((-1) ^ m) *
      (C ((overC q.toPoly).leadingCoeff ^ p.toPoly.natDegree) *
      ((overC q.toPoly).roots.map fun y => C (y ^ p.toPoly.natDegree) *
        (overC p.toPoly).comp (C y⁻¹ * X)).prod) := by
  have hsplit : (overC q.toPoly).Splits := IsAlgClosed.splits _
  refine ⟨p.toPoly.natDegree * q.toPoly.natDegree, ?_⟩
  apply Polynomial.funext
  intro z
  have hd := mulPoly_degrees p hp z
  have hdeg : ((mulPoly p).toPoly.map (evalAt z)).natDegree = p.toPoly.natDegree := by
    obtain ⟨a, l, hc, ha⟩ := coeffs_cons p hp
    have h2 := (mapIdx_reverse_leading (fun (i : ℕ) (c : ℤ) => (c : ℂ) * z ^ i) a l (by simpa using ha)).1
    rw [mulPoly_map_list, hc, h2]
    have := Poly.len_of_ne p (ne_zero_of_coeff hp)
    rw [Poly.len_eq, hc] at this
    simpa using this
  rw [overC_eval, resultant_value _ _ R hd.1 (liftPoly_ne_zero (ne_zero_of_coeff hq)) hR z
    hd.2.2 (by rw [liftPoly_map, overC_natDegree, liftPoly_natDegree]), liftPoly_map,
    resultant_comm, resultant_eq_prod_eval _ _ _ (le_refl _) hsplit, hdeg, overC_natDegree, eval_mul,
    eval_C, eval_mul, eval_C, eval_multiset_prod, Multiset.map_map]
  congr 3
  apply Multiset.map_congr rfl
  intro y hy
  have hy0 : y ≠ 0 := by
    refine root_ne_zero hq ?_
    rw [← overC_eval]
    exact (mem_roots'.mp hy).2
  rw [mulPoly_eval_eq p (ne_zero_of_coeff hp) z y hy0]
  rw [Function.comp_apply, eval_mul, eval_C, eval_comp, eval_mul, eval_C, eval_X, mul_comm z]

theorem mulResultant_leading (p q R : Poly ℤ) (hp : p.toPoly.coeff 0 ≠ 0)
    (hq : q.toPoly.coeff 0 ≠ 0) (hR : mulResultant p q = some R) :
    |R.toPoly.leadingCoeff| =
      |p.toPoly.leadingCoeff ^ q.toPoly.natDegree * q.toPoly.leadingCoeff ^ p.toPoly.natDegree| := by
  have hsplit : (overC q.toPoly).Splits := IsAlgClosed.splits _
  obtain ⟨m, hm⟩ := mulResultant_prod p q R hp hq hR
  have h := congrArg leadingCoeff hm
  rw [leadingCoeff_mul, leadingCoeff_C, leadingCoeff_mul, leadingCoeff_C,
    leadingCoeff_map_prod _ _ (overC p.toPoly).leadingCoeff
    (by
      intro y hy
      have hy0 : y ≠ 0 := by
        refine root_ne_zero hq ?_
        rw [← overC_eval]
        exact (mem_roots'.mp hy).2
      rw [leadingCoeff_mul, leadingCoeff_C, leadingCoeff_comp (by
        rw [natDegree_C_mul_X _ (inv_ne_zero hy0)]; norm_num), leadingCoeff_C_mul_X, overC_natDegree,
        mul_left_comm, ← mul_pow, mul_inv_cancel₀ hy0, one_pow, mul_one]),
    overC_leadingCoeff, overC_leadingCoeff, overC_leadingCoeff,
    ← hsplit.natDegree_eq_card_roots, overC_natDegree] at h
  have h' : R.toPoly.leadingCoeff = (-1) ^ m *
      (q.toPoly.leadingCoeff ^ p.toPoly.natDegree * p.toPoly.leadingCoeff ^ q.toPoly.natDegree) := by
    exact_mod_cast h
  rw [h', abs_mul, abs_pow, abs_neg, abs_one, one_pow, one_mul, mul_comm]

end RealAlg

end Algebraics
