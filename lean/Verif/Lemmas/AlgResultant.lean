import Verif.Lemmas.AlgNumBasic
import Verif.Props.PolyGcd
import Mathlib.Analysis.Complex.Polynomial.Basic

/-!
# The resultants of `add_assign`, `mul_assign` and `checked_pow_impl`

For every complex number `z`, the resultant vanishes at `z` exactly when `z` is a sum (product, power)
of roots of the two polynomials.
-/

namespace Algebraics

open Polynomial

namespace RealAlg

/-- evaluation of the inner polynomials at `z`. -/
noncomputable def evalAt (z : ℂ) : Poly ℤ →+* ℂ :=
  ((aeval z : ℤ[X] →ₐ[ℤ] ℂ) : ℤ[X] →+* ℂ).comp (Poly.toPolyEquiv (T := ℤ)).toRingHom

theorem evalAt_apply (z : ℂ) (p : Poly ℤ) : evalAt z p = aeval z p.toPoly := rfl

/-- a polynomial over `ℤ`, with complex coefficients. -/
noncomputable def overC (p : ℤ[X]) : ℂ[X] := p.map (Int.castRingHom ℂ)

theorem overC_eval (p : ℤ[X]) (z : ℂ) : (overC p).eval z = aeval z p := by
  rw [overC, eval_map, aeval_def]; rfl

theorem overC_natDegree (p : ℤ[X]) : (overC p).natDegree = p.natDegree :=
  natDegree_map_eq_of_injective (RingHom.injective_int _) p

theorem overC_ne_zero {p : ℤ[X]} (h : p ≠ 0) : overC p ≠ 0 :=
  (Polynomial.map_ne_zero_iff (RingHom.injective_int _)).mpr h

/-- the resultant vanishes at `z` exactly when the two polynomials, taken at `z`, have a common
root. -/
theorem resultant_root (U V : Poly (Poly ℤ)) (R : Poly ℤ) (hU0 : U.toPoly ≠ 0) (hV0 : V.toPoly ≠ 0)
    (hR : Poly.resultant U V = some R) (z : ℂ)
    (hU : (U.toPoly.map (evalAt z)).natDegree = U.toPoly.natDegree)
    (hV : (V.toPoly.map (evalAt z)).natDegree = V.toPoly.natDegree)
    (hne : U.toPoly.map (evalAt z) ≠ 0) :
    aeval z R.toPoly = 0 ↔ ∃ w : ℂ, (U.toPoly.map (evalAt z)).eval w = 0 ∧
      (V.toPoly.map (evalAt z)).eval w = 0 := by
  rw [C22_resultant_sylvester U V hU0 hV0, Option.some_inj] at hR
  have h1 : R = Polynomial.resultant U.toPoly V.toPoly := hR.symm
  rw [← evalAt_apply, h1, ← Polynomial.resultant_map_map, ← hU, ← hV, Polynomial.resultant_eq_zero_iff]
  classical
  set f := U.toPoly.map (evalAt z)
  set g := V.toPoly.map (evalAt z)
  constructor
  · rintro ⟨-, h⟩
    have hg : ¬ IsUnit (EuclideanDomain.gcd f g) := by
      rwa [EuclideanDomain.gcd_isUnit_iff]
    obtain ⟨x, hx⟩ := IsAlgClosed.exists_root (EuclideanDomain.gcd f g)
      (fun h => hg (isUnit_iff_degree_eq_zero.mpr h))
    exact ⟨x, IsRoot.dvd hx (EuclideanDomain.gcd_dvd_left _ _),
      IsRoot.dvd hx (EuclideanDomain.gcd_dvd_right _ _)⟩
  · rintro ⟨x, hx, hy⟩
    refine ⟨Or.inl hne, ?_⟩
    rintro ⟨a, b, hab⟩
    have := congrArg (eval x) hab
    rw [eval_add, eval_mul, eval_mul, hx, hy] at this
    simp at this

/-! ### the three shapes of arguments -/

theorem evalAt_comp_int (z : ℂ) : (evalAt z).comp (Int.castRingHom (Poly ℤ)) = Int.castRingHom ℂ :=
  RingHom.ext_int _ _

theorem ofCoeffs_one_cast (c : ℤ) : (Poly.ofCoeffs [c] : Poly ℤ) = Int.castRingHom (Poly ℤ) c := by
  apply Poly.toPoly_injective
  have := map_intCast (Poly.toPolyEquiv (T := ℤ)) c
  change ((c : Poly ℤ)).toPoly = _ at this
  rw [eq_intCast, this, Poly.toPoly_ofCoeffs]
  simp

theorem cast_injective : Function.Injective (Int.castRingHom (Poly ℤ)) := by
  intro a b h
  rw [← ofCoeffs_one_cast, ← ofCoeffs_one_cast] at h
  have := congrArg Poly.toPoly h
  rw [Poly.toPoly_ofCoeffs, Poly.toPoly_ofCoeffs] at this
  simpa using this

theorem listPoly_map {R S : Type} [CommRing R] [CommRing S] (φ : R →+* S) (l : List R) :
    listPoly (l.map φ) = (listPoly l).map φ := by
  induction l with
  | nil => simp
  | cons a l ih => simp [ih]

theorem liftPoly_toPoly (p : Poly ℤ) :
    (liftPoly p).toPoly = p.toPoly.map (Int.castRingHom (Poly ℤ)) := by
  rw [liftPoly, Poly.toPoly_ofCoeffs, Poly.toPoly, ← listPoly_map]
  exact congrArg listPoly (List.map_congr_left fun c _ => ofCoeffs_one_cast c)

theorem liftPoly_map (p : Poly ℤ) (z : ℂ) : (liftPoly p).toPoly.map (evalAt z) = overC p.toPoly := by
  rw [liftPoly_toPoly, Polynomial.map_map, evalAt_comp_int]; rfl

theorem liftPoly_natDegree (p : Poly ℤ) : (liftPoly p).toPoly.natDegree = p.toPoly.natDegree := by
  rw [liftPoly_toPoly, natDegree_map_eq_of_injective cast_injective]

theorem liftPoly_ne_zero {p : Poly ℤ} (h : p.toPoly ≠ 0) : (liftPoly p).toPoly ≠ 0 := by
  rw [liftPoly_toPoly]; exact (Polynomial.map_ne_zero_iff cast_injective).mpr h

theorem addCoeff_nested (p : Poly (Poly ℤ)) (c : Poly ℤ) : (p.addCoeff c).toPoly = p.toPoly + C c :=
  (Poly.addCoeff_trivial rfl p c rfl rfl).1

/-- the inner variable. -/
def innerZ : Poly ℤ := Poly.ofCoeffs [0, 1]

theorem evalAt_innerZ (z : ℂ) : evalAt z innerZ = z := by
  rw [evalAt_apply, innerZ, Poly.toPoly_ofCoeffs]; simp

theorem addEvalPoint_toPoly : addEvalPoint.toPoly = C innerZ - X := by
  rw [addEvalPoint, Poly.toPoly_ofCoeffs, ofCoeffs_one_cast]
  simp [innerZ]; ring

theorem evalAtAddPoint_toPoly (p : Poly ℤ) :
    (evalAtAddPoint p).toPoly = (p.toPoly.map (Int.castRingHom (Poly ℤ))).comp (C innerZ - X) := by
  unfold evalAtAddPoint Poly.evalGeneric
  have h : ∀ (l : List ℤ) (acc : Poly (Poly ℤ)),
      (l.reverse.foldl (fun acc (c : ℤ) => (acc * addEvalPoint).addCoeff (Poly.ofCoeffs [c])) acc).toPoly =
      acc.toPoly * (C innerZ - X) ^ l.length +
        ((listPoly l).map (Int.castRingHom (Poly ℤ))).comp (C innerZ - X) := by
    intro l
    induction l with
    | nil => intro acc; simp
    | cons a l ih =>
      intro acc
      rw [List.reverse_cons, List.foldl_append, List.foldl_cons, List.foldl_nil, addCoeff_nested,
        Poly.toPoly_mul, ih, addEvalPoint_toPoly, ofCoeffs_one_cast]
      simp [pow_succ]; ring
  rw [h, Poly.toPoly_zero, zero_mul, zero_add]; rfl

theorem natDegree_C_sub_X {R : Type} [CommRing R] [Nontrivial R] (c : R) : (C c - X : R[X]).natDegree = 1 := by
  rw [← neg_sub, natDegree_neg, natDegree_X_sub_C]

theorem evalAtAddPoint_natDegree (p : Poly ℤ) :
    (evalAtAddPoint p).toPoly.natDegree = p.toPoly.natDegree := by
  rw [evalAtAddPoint_toPoly, natDegree_comp, natDegree_C_sub_X, mul_one,
    natDegree_map_eq_of_injective cast_injective]

theorem evalAtAddPoint_map (p : Poly ℤ) (z : ℂ) :
    (evalAtAddPoint p).toPoly.map (evalAt z) = (overC p.toPoly).comp (C z - X) := by
  rw [evalAtAddPoint_toPoly, map_comp, Polynomial.map_map, evalAt_comp_int, Polynomial.map_sub,
    map_C, map_X, evalAt_innerZ]; rfl

theorem evalAtAddPoint_ne_zero {p : Poly ℤ} (h : p.toPoly ≠ 0) : (evalAtAddPoint p).toPoly ≠ 0 := by
  intro e
  have := evalAtAddPoint_map p 0
  rw [e, Polynomial.map_zero] at this
  have h2 := congrArg (fun t => t.comp (C 0 - X : ℂ[X])) this
  simp only [zero_comp, comp_assoc, sub_comp, C_comp, X_comp] at h2
  rw [sub_sub_cancel, comp_X] at h2
  exact overC_ne_zero h h2.symm

theorem addResultant_exists (p q : Poly ℤ) (hp : p.toPoly ≠ 0) (hq : q.toPoly ≠ 0) :
    ∃ R, addResultant p q = some R :=
  ⟨_, C22_resultant_sylvester _ _ (liftPoly_ne_zero hp) (evalAtAddPoint_ne_zero hq)⟩

/-- the roots of the resultant of an addition are the sums of roots. -/
theorem addResultant_root (p q R : Poly ℤ) (hp : p.toPoly ≠ 0) (hq : q.toPoly ≠ 0)
    (hR : addResultant p q = some R) (z : ℂ) :
    aeval z R.toPoly = 0 ↔ ∃ x y : ℂ, aeval x p.toPoly = 0 ∧ aeval y q.toPoly = 0 ∧ z = x + y := by
  rw [resultant_root _ _ R (liftPoly_ne_zero hp) (evalAtAddPoint_ne_zero hq) hR z
    (by rw [liftPoly_map, overC_natDegree, liftPoly_natDegree])
    (by rw [evalAtAddPoint_map, natDegree_comp, natDegree_C_sub_X, mul_one, overC_natDegree,
      evalAtAddPoint_natDegree])
    (by rw [liftPoly_map]; exact overC_ne_zero hp), liftPoly_map, evalAtAddPoint_map]
  simp only [eval_comp, overC_eval, eval_sub, eval_C, eval_X]
  constructor
  · rintro ⟨w, h1, h2⟩
    exact ⟨w, z - w, h1, h2, by ring⟩
  · rintro ⟨x, y, h1, h2, rfl⟩
    exact ⟨x, h1, by rwa [add_sub_cancel_left]⟩

theorem croots_finite (p : ℤ[X]) (hp : p ≠ 0) : {x : ℂ | aeval x p = 0}.Finite := by
  refine (p.rootSet_finite ℂ).subset ?_
  intro x hx
  rw [mem_rootSet]
  exact ⟨hp, hx⟩

theorem ne_zero_of_finite_roots (R : ℤ[X]) (h : {z : ℂ | aeval z R = 0}.Finite) : R ≠ 0 := by
  rintro rfl
  simp only [map_zero] at h
  exact Set.infinite_univ (h.subset fun _ _ => trivial)

theorem addResultant_ne_zero (p q R : Poly ℤ) (hp : p.toPoly ≠ 0) (hq : q.toPoly ≠ 0)
    (hR : addResultant p q = some R) : R.toPoly ≠ 0 := by
  apply ne_zero_of_finite_roots
  refine (Set.Finite.image2 (fun x y => x + y) (croots_finite _ hp) (croots_finite _ hq)).subset ?_
  intro z hz
  obtain ⟨x, y, h1, h2, rfl⟩ := (addResultant_root p q R hp hq hR z).mp hz
  exact ⟨x, h1, y, h2, rfl⟩

/-! ### multiplication -/

theorem eval_reverse_list (l : List ℂ) (w : ℂ) (hw : w ≠ 0) :
    w * (listPoly l.reverse).eval w = w ^ l.length * (listPoly l).eval w⁻¹ := by
  induction l with
  | nil => simp
  | cons a l ih =>
    rw [List.reverse_cons, listPoly_append, eval_add, mul_add, ih]
    simp [pow_succ]
    field_simp
    ring

theorem eval_mapIdx (z u : ℂ) (l : List ℤ) : ∀ (k : ℕ),
    (listPoly (l.mapIdx fun (i : ℕ) (c : ℤ) => (c : ℂ) * z ^ (i + k))).eval u =
      z ^ k * ((listPoly l).map (Int.castRingHom ℂ)).eval (u * z) := by
  induction l with
  | nil => intro k; simp
  | cons a l ih =>
    intro k
    rw [List.mapIdx_cons]
    have e : (fun (i : ℕ) (c : ℤ) => (c : ℂ) * z ^ (i + 1 + k)) =
        fun (i : ℕ) (c : ℤ) => (c : ℂ) * z ^ (i + (k + 1)) := by
      funext i c; congr 2; omega
    simp only [listPoly_cons, eval_add, eval_mul, eval_C, eval_X, zero_add, e, ih,
      Polynomial.map_add, Polynomial.map_mul, map_C, map_X]
    simp; ring

theorem evalAt_makeMonomial (z : ℂ) (c : ℤ) (i : ℕ) :
    evalAt z (Poly.makeMonomial c i) = (c : ℂ) * z ^ i := by
  rw [evalAt_apply, Poly.toPoly_makeMonomial, aeval_monomial]; simp

theorem mulPoly_map_list (p : Poly ℤ) (z : ℂ) : (mulPoly p).toPoly.map (evalAt z) =
    listPoly (p.coeffs.mapIdx fun (i : ℕ) (c : ℤ) => (c : ℂ) * z ^ i).reverse := by
  rw [mulPoly, Poly.toPoly_ofCoeffs, ← listPoly_map, List.map_reverse]
  congr 2
  apply List.ext_getElem?
  intro i
  simp only [List.getElem?_map, List.getElem?_mapIdx, Option.map_map]
  cases p.coeffs[i]? with
  | none => rfl
  | some c => exact congrArg some (evalAt_makeMonomial z c i)

theorem mapIdx_reverse_leading {S : Type} [CommRing S] (f : ℕ → ℤ → S) (a : ℤ) (l : List ℤ)
    (h : f 0 a ≠ 0) :
    (listPoly ((a :: l).mapIdx f).reverse).natDegree = l.length ∧
      listPoly ((a :: l).mapIdx f).reverse ≠ 0 := by
  have hne : ((a :: l).mapIdx f).reverse ≠ [] := by simp
  have hl : ((a :: l).mapIdx f).reverse.getLast hne = f 0 a := by simp
  have h2 := listPoly_leading _ hne (by rw [hl]; exact h)
  refine ⟨?_, listPoly_ne_zero _ hne (by rw [hl]; exact h)⟩
  rw [h2.1]; simp

theorem coeffs_cons (p : Poly ℤ) (h : p.toPoly.coeff 0 ≠ 0) :
    ∃ a l, p.coeffs = a :: l ∧ a ≠ 0 := by
  rw [Poly.toPoly, listPoly_coeff] at h
  cases hc : p.coeffs with
  | nil => rw [hc] at h; simp at h
  | cons a l => rw [hc] at h; exact ⟨a, l, rfl, by simpa using h⟩

theorem mulPoly_degrees (p : Poly ℤ) (h : p.toPoly.coeff 0 ≠ 0) (z : ℂ) :
    (mulPoly p).toPoly ≠ 0 ∧ (mulPoly p).toPoly.map (evalAt z) ≠ 0 ∧
      ((mulPoly p).toPoly.map (evalAt z)).natDegree = (mulPoly p).toPoly.natDegree := by
  obtain ⟨a, l, hc, ha⟩ := coeffs_cons p h
  have h1 := mapIdx_reverse_leading (fun (i : ℕ) (c : ℤ) => Poly.makeMonomial c i) a l (by
    intro e
    have := congrArg Poly.toPoly e
    rw [Poly.toPoly_makeMonomial, Poly.toPoly_zero, monomial_eq_zero_iff] at this
    exact ha this)
  have h2 := mapIdx_reverse_leading (fun (i : ℕ) (c : ℤ) => (c : ℂ) * z ^ i) a l (by simpa using ha)
  rw [← hc] at h1 h2
  rw [mulPoly_map_list]
  rw [mulPoly, Poly.toPoly_ofCoeffs]
  exact ⟨h1.2, h2.2, by rw [h1.1, h2.1]⟩

theorem mulPoly_eval (p : Poly ℤ) (z w : ℂ) (hw : w ≠ 0) :
    ((mulPoly p).toPoly.map (evalAt z)).eval w = 0 ↔ aeval (z / w) p.toPoly = 0 := by
  have h := eval_reverse_list (p.coeffs.mapIdx fun (i : ℕ) (c : ℤ) => (c : ℂ) * z ^ i) w hw
  have h2 := eval_mapIdx z w⁻¹ p.coeffs 0
  simp only [add_zero, pow_zero, one_mul] at h2
  rw [h2, ← mulPoly_map_list, mul_comm w⁻¹ z, ← div_eq_mul_inv] at h
  have h3 : (map (Int.castRingHom ℂ) (listPoly p.coeffs)).eval (z / w) = aeval (z / w) p.toPoly :=
    overC_eval p.toPoly (z / w)
  rw [h3] at h
  have hw' : w ^ (p.coeffs.mapIdx fun (i : ℕ) (c : ℤ) => (c : ℂ) * z ^ i).length ≠ 0 := pow_ne_zero _ hw
  constructor
  · intro e
    rw [e, mul_zero] at h
    exact (mul_eq_zero.mp h.symm).resolve_left hw'
  · intro e
    rw [e, mul_zero] at h
    exact (mul_eq_zero.mp h).resolve_left hw

theorem root_ne_zero {p : ℤ[X]} (h : p.coeff 0 ≠ 0) {w : ℂ} (hw : aeval w p = 0) : w ≠ 0 := by
  rintro rfl
  apply h
  rw [aeval_def, eval₂_at_zero] at hw
  simpa using hw

theorem ne_zero_of_coeff {p : ℤ[X]} (h : p.coeff 0 ≠ 0) : p ≠ 0 := by
  rintro rfl; simp at h

theorem mulResultant_exists (p q : Poly ℤ) (hp : p.toPoly.coeff 0 ≠ 0) (hq : q.toPoly.coeff 0 ≠ 0) :
    ∃ R, mulResultant p q = some R :=
  ⟨_, C22_resultant_sylvester _ _ (mulPoly_degrees p hp 0).1 (liftPoly_ne_zero (ne_zero_of_coeff hq))⟩

/-- the roots of the resultant of a multiplication are the products of roots. -/
theorem mulResultant_root (p q R : Poly ℤ) (hp : p.toPoly.coeff 0 ≠ 0) (hq : q.toPoly.coeff 0 ≠ 0)
    (hR : mulResultant p q = some R) (z : ℂ) :
    aeval z R.toPoly = 0 ↔ ∃ x y : ℂ, aeval x p.toPoly = 0 ∧ aeval y q.toPoly = 0 ∧ z = x * y := by
  have hd := mulPoly_degrees p hp z
  rw [resultant_root _ _ R hd.1 (liftPoly_ne_zero (ne_zero_of_coeff hq)) hR z hd.2.2
    (by rw [liftPoly_map, overC_natDegree, liftPoly_natDegree]) hd.2.1, liftPoly_map]
  simp only [overC_eval]
  constructor
  · rintro ⟨w, h1, h2⟩
    have hw := root_ne_zero hq h2
    exact ⟨z / w, w, (mulPoly_eval p z w hw).mp h1, h2, by field_simp⟩
  · rintro ⟨x, y, h1, h2, rfl⟩
    have hw := root_ne_zero hq h2
    refine ⟨y, (mulPoly_eval p (x * y) y hw).mpr ?_, h2⟩
    rwa [mul_div_cancel_right₀ _ hw]

theorem mulResultant_ne_zero (p q R : Poly ℤ) (hp : p.toPoly.coeff 0 ≠ 0)
    (hq : q.toPoly.coeff 0 ≠ 0) (hR : mulResultant p q = some R) : R.toPoly ≠ 0 := by
  apply ne_zero_of_finite_roots
  refine (Set.Finite.image2 (fun x y => x * y) (croots_finite _ (ne_zero_of_coeff hp))
    (croots_finite _ (ne_zero_of_coeff hq))).subset ?_
  intro z hz
  obtain ⟨x, y, h1, h2, rfl⟩ := (mulResultant_root p q R hp hq hR z).mp hz
  exact ⟨x, h1, y, h2, rfl⟩

/-! ### powers -/

theorem powArg_toPoly (n d : ℕ) :
    ((Poly.makeMonomial (-1 : Poly ℤ) n).addCoeff (Poly.makeMonomial (1 : ℤ) d)).toPoly =
      C (Poly.makeMonomial (1 : ℤ) d) - X ^ n := by
  rw [addCoeff_nested, Poly.toPoly_makeMonomial, ← C_mul_X_pow_eq_monomial, C_neg, C_1]; ring

theorem natDegree_C_sub_X_pow {R : Type} [CommRing R] [Nontrivial R] (c : R) (n : ℕ) (hn : 0 < n) :
    (C c - X ^ n : R[X]).natDegree = n ∧ (C c - X ^ n : R[X]) ≠ 0 := by
  have h : (C c - X ^ n : R[X]).natDegree = n := by
    rw [← neg_sub, natDegree_neg, natDegree_X_pow_sub_C]
  refine ⟨h, ?_⟩
  intro e
  rw [e, natDegree_zero] at h
  omega

theorem powArg_map (n d : ℕ) (z : ℂ) :
    ((Poly.makeMonomial (-1 : Poly ℤ) n).addCoeff (Poly.makeMonomial (1 : ℤ) d)).toPoly.map (evalAt z) =
      C (z ^ d) - X ^ n := by
  rw [powArg_toPoly, Polynomial.map_sub, map_C, Polynomial.map_pow, map_X, evalAt_makeMonomial]; simp

theorem powResultant_exists (p : Poly ℤ) (n d : ℕ) (hn : 0 < n) (hp : p.toPoly ≠ 0) :
    ∃ R, powResultant p n d = some R :=
  ⟨_, C22_resultant_sylvester _ _ (liftPoly_ne_zero hp)
    (by rw [powArg_toPoly]; exact (natDegree_C_sub_X_pow _ n hn).2)⟩

/-- the roots of the resultant of a power are the numbers whose `d`-th power is the `n`-th power of a
root. -/
theorem powResultant_root (p R : Poly ℤ) (n d : ℕ) (hn : 0 < n) (hp : p.toPoly ≠ 0)
    (hR : powResultant p n d = some R) (z : ℂ) :
    aeval z R.toPoly = 0 ↔ ∃ x : ℂ, aeval x p.toPoly = 0 ∧ z ^ d = x ^ n := by
  rw [resultant_root _ _ R (liftPoly_ne_zero hp)
    (by rw [powArg_toPoly]; exact (natDegree_C_sub_X_pow _ n hn).2) hR z
    (by rw [liftPoly_map, overC_natDegree, liftPoly_natDegree])
    (by rw [powArg_map, powArg_toPoly, (natDegree_C_sub_X_pow _ n hn).1, (natDegree_C_sub_X_pow _ n hn).1])
    (by rw [liftPoly_map]; exact overC_ne_zero hp), liftPoly_map, powArg_map]
  simp only [overC_eval, eval_sub, eval_C, eval_pow, eval_X, sub_eq_zero]

theorem powResultant_ne_zero (p R : Poly ℤ) (n d : ℕ) (hn : 0 < n) (hd : 0 < d) (hp : p.toPoly ≠ 0)
    (hR : powResultant p n d = some R) : R.toPoly ≠ 0 := by
  apply ne_zero_of_finite_roots
  have hfin : ∀ c : ℂ, {z : ℂ | z ^ d = c}.Finite := by
    intro c
    have h0 : (X ^ d - C c : ℂ[X]) ≠ 0 := X_pow_sub_C_ne_zero hd c
    refine ((X ^ d - C c : ℂ[X]).roots.toFinset.finite_toSet).subset ?_
    intro z hz
    rw [Set.mem_ofPred_eq] at hz
    simp only [Finset.mem_coe, Multiset.mem_toFinset]
    rw [mem_roots h0, IsRoot.def, eval_sub, eval_pow, eval_X, eval_C, hz, sub_self]
  refine ((croots_finite _ hp).biUnion (fun x _ => hfin (x ^ n))).subset ?_
  intro z hz
  obtain ⟨x, h1, h2⟩ := (powResultant_root p R n d hn hp hR z).mp hz
  exact Set.mem_biUnion h1 h2

end RealAlg

end Algebraics
