import Verif.Lemmas.Factor
import Verif.Lemmas.FactorLift
import Verif.Lemmas.Mignotte

/-!
# Lemmas about factoring integer polynomials: the factors are irreducible
-/

set_option linter.unusedSectionVars false

namespace Algebraics
namespace Poly

open Polynomial

/-! ## Symmetric representatives -/

theorem symmetric_cast {M : ℕ} [NeZero M] (x : ZMod M) : ((symmetric x : ℤ) : ZMod M) = x := by
  unfold symmetric
  by_cases h : M / 2 < x.val
  · rw [if_pos h]; push_cast; simp
  · rw [if_neg h]; simp

theorem symmetric_intCast {M : ℕ} [NeZero M] (z : ℤ) (h : 2 * |z| < M) : symmetric (z : ZMod M) = z := by
  have hM : (0 : ℤ) < M := by exact_mod_cast Nat.pos_of_ne_zero (NeZero.ne M)
  have hv : (((z : ZMod M).val : ℕ) : ℤ) = z % M := ZMod.val_intCast z
  have habs := abs_lt.mp (show |z| < (M : ℤ) by have := abs_nonneg z; omega)
  unfold symmetric
  by_cases hz : 0 ≤ z
  · rw [abs_of_nonneg hz] at h
    rw [Int.emod_eq_of_lt hz (by omega)] at hv
    rw [if_neg (by omega)]; exact hv
  · rw [abs_of_neg (by omega)] at h
    have h2 : z % M = z + M := by
      rw [← Int.add_mul_emod_self_left z M 1, mul_one, Int.emod_eq_of_lt (by omega) (by omega)]
    rw [h2] at hv
    rw [if_pos (by omega)]; omega

/-! ## Sublists by indices -/

theorem indices_of_perm {α : Type} [Inhabited α] (E A B : List α) (h : E.Perm (A ++ B)) :
    ∃ T : List ℕ, T.Pairwise (· < ·) ∧ (∀ i ∈ T, i < E.length) ∧ T.length = A.length ∧
      (T.map fun i => E.getD i default).Perm A := by
  have hs : A.Subperm E := (List.sublist_append_left A B).subperm.trans h.symm.subperm
  obtain ⟨A', h1, h2⟩ := hs
  obtain ⟨is, h3, h4⟩ := List.sublist_eq_map_getElem h2
  have h5 : (is.map Fin.val).map (fun i => E.getD i default) = A' := by
    rw [h3, List.map_map]
    apply List.map_congr_left
    intro i _
    simp
  refine ⟨is.map Fin.val, ?_, ?_, ?_, ?_⟩
  · rw [List.pairwise_map]
    exact h4
  · intro i hi
    obtain ⟨j, -, rfl⟩ := List.mem_map.mp hi
    exact j.2
  · rw [← h1.length_eq, ← h5]; simp
  · rw [h5]; exact h1

/-! ## The state of the search -/

section

variable {p e : ℕ} [Fact p.Prime] (he : e ≠ 0)

/-- the integer polynomial is, up to a unit, the product of the modular factors -/
structure St (I : ℤ[X]) (E : List (Poly (ZMod (p ^ e)))) : Prop where
  pp : PP I
  lead : IsUnit ((I.leadingCoeff : ℤ) : ZMod (p ^ e))
  unit : ∀ a ∈ E, IsUnit a.toPoly.leadingCoeff
  irr : ∀ a ∈ E, Irreducible (a.toPoly.map (redp he))
  sq : Squarefree (E.map fun a => a.toPoly.map (redp he)).prod
  assoc : ∃ c, IsUnit c ∧ I.map (Int.castRingHom (ZMod (p ^ e))) = C c * (E.map toPoly).prod

/-- the factor that a list of modular factors stands for -/
def For (A : List (Poly (ZMod (p ^ e)))) (g : ℤ[X]) : Prop :=
  ∃ u, IsUnit u ∧ (A.map toPoly).prod = C u * g.map (Int.castRingHom (ZMod (p ^ e)))

theorem cancel_unit {R : Type} [CommRing R] (a b : R[X]) (h : a * b = 0) (hb : IsUnit b.leadingCoeff) :
    a = 0 := by
  by_contra ha
  have h0 : a.leadingCoeff * b.leadingCoeff ≠ 0 := fun h0 =>
    ha (leadingCoeff_eq_zero.mp ((hb.mul_left_eq_zero).mp h0))
  have := leadingCoeff_mul' h0
  rw [h, leadingCoeff_zero] at this
  exact h0 this.symm

include he in
theorem cast_lead (g : ℤ[X]) (h : IsUnit ((g.leadingCoeff : ℤ) : ZMod (p ^ e))) :
    (g.map (Int.castRingHom (ZMod (p ^ e)))).natDegree = g.natDegree ∧
    (g.map (Int.castRingHom (ZMod (p ^ e)))).leadingCoeff = ((g.leadingCoeff : ℤ) : ZMod (p ^ e)) := by
  have := nontriv (p := p) he
  have h1 : Int.castRingHom (ZMod (p ^ e)) g.leadingCoeff ≠ 0 := h.ne_zero
  exact ⟨natDegree_map_of_leadingCoeff_ne_zero _ h1, leadingCoeff_map_of_leadingCoeff_ne_zero _ h1⟩

theorem lead_mul {I g h : ℤ[X]} (hu : IsUnit ((I.leadingCoeff : ℤ) : ZMod (p ^ e))) (hI : I = g * h) :
    IsUnit ((g.leadingCoeff : ℤ) : ZMod (p ^ e)) ∧ IsUnit ((h.leadingCoeff : ℤ) : ZMod (p ^ e)) := by
  rw [hI, leadingCoeff_mul, Int.cast_mul] at hu
  exact ⟨isUnit_of_mul_isUnit_left hu, isUnit_of_mul_isUnit_right hu⟩

variable {he}

theorem St.prod_unit {I : ℤ[X]} {E : List (Poly (ZMod (p ^ e)))} (h : St he I E)
    (A B : List (Poly (ZMod (p ^ e)))) (hp : E.Perm (A ++ B)) :
    (∀ a ∈ A, IsUnit a.toPoly.leadingCoeff) ∧ IsUnit (A.map toPoly).prod.leadingCoeff := by
  have := nontriv (p := p) he
  have h1 : ∀ a ∈ A, IsUnit a.toPoly.leadingCoeff := fun a ha => h.unit a (hp.mem_iff.mpr (by simp [ha]))
  refine ⟨h1, (prod_lead _ ?_).2⟩
  intro a ha
  obtain ⟨b, hb, rfl⟩ := List.mem_map.mp ha
  exact h1 b hb

/-- every factorization of the integer polynomial splits the list of the modular factors -/
theorem St.split {I : ℤ[X]} {E : List (Poly (ZMod (p ^ e)))} (h : St he I E) (g k : ℤ[X])
    (hI : I = g * k) : ∃ A B, E.Perm (A ++ B) ∧ For A g ∧ For B k := by
  obtain ⟨c, hc, hp⟩ := h.assoc
  obtain ⟨hg, hk⟩ := lead_mul h.lead hI
  have hsq : Squarefree ((E.map toPoly).map (Polynomial.map (redp he))).prod := by
    rw [List.map_map]; exact h.sq
  obtain ⟨A, B, h1, h2, h3⟩ := split_lifted he (E.map toPoly)
    (by intro a ha; obtain ⟨b, hb, rfl⟩ := List.mem_map.mp ha; exact h.unit b hb)
    (by intro a ha; obtain ⟨b, hb, rfl⟩ := List.mem_map.mp ha; exact h.irr b hb)
    hsq (g.map (Int.castRingHom (ZMod (p ^ e)))) (k.map (Int.castRingHom (ZMod (p ^ e)))) c hc
    (by rw [← Polynomial.map_mul, ← hI, hp])
    (by rw [(cast_lead he g hg).2]; exact hg) (by rw [(cast_lead he k hk).2]; exact hk)
  have hb : ∀ l : List (ZMod (p ^ e))[X], (l.map (toPolyEquiv (T := ZMod (p ^ e))).symm).map toPoly = l := by
    intro l
    rw [List.map_map]
    conv_rhs => rw [← List.map_id l]
    apply List.map_congr_left
    intro a _
    exact (toPolyEquiv (T := ZMod (p ^ e))).apply_symm_apply a
  have hb2 : (E.map toPoly).map (toPolyEquiv (T := ZMod (p ^ e))).symm = E := by
    rw [List.map_map]
    conv_rhs => rw [← List.map_id E]
    apply List.map_congr_left
    intro a _
    exact (toPolyEquiv (T := ZMod (p ^ e))).symm_apply_apply a
  refine ⟨A.map (toPolyEquiv (T := ZMod (p ^ e))).symm, B.map (toPolyEquiv (T := ZMod (p ^ e))).symm, ?_, ?_, ?_⟩
  · rw [← List.map_append]
    have := h1.map (toPolyEquiv (T := ZMod (p ^ e))).symm
    rwa [hb2] at this
  · unfold For; rw [hb]; exact h2
  · unfold For; rw [hb]; exact h3

/-- dividing off a factor -/
theorem St.sub {I : ℤ[X]} {E : List (Poly (ZMod (p ^ e)))} (h : St he I E) (I' c : ℤ[X]) (hI : I = I' * c)
    (hpI' : PP I') (hpc : PP c) (T E' : List (Poly (ZMod (p ^ e)))) (hE : E.Perm (T ++ E')) (hT : For T c) :
    St he I' E' ∧ St he c T := by
  obtain ⟨u, hu, hTu⟩ := hT
  obtain ⟨d, hd, hp⟩ := h.assoc
  obtain ⟨hl1, hl2⟩ := lead_mul h.lead hI
  have hsq := h.sq
  rw [(hE.map _).prod_eq, List.map_append, List.prod_append] at hsq
  refine ⟨⟨hpI', hl1, fun a ha => h.unit a (hE.mem_iff.mpr (by simp [ha])),
    fun a ha => h.irr a (hE.mem_iff.mpr (by simp [ha])), hsq.squarefree_of_dvd (Dvd.intro_left _ rfl), ?_⟩,
    ⟨hpc, hl2, fun a ha => h.unit a (hE.mem_iff.mpr (by simp [ha])),
    fun a ha => h.irr a (hE.mem_iff.mpr (by simp [ha])), hsq.squarefree_of_dvd (Dvd.intro _ rfl), ?_⟩⟩
  · refine ⟨d * u, hd.mul hu, ?_⟩
    rw [(hE.map _).prod_eq, List.map_append, List.prod_append, hTu, hI, Polynomial.map_mul] at hp
    rw [← sub_eq_zero]
    apply cancel_unit _ (c.map (Int.castRingHom (ZMod (p ^ e))))
    · rw [sub_mul, hp, C_mul]; ring
    · rw [(cast_lead he c hl2).2]; exact hl2
  · obtain ⟨u', rfl⟩ := hu
    refine ⟨(↑u'⁻¹ : ZMod (p ^ e)), Units.isUnit _, ?_⟩
    rw [hTu, ← mul_assoc, ← C_mul, Units.inv_mul, C_1, one_mul]

/-- a list that stands for a nonconstant factor is not empty -/
theorem For.ne_nil {A : List (Poly (ZMod (p ^ e)))} {g : ℤ[X]} (h : For A g)
    (hu : IsUnit ((g.leadingCoeff : ℤ) : ZMod (p ^ e))) (hd : g.natDegree ≠ 0) (he : e ≠ 0) : A ≠ [] := by
  rintro rfl
  obtain ⟨u, hu', h1⟩ := h
  have := nontriv (p := p) he
  have h2 := congrArg natDegree h1
  rw [List.map_nil, List.prod_nil, natDegree_one, natDegree_C_mul_of_isUnit hu', (cast_lead he g hu).1] at h2
  exact hd h2.symm

/-- and a list that is not empty stands for a nonconstant factor -/
theorem St.natDegree_ne {I : ℤ[X]} {E : List (Poly (ZMod (p ^ e)))} (h : St he I E) (hE : E ≠ []) :
    I.natDegree ≠ 0 := by
  have := nontriv (p := p) he
  obtain ⟨c, hc, hp⟩ := h.assoc
  intro h0
  have h1 := (cast_lead he I h.lead).1
  obtain ⟨a, E', rfl⟩ := List.exists_cons_of_ne_nil hE
  have ha := h.unit a (by simp)
  have hE' : IsUnit (E'.map toPoly).prod.leadingCoeff := by
    apply (prod_lead _ ?_).2
    intro b hb
    obtain ⟨b', hb', rfl⟩ := List.mem_map.mp hb
    exact h.unit b' (by simp [hb'])
  rw [hp, natDegree_C_mul_of_isUnit hc, List.map_cons, List.prod_cons,
    natDegree_mul' (ha.mul hE').ne_zero, h0] at h1
  have h2 := (h.irr a (by simp)).natDegree_pos
  rw [(map_lead he a.toPoly ha).1] at h2
  omega

end

end Poly
end Algebraics
