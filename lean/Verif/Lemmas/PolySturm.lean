import Verif.Model.PolySturm
import Verif.Lemmas.PolyGcd
import Verif.Lemmas.Sturm

/-!
# Sturm sequences of the polynomial model
-/

set_option linter.unusedSectionVars false

namespace Algebraics

open Polynomial PolyCoeff ExactDivCoeff Sturm

namespace Poly

variable {T : Type} [CommRing T] [PolyCoeff T] [DecidableEq T] [ExactDivCoeff T]

/-- what the remainder closures guarantee, over the reals -/
def RemOk (φ : T →+* ℝ) (remainder : Poly T → Poly T → Option (Poly T)) : Prop :=
  ∀ a b : Poly T, b.toPoly ≠ 0 → ∃ r, remainder a b = some r ∧
    (r.toPoly ≠ 0 → r.toPoly.natDegree < b.toPoly.natDegree) ∧
    ∃ c d : ℝ, 0 < c ∧ 0 < d ∧ ∃ q : ℝ[X], C c * a.toPoly.map φ =
      q * b.toPoly.map φ + C d * r.toPoly.map φ

theorem sturmLoop_spec (φ : T →+* ℝ) (hφ : Function.Injective φ)
    (remainder : Poly T → Poly T → Option (Poly T)) (hr : RemOk φ remainder) (k : ℕ) :
    ∀ a b : Poly T, b.toPoly ≠ 0 → b.toPoly.natDegree ≤ k →
      ∃ tl s, sturmLoop remainder k a b = some tl ∧
        RemSeq ((a :: b :: s).map fun p => p.toPoly.map φ) ∧ (tl = s ∨ tl = s ++ [0]) := by
  induction k with
  | zero =>
    intro a b hb hd
    refine ⟨[], [], rfl, ?_, Or.inl rfl⟩
    obtain ⟨c, -, hc⟩ := coeffs_const' b hb (by omega)
    have hc0 : φ c ≠ 0 := by
      intro h; rw [map_eq_zero_iff φ hφ] at h; rw [hc, h] at hb; simp at hb
    refine ⟨(Polynomial.map_ne_zero_iff hφ).mpr hb, ?_⟩
    show b.toPoly.map φ ∣ a.toPoly.map φ
    rw [hc, Polynomial.map_C]
    exact (isUnit_C.mpr hc0.isUnit).dvd
  | succ k ih =>
    intro a b hb hd
    obtain ⟨r, h1, h2, c, d, hc, hd', q, hq⟩ := hr a b hb
    unfold sturmLoop
    rw [if_neg (by rwa [isZero_iff]), h1]
    simp only
    by_cases hr0 : r.toPoly = 0
    · have hrz : -r = 0 := by
        apply toPoly_injective; rw [toPoly_neg, hr0, toPoly_zero, neg_zero]
      have : sturmLoop remainder k b (-r) = some [] := by
        cases k with
        | zero => rfl
        | succ k =>
          unfold sturmLoop
          rw [if_pos]
          rw [hrz, isZero_iff, toPoly_zero]
      rw [this]
      refine ⟨[-r], [], rfl, ?_, Or.inr (by rw [hrz]; rfl)⟩
      refine ⟨(Polynomial.map_ne_zero_iff hφ).mpr hb, ?_⟩
      rw [hr0, Polynomial.map_zero, mul_zero, add_zero] at hq
      exact (isUnit_C.mpr hc.ne'.isUnit).dvd_mul_left.mp (hq ▸ Dvd.intro_left _ rfl)
    · have hn : (-r).toPoly ≠ 0 := by rw [toPoly_neg]; exact neg_ne_zero.mpr hr0
      obtain ⟨tl, s, h3, h4, h5⟩ := ih b (-r) hn (by
        rw [toPoly_neg, natDegree_neg]; have := h2 hr0; omega)
      rw [h3]
      refine ⟨-r :: tl, -r :: s, rfl, ⟨⟨c, d, hc, hd', q, ?_⟩, h4⟩, ?_⟩
      · show C c * a.toPoly.map φ = q * b.toPoly.map φ - C d * (-r).toPoly.map φ
        rw [hq, toPoly_neg, Polynomial.map_neg]; ring
      · rcases h5 with rfl | rfl
        · exact Or.inl rfl
        · exact Or.inr rfl
where
  coeffs_const' (v : Poly T) (h0 : v.toPoly ≠ 0) (h : v.toPoly.natDegree = 0) :
      ∃ c, v.coeffs = [c] ∧ v.toPoly = C c := by
    have hl := len_of_ne v h0
    rw [h, len_eq] at hl
    obtain ⟨c, hc⟩ := List.length_eq_one_iff.mp hl
    exact ⟨c, hc, by rw [toPoly, hc]; simp⟩

/-- Sturm's theorem for the sequences the code builds -/
theorem genericSturm_spec [CharZero T] [IsDomain T] (φ : T →+* ℝ) (hφ : Function.Injective φ)
    (deriv : Poly T → Option (Poly T)) (remainder : Poly T → Poly T → Option (Poly T))
    (hr : RemOk φ remainder)
    (hdv : ∀ p : Poly T, ∃ d, deriv p = some d ∧ ∃ c : ℝ, 0 < c ∧
      d.toPoly.map φ = C c * Polynomial.derivative (p.toPoly.map φ))
    (p : Poly T) (hp : p.toPoly ≠ 0) :
    ∃ l, genericSturm deriv remainder p = some l ∧ l.head? = some p ∧
      ∀ a b : ℝ, a ≤ b →
        (p.toPoly.eval₂ φ a ≠ 0 ∨ (Polynomial.derivative p.toPoly).eval₂ φ a ≠ 0) →
        (p.toPoly.eval₂ φ b ≠ 0 ∨ (Polynomial.derivative p.toPoly).eval₂ φ b ≠ 0) →
        signChanges (l.map fun s => s.toPoly.eval₂ φ a) =
          signChanges (l.map fun s => s.toPoly.eval₂ φ b) +
            {x : ℝ | a < x ∧ x ≤ b ∧ p.toPoly.eval₂ φ x = 0}.ncard := by
  have hp' : p.toPoly.map φ ≠ 0 := (Polynomial.map_ne_zero_iff hφ).mpr hp
  have hset : ∀ a b : ℝ, {x : ℝ | a < x ∧ x ≤ b ∧ p.toPoly.eval₂ φ x = 0}.ncard =
      ((p.toPoly.map φ).roots.toFinset.filter (fun x => a < x ∧ x ≤ b)).card := by
    intro a b
    rw [← Set.ncard_coe_finset]
    congr 1
    ext x
    simp only [Set.mem_ofPred_eq, Finset.coe_filter, Multiset.mem_toFinset, mem_roots', IsRoot.def,
      eval_map]
    tauto
  have hlen := len_of_ne p hp
  unfold genericSturm
  by_cases hdeg : p.toPoly.natDegree = 0
  · rw [show p.len = 1 by omega]
    refine ⟨[p], rfl, rfl, ?_⟩
    intro a b _ _ _
    rw [hset]
    obtain ⟨c, hc⟩ := natDegree_eq_zero.mp hdeg
    have : (p.toPoly.map φ).roots = 0 := by rw [← hc, Polynomial.map_C, roots_C]
    rw [this]
    simp [signChanges_single]
  · obtain ⟨n, hn⟩ : ∃ n, p.toPoly.natDegree = n + 1 := ⟨p.toPoly.natDegree - 1, by omega⟩
    rw [show p.len = n + 2 by omega]
    simp only
    obtain ⟨d, h1, c, hc, h2⟩ := hdv p
    rw [h1]
    simp only
    have hdm : d.toPoly.map φ = C c * Polynomial.derivative (p.toPoly.map φ) := h2
    have hder : Polynomial.derivative (p.toPoly.map φ) ≠ 0 := by
      rw [Ne, derivative_eq_zero, natDegree_map_eq_of_injective hφ]; exact hdeg
    have hd0 : d.toPoly ≠ 0 := by
      rw [← Polynomial.map_ne_zero_iff hφ, hdm]
      exact mul_ne_zero (by simpa using hc.ne') hder
    have hdd : d.toPoly.natDegree ≤ n := by
      rw [← natDegree_map_eq_of_injective hφ, hdm, natDegree_C_mul hc.ne']
      have := natDegree_derivative_le (p.toPoly.map φ)
      rw [natDegree_map_eq_of_injective hφ] at this
      omega
    obtain ⟨tl, s, h3, h4, h5⟩ := sturmLoop_spec φ hφ remainder hr n p d hd0 hdd
    rw [h3]
    refine ⟨p :: d :: tl, rfl, rfl, ?_⟩
    intro a b hab ha hb
    rw [hset]
    have hmain := sturm (p.toPoly.map φ) (d.toPoly.map φ) (s.map fun p : Poly T => p.toPoly.map φ) hp' c hc hdm
      h4 a b hab (by rw [derivative_map, eval_map, eval_map]; exact ha)
      (by rw [derivative_map, eval_map, eval_map]; exact hb)
    have hl : ∀ x : ℝ, signChanges ((p :: d :: tl).map fun s => s.toPoly.eval₂ φ x) =
        signChanges ((p.toPoly.map φ :: d.toPoly.map φ :: s.map fun p : Poly T => p.toPoly.map φ).map (Polynomial.eval x)) := by
      intro x
      have e : ((p.toPoly.map φ :: d.toPoly.map φ :: s.map fun p : Poly T => p.toPoly.map φ).map (Polynomial.eval x)) =
          (p :: d :: s).map fun s => s.toPoly.eval₂ φ x := by
        simp [eval_map, Function.comp_def]
      rw [e]
      rcases h5 with rfl | rfl
      · rfl
      · rw [← List.cons_append, ← List.cons_append, List.map_append]
        simp only [List.map_cons, List.map_nil, toPoly_zero, eval₂_zero]
        rw [signChanges_append_zero]
    rw [hl a, hl b]
    exact hmain

/-! ### the plain sequence over the rationals -/

theorem rem_ok_rat : RemOk (algebraMap ℚ ℝ) (fun a b : Poly ℚ => a.rem b) := by
  intro a b hb
  obtain ⟨q, r, -, -, h1, h2, h3⟩ := divRem_field a b hb
  refine ⟨r, h1, fun h => natDegree_lt_natDegree h h3, 1, 1, one_pos, one_pos,
    q.toPoly.map (algebraMap ℚ ℝ), ?_⟩
  rw [h2]
  simp

/-! ### the primitive sequence over the integers -/

theorem divCoeff_content (p : Poly ℤ) (hp : p.toPoly ≠ 0) :
    ∃ c r, p.nonzeroContent intGcd = some c ∧ c ≠ 0 ∧ p.divCoeff c = some r ∧
      p.divCoeff (-c) = some (-r) ∧ p.toPoly = r.toPoly * C c := by
  obtain ⟨-, h2, -⟩ := content_spec p
  obtain ⟨h3, h4, -⟩ := h2 hp
  obtain ⟨r, h5, h6⟩ := primitivePart_spec p
  refine ⟨_, r, h3, h4, divCoeff_complete _ _ _ h4 h6, divCoeff_complete _ _ _ (neg_ne_zero.mpr h4) ?_, h6⟩
  rw [toPoly_neg, C_neg, h6]; ring

theorem primitiveDerivative_ok (p : Poly ℤ) :
    ∃ d, primitiveDerivative intGcd p = some d ∧ ∃ c : ℝ, 0 < c ∧
      d.toPoly.map (Int.castRingHom ℝ) =
        C c * Polynomial.derivative (p.toPoly.map (Int.castRingHom ℝ)) := by
  unfold primitiveDerivative
  rw [derivative_map, ← toPoly_derivative]
  by_cases h : p.derivative.toPoly = 0
  · rw [(content_spec p.derivative).2.2 h]
    exact ⟨_, rfl, 1, one_pos, by rw [h]; simp⟩
  · obtain ⟨c, r, h1, h2, h3, h4, h5⟩ := divCoeff_content _ h
    rw [h1]
    simp only
    by_cases hc : c < 0
    · rw [if_pos hc, h4]
      have hc' : (0:ℝ) < -(c:ℝ) := by exact_mod_cast neg_pos.mpr hc
      refine ⟨_, rfl, (-(c:ℝ))⁻¹, inv_pos.mpr hc', ?_⟩
      rw [h5, toPoly_neg, Polynomial.map_neg, Polynomial.map_mul, Polynomial.map_C]
      have : (C (-(c:ℝ))⁻¹ : ℝ[X]) * C ((Int.castRingHom ℝ) c) = -1 := by
        rw [← C_mul, Int.coe_castRingHom, inv_neg, neg_mul, inv_mul_cancel₀ (by exact_mod_cast h2)]
        simp
      linear_combination (-r.toPoly.map (Int.castRingHom ℝ)) * this
    · rw [if_neg hc, h3]
      have hc' : (0:ℝ) < (c:ℝ) := by
        have : 0 < c := lt_of_le_of_ne (not_lt.mp hc) h2.symm
        exact_mod_cast this
      refine ⟨_, rfl, (c:ℝ)⁻¹, inv_pos.mpr hc', ?_⟩
      rw [h5, Polynomial.map_mul, Polynomial.map_C]
      have : (C (c:ℝ)⁻¹ : ℝ[X]) * C ((Int.castRingHom ℝ) c) = 1 := by
        rw [← C_mul, Int.coe_castRingHom, inv_mul_cancel₀ hc'.ne']; simp
      linear_combination (-r.toPoly.map (Int.castRingHom ℝ)) * this

theorem primitiveRemainder_ok : RemOk (Int.castRingHom ℝ) (primitiveRemainder intGcd) := by
  intro a b hb
  obtain ⟨pr, h1, h2, h3, h4⟩ := pseudoDivRem_spec a b hb
  unfold primitiveRemainder
  rw [h1]
  simp only
  have hf0 : pr.factor ≠ 0 := by
    rw [h4]; exact pow_ne_zero _ (leadingCoeff_ne_zero.mpr hb)
  have hm : C (pr.factor : ℝ) * a.toPoly.map (Int.castRingHom ℝ) =
      pr.quotient.toPoly.map (Int.castRingHom ℝ) * b.toPoly.map (Int.castRingHom ℝ) +
        pr.remainder.toPoly.map (Int.castRingHom ℝ) := by
    have := congrArg (Polynomial.map (Int.castRingHom ℝ)) h2
    simpa only [Polynomial.map_mul, Polynomial.map_add, Polynomial.map_C, Int.coe_castRingHom] using this
  -- normalise the sign of the factor
  have hsign : ∃ s : ℝ, (s = 1 ∧ 0 < pr.factor ∨ s = -1 ∧ pr.factor < 0) := by
    rcases lt_or_gt_of_ne hf0 with h | h
    · exact ⟨-1, Or.inr ⟨rfl, h⟩⟩
    · exact ⟨1, Or.inl ⟨rfl, h⟩⟩
  by_cases hz : pr.remainder.toPoly = 0
  · rw [(content_spec pr.remainder).2.2 hz]
    rw [hz, Polynomial.map_zero, add_zero] at hm
    refine ⟨_, rfl, fun h => absurd hz h, ?_⟩
    rw [hz, Polynomial.map_zero]
    rcases lt_or_gt_of_ne hf0 with h | h
    · refine ⟨-pr.factor, 1, by exact_mod_cast neg_pos.mpr h, one_pos,
        -pr.quotient.toPoly.map (Int.castRingHom ℝ), ?_⟩
      rw [C_neg]; linear_combination -hm
    · exact ⟨pr.factor, 1, by exact_mod_cast h, one_pos, pr.quotient.toPoly.map (Int.castRingHom ℝ),
        by linear_combination hm⟩
  · obtain ⟨c, r, e1, e2, e3, -, e5⟩ := divCoeff_content _ hz
    rw [e1]
    simp only
    rw [e3]
    simp only
    have hdeg : r.toPoly.natDegree < b.toPoly.natDegree := by
      have : pr.remainder.toPoly.natDegree = r.toPoly.natDegree := by rw [e5, natDegree_mul_C e2]
      rw [← this]; exact natDegree_lt_natDegree hz h3
    have hr : pr.remainder.toPoly.map (Int.castRingHom ℝ) =
        C (c : ℝ) * r.toPoly.map (Int.castRingHom ℝ) := by
      rw [e5, Polynomial.map_mul, Polynomial.map_C, Int.coe_castRingHom, mul_comm]
    rw [hr] at hm
    have hfne : (pr.factor : ℝ) ≠ 0 := by exact_mod_cast hf0
    rcases lt_or_gt_of_ne hf0 with h | h <;> rcases lt_or_gt_of_ne e2 with hc | hc
    · refine ⟨r, ?_, fun _ => hdeg, -pr.factor, -c, by exact_mod_cast neg_pos.mpr h,
        by exact_mod_cast neg_pos.mpr hc, -pr.quotient.toPoly.map (Int.castRingHom ℝ), ?_⟩
      · simp [h, hc]
      · rw [C_neg, C_neg]; linear_combination -hm
    · refine ⟨-r, ?_, ?_, -pr.factor, c, by exact_mod_cast neg_pos.mpr h,
        by exact_mod_cast hc, -pr.quotient.toPoly.map (Int.castRingHom ℝ), ?_⟩
      · simp [h, not_lt.mpr hc.le]
      · rw [toPoly_neg, natDegree_neg]; exact fun _ => hdeg
      · rw [C_neg, toPoly_neg, Polynomial.map_neg]; linear_combination -hm
    · refine ⟨-r, ?_, ?_, pr.factor, -c, by exact_mod_cast h,
        by exact_mod_cast neg_pos.mpr hc, pr.quotient.toPoly.map (Int.castRingHom ℝ), ?_⟩
      · simp [hc, not_lt.mpr h.le]
      · rw [toPoly_neg, natDegree_neg]; exact fun _ => hdeg
      · rw [C_neg, toPoly_neg, Polynomial.map_neg]; linear_combination hm
    · refine ⟨r, ?_, fun _ => hdeg, pr.factor, c, by exact_mod_cast h,
        by exact_mod_cast hc, pr.quotient.toPoly.map (Int.castRingHom ℝ), ?_⟩
      · simp [not_lt.mpr hc.le, not_lt.mpr h.le]
      · linear_combination hm

end Poly

end Algebraics
