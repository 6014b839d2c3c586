import Verif.Lemmas.Hensel
import Verif.Props.Poly
import Verif.Props.Util
import Mathlib.RingTheory.Polynomial.Content

/-!
# Lemmas about the subset search
-/

set_option linter.unusedSectionVars false

namespace Algebraics
namespace Poly

open Polynomial

/-! ## Primitive integer polynomials with positive leading coefficient -/

/-- no common divisor of the coefficients, and a positive leading coefficient -/
def PP (g : ℤ[X]) : Prop := g.IsPrimitive ∧ 0 < g.leadingCoeff

theorem PP.ne_zero {g : ℤ[X]} (h : PP g) : g ≠ 0 := leadingCoeff_ne_zero.mp h.2.ne'

theorem PP.one : PP 1 := ⟨isPrimitive_one, by simp⟩

theorem PP.mul {a b : ℤ[X]} (ha : PP a) (hb : PP b) : PP (a * b) :=
  ⟨ha.1.mul hb.1, by rw [leadingCoeff_mul]; exact mul_pos ha.2 hb.2⟩

theorem PP.eq_of_C_mul {a b : ℤ[X]} (ha : PP a) (hb : PP b) {x y : ℤ} (hx : x ≠ 0)
    (h : C x * a = C y * b) : a = b := by
  have hc := congrArg Polynomial.content h
  rw [content_C_mul, content_C_mul, ha.1.content_eq_one, hb.1.content_eq_one, mul_one, mul_one] at hc
  have hxy : x = y ∨ x = -y := by
    have : Associated x y := (normalize_eq_normalize_iff_associated).mp hc
    exact Int.associated_iff.mp this
  rcases hxy with rfl | rfl
  · exact mul_left_cancel₀ (by rwa [Ne, C_eq_zero]) h
  · exfalso
    have hl := congrArg leadingCoeff h
    rw [leadingCoeff_mul, leadingCoeff_mul, leadingCoeff_C, leadingCoeff_C] at hl
    have hy : y ≠ 0 := by rintro rfl; simp at hx
    have e : y * (a.leadingCoeff + b.leadingCoeff) = 0 := by linear_combination -hl
    rcases mul_eq_zero.mp e with h1 | h1
    · exact hy h1
    · have := ha.2; have := hb.2; omega

theorem PP.const {g : ℤ[X]} (h : PP g) (hd : g.natDegree = 0) : g = 1 := by
  obtain ⟨h1, h2⟩ := h
  have hg := eq_C_of_natDegree_eq_zero hd
  have hu : IsUnit (g.coeff 0) := h1 _ (by rw [← hg])
  rw [leadingCoeff, hd] at h2
  rcases Int.isUnit_iff.mp hu with h3 | h3
  · rw [hg, h3]; rfl
  · omega

/-- a factor of a primitive polynomial, up to the sign -/
theorem PP.factor {g a b : ℤ[X]} (hg : PP g) (h : g = a * b) : (PP a ∧ PP b) ∨ (PP (-a) ∧ PP (-b)) := by
  have ha : a.IsPrimitive := isPrimitive_of_dvd hg.1 ⟨b, h⟩
  have hb : b.IsPrimitive := isPrimitive_of_dvd hg.1 ⟨a, by rw [h, mul_comm]⟩
  have hl := hg.2
  rw [h, leadingCoeff_mul] at hl
  rcases pos_and_pos_or_neg_and_neg_of_mul_pos hl with ⟨h1, h2⟩ | ⟨h1, h2⟩
  · exact Or.inl ⟨⟨ha, h1⟩, ⟨hb, h2⟩⟩
  · refine Or.inr ⟨⟨?_, ?_⟩, ⟨?_, ?_⟩⟩
    · intro r hr; exact ha r ((dvd_neg).mp hr)
    · rw [leadingCoeff_neg]; omega
    · intro r hr; exact hb r ((dvd_neg).mp hr)
    · rw [leadingCoeff_neg]; omega

theorem primitivePart_pp (p : Poly ℤ) (h : p.toPoly ≠ 0) :
    ∃ r c, p.primitivePart intGcd = some r ∧ PP r.toPoly ∧ c ≠ 0 ∧ p.toPoly = C c * r.toPoly := by
  obtain ⟨r, h1, h2, h3⟩ := C19_primitive_part p
  refine ⟨r, _, h1, h3 h, ?_, h2⟩
  intro h0
  rw [h0, C_0, zero_mul] at h2
  exact h h2

theorem primitivePart_total (p : Poly ℤ) : ∃ r, p.primitivePart intGcd = some r := by
  obtain ⟨r, h1, -⟩ := C19_primitive_part p
  exact ⟨r, h1⟩

/-- exact division that succeeds -/
theorem exactPseudoDiv_sound (a b q : Poly ℤ) (c : ℤ) (h : a.exactPseudoDiv b = some (q, c)) :
    b.toPoly ≠ 0 ∧ c ≠ 0 ∧ C c * a.toPoly = q.toPoly * b.toPoly := by
  unfold exactPseudoDiv at h
  have hb : b.toPoly ≠ 0 := by
    intro h0
    rw [(pseudoDivRem_none a b).mpr h0] at h
    cases h
  obtain ⟨r, h1, h2, h3, h4⟩ := pseudoDivRem_spec a b hb
  rw [h1] at h
  simp only at h
  by_cases hz : r.remainder.isZero = true
  · rw [if_pos hz] at h
    cases h
    rw [(isZero_iff _).mp hz, add_zero] at h2
    exact ⟨hb, by rw [h4]; exact pow_ne_zero _ (leadingCoeff_ne_zero.mpr hb), h2⟩
  · rw [if_neg hz] at h; cases h

/-- exact division succeeds on multiples -/
theorem exactPseudoDiv_dvd (a b : Poly ℤ) (hb : b.toPoly ≠ 0) (h : b.toPoly ∣ a.toPoly) :
    ∃ q c, a.exactPseudoDiv b = some (q, c) := by
  obtain ⟨r, h1, h2, h3, h4⟩ := pseudoDivRem_spec a b hb
  have hr : r.remainder.toPoly = 0 := by
    have hd : b.toPoly ∣ r.remainder.toPoly := by
      have : r.remainder.toPoly = C r.factor * a.toPoly - r.quotient.toPoly * b.toPoly := by
        rw [h2]; ring
      rw [this]
      exact dvd_sub (h.mul_left _) (Dvd.intro_left _ rfl)
    exact eq_zero_of_dvd_of_degree_lt hd h3
  refine ⟨r.quotient, r.factor, ?_⟩
  unfold exactPseudoDiv
  rw [h1]
  simp only
  rw [if_pos ((isZero_iff _).mpr hr)]

/-! ## One step of the search -/

variable {M : ℕ}

/-- a step that finds a factor splits the input -/
theorem searchStep_sound (subset : List ℕ) (s s' : Search M) (hs : PP s.input.toPoly)
    (h : searchStep subset s = (s', some true)) :
    ∃ c, candidate s.input s.modular subset = some c ∧ PP c.toPoly ∧ PP s'.input.toPoly ∧
      s.input.toPoly = s'.input.toPoly * c.toPoly ∧
      s'.modular = subset.foldr (fun i l => l.eraseIdx i) s.modular ∧
      s'.factors = s.factors ++ [c] ∧ s'.found = true := by
  unfold searchStep at h
  cases hc : candidate s.input s.modular subset with
  | none => rw [hc] at h; simp at h
  | some c =>
    rw [hc] at h
    simp only at h
    cases hd : s.input.exactPseudoDiv c with
    | none => rw [hd] at h; simp at h
    | some qf =>
      obtain ⟨quot, f⟩ := qf
      rw [hd] at h
      simp only at h
      obtain ⟨d1, d2, d3⟩ := exactPseudoDiv_sound _ _ _ _ hd
      have hq0 : quot.toPoly ≠ 0 := by
        intro h0
        rw [h0, zero_mul, mul_eq_zero] at d3
        exact d3.elim (by rwa [C_eq_zero]) hs.ne_zero
      obtain ⟨q, e, q1, q2, q3, q4⟩ := primitivePart_pp quot hq0
      rw [q1] at h
      simp only [Prod.mk.injEq, and_true] at h
      subst h
      have hcp : PP c.toPoly := by
        unfold candidate at hc
        cases hp : subsetProduct s.modular subset
            (ofCoeffs [(s.input.highestPowerCoefficient : ZMod M)]) with
        | none => rw [hp] at hc; cases hc
        | some pr =>
          rw [hp] at hc
          simp only at hc
          by_cases h0 : (ofCoeffs (pr.coeffs.map symmetric) : Poly ℤ).toPoly = 0
          · exfalso
            obtain ⟨r, r1, r2⟩ := primitivePart_spec (ofCoeffs (pr.coeffs.map symmetric) : Poly ℤ)
            rw [hc] at r1
            cases r1
            unfold primitivePart at hc
            rw [(content_spec _).2.2 h0] at hc
            cases hc
            exact d1 h0
          · obtain ⟨r, _, r1, r2, -⟩ := primitivePart_pp _ h0
            rw [hc] at r1
            cases r1
            exact r2
      refine ⟨c, rfl, hcp, q2, ?_, ?_, rfl, rfl⟩
      · refine hs.eq_of_C_mul (q2.mul hcp) (x := f) (y := e) d2 ?_
        rw [d3, q4]; ring
      · rw [List.foldl_reverse]

theorem searchStep_none (subset : List ℕ) (s s' : Search M) (h : searchStep subset s = (s', none)) :
    s' = s := by
  unfold searchStep at h
  cases hc : candidate s.input s.modular subset with
  | none => rw [hc] at h; simp at h
  | some c =>
    rw [hc] at h
    simp only at h
    cases hd : s.input.exactPseudoDiv c with
    | none => rw [hd] at h; simp only [Prod.mk.injEq, and_true] at h; exact h.symm
    | some qf =>
      rw [hd] at h
      simp only at h
      cases hq : qf.1.primitivePart intGcd with
      | none => rw [hq] at h; simp at h
      | some q => rw [hq] at h; simp at h

/-- running the step over a list of subsets -/
theorem forSearch (L : List (List ℕ)) (s : Search M) :
    (forUntilBreak searchStep L s = (s, none) ∧ ∀ T ∈ L, searchStep T s = (s, none)) ∨
    ∃ T ∈ L, ∃ s' b, searchStep T s = (s', some b) ∧ forUntilBreak searchStep L s = (s', some b) := by
  induction L with
  | nil => exact Or.inl ⟨rfl, by simp⟩
  | cons T L ih =>
    rw [forUntilBreak]
    rcases h : searchStep T s with ⟨s', _ | b⟩
    · obtain rfl := searchStep_none T s s' h
      simp only
      rcases ih with ⟨h1, h2⟩ | ⟨T', h1, h2⟩
      · refine Or.inl ⟨h1, ?_⟩
        intro T' hT'
        rcases List.mem_cons.mp hT' with rfl | hT'
        · exact h
        · exact h2 T' hT'
      · exact Or.inr ⟨T', List.mem_cons_of_mem _ h1, h2⟩
    · exact Or.inr ⟨T, by simp, s', b, h, rfl⟩

/-- the loop keeps the product -/
theorem searchLoop_product (F : ℤ[X]) (fuel : ℕ) : ∀ (size : ℕ) (s s' : Search M),
    PP s.input.toPoly → (s.factors.map toPoly).prod * s.input.toPoly = F →
    (∀ g ∈ s.factors, PP g.toPoly) →
    searchLoop fuel size s = some s' →
    PP s'.input.toPoly ∧ (s'.factors.map toPoly).prod * s'.input.toPoly = F ∧
      (∀ g ∈ s'.factors, PP g.toPoly) := by
  induction fuel with
  | zero => intro size s s' _ _ _ h; cases h
  | succ fuel ih =>
    intro size s s' hpp hprod hall h
    unfold searchLoop at h
    simp only at h
    generalize hsz : (if s.found = true then size else size + 1) = size' at h
    by_cases hstop : size' * 2 > s.modular.length
    · rw [if_pos hstop] at h
      cases h
      exact ⟨hpp, hprod, hall⟩
    · rw [if_neg hstop] at h
      by_cases hz : s.modular.length = 0 ∧ size' = 0
      · rw [hz.1, hz.2, C50_empty_range _ 0 0 (le_refl _)] at h
        exact ih _ { s with found := false } s' hpp hprod hall h
      · obtain ⟨L, -, -, hL⟩ := C50_subsets size' 0 s.modular.length (by omega)
        rw [hL] at h
        rcases forSearch L { s with found := false } with ⟨h1, -⟩ | ⟨T, -, s1, b, h1, h2⟩
        · rw [h1] at h
          exact ih _ { s with found := false } s' hpp hprod hall h
        · rw [h2] at h
          cases b with
          | false => simp at h
          | true =>
            simp only at h
            obtain ⟨c, -, c2, c3, c4, -, c6, -⟩ := searchStep_sound T { s with found := false } s1 hpp h1
            simp only at c4 c6
            refine ih _ s1 s' c3 ?_ ?_ h
            · rw [c6, ← hprod, c4]
              simp only [List.map_append, List.prod_append, List.map_cons, List.map_nil,
                List.prod_cons, List.prod_nil]
              ring
            · intro g hg
              rw [c6] at hg
              rcases List.mem_append.mp hg with hg | hg
              · exact hall g hg
              · rw [List.mem_singleton.mp hg]; exact c2

/-! ## The subsets -/

theorem foldr_eraseIdx_getElem? {α : Type} (l : List α) (is : List ℕ) (i : ℕ) (h : ∀ j ∈ is, i < j) :
    (is.foldr (fun i l => l.eraseIdx i) l)[i]? = l[i]? := by
  induction is with
  | nil => rfl
  | cons j is ih =>
    rw [List.foldr_cons, List.getElem?_eraseIdx_of_lt (h j (by simp))]
    exact ih fun k hk => h k (by simp [hk])

/-- the chosen entries and the remaining ones -/
theorem foldr_eraseIdx_perm {α : Type} [Inhabited α] (l : List α) (is : List ℕ)
    (h : is.Pairwise (· < ·)) (hb : ∀ i ∈ is, i < l.length) :
    l.Perm (is.map (fun i => l.getD i default) ++ is.foldr (fun i l => l.eraseIdx i) l) := by
  induction is with
  | nil => exact List.Perm.refl _
  | cons i is ih =>
    rw [List.pairwise_cons] at h
    have h1 := ih h.2 fun j hj => hb j (by simp [hj])
    set r := is.foldr (fun i l => l.eraseIdx i) l with hr
    have h2 : r[i]? = l[i]? := foldr_eraseIdx_getElem? l is i h.1
    have hi : i < l.length := hb i (by simp)
    have hir : i < r.length := by
      by_contra hc
      rw [List.getElem?_eq_none (not_lt.mp hc), List.getElem?_eq_getElem hi] at h2
      cases h2
    have h3 : r[i] = l.getD i default := by
      rw [List.getD_eq_getElem?_getD, ← h2, List.getElem?_eq_getElem hir]; rfl
    have h4 := (List.getElem_cons_eraseIdx_perm hir).symm
    rw [h3] at h4
    rw [List.map_cons, List.foldr_cons, ← hr, List.cons_append]
    refine h1.trans ((List.Perm.append_left _ h4).trans ?_)
    exact List.perm_middle

theorem subsetProduct_spec (l : List (Poly (ZMod M))) (is : List ℕ) (hb : ∀ i ∈ is, i < l.length) :
    ∀ acc : Poly (ZMod M), ∃ p, subsetProduct l is acc = some p ∧
      p.toPoly = acc.toPoly * (is.map fun i => (l.getD i 0).toPoly).prod := by
  induction is with
  | nil => intro acc; exact ⟨acc, rfl, by simp⟩
  | cons i is ih =>
    intro acc
    have hi : i < l.length := hb i (by simp)
    obtain ⟨p, h1, h2⟩ := ih (fun j hj => hb j (by simp [hj])) (acc * l[i])
    refine ⟨p, ?_, ?_⟩
    · unfold subsetProduct
      rw [List.getElem?_eq_getElem hi]
      exact h1
    · rw [h2, toPoly_mul, List.map_cons, List.prod_cons, List.getD_eq_getElem?_getD,
        List.getElem?_eq_getElem hi, Option.getD_some]
      ring

/-- the integer polynomial that the subset stands for -/
theorem candidate_spec (input : Poly ℤ) (l : List (Poly (ZMod M))) (is : List ℕ)
    (hb : ∀ i ∈ is, i < l.length) :
    ∃ (P : Poly ℤ) (r : Poly ℤ), candidate input l is = some r ∧ P.primitivePart intGcd = some r ∧
      ∀ i, P.toPoly.coeff i = symmetric ((C ((input.toPoly.leadingCoeff : ℤ) : ZMod M) *
        (is.map fun i => (l.getD i 0).toPoly).prod).coeff i) := by
  obtain ⟨p, h1, h2⟩ := subsetProduct_spec l is hb
    (ofCoeffs [(input.highestPowerCoefficient : ZMod M)])
  obtain ⟨r, hr⟩ := primitivePart_total (ofCoeffs (p.coeffs.map symmetric))
  refine ⟨ofCoeffs (p.coeffs.map symmetric), r, ?_, hr, ?_⟩
  · unfold candidate; rw [h1]; exact hr
  · intro i
    have hs0 : symmetric (0 : ZMod M) = 0 := by simp [symmetric]
    rw [toPoly_ofCoeffs, listPoly_map_coeff symmetric hs0]
    show symmetric (p.toPoly.coeff i) = _
    rw [h2, toPoly_ofCoeffs, highest_eq]
    simp

/-- the search never panics, and the fuel suffices -/
theorem searchStep_total (subset : List ℕ) (s : Search M) (hb : ∀ i ∈ subset, i < s.modular.length)
    (s' : Search M) : searchStep subset s ≠ (s', some false) := by
  intro h
  unfold searchStep at h
  obtain ⟨P, r, h1, h2, -⟩ := candidate_spec s.input s.modular subset hb
  rw [h1] at h
  simp only at h
  cases hd : s.input.exactPseudoDiv r with
  | none => rw [hd] at h; simp at h
  | some qf =>
    rw [hd] at h
    simp only at h
    obtain ⟨q, hq⟩ := primitivePart_total qf.1
    rw [hq] at h
    simp at h

end Poly
end Algebraics
