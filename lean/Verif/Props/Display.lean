import Verif.Lemmas.Display
import Verif.Spec.AlgNum

/-!
# C63: printed texts say what they stand for

A printed polynomial is a sum with the value of the polynomial, a text has at most one reading, and
different polynomials, factors, intervals and numbers have different texts.
-/

namespace Algebraics

open Polynomial

/-- No two nesting depths share a variable name, and a name is never empty. -/
theorem C63_variable_names : Function.Injective variableName ∧ ∀ n, variableName n ≠ [] :=
  ⟨fun _ _ h => variableName_injective h, variableName_ne_nil⟩

/-- Non-vacuity: a name of one letter and names of two letters. -/
example : variableName 0 = "X".toList ∧ variableName 26 = "YX".toList ∧
    variableName 700 = "YXV".toList := by
  refine ⟨?_, ?_, ?_⟩
  · rw [variableName_eq]; rfl
  · rw [variableName_eq, variableName_eq]; rfl
  · rw [variableName_eq, variableName_eq, variableName_eq]; rfl

section
variable {T : Type} [CommRing T] [PolyCoeff T] [Printable T]

omit [PolyCoeff T] [Printable T] in
theorem printedTerms_sum (cs : List T) : ∀ i, 1 ≤ i →
    ((printedTerms i cs).map PrintedTerm.value).sum = X ^ i * listPoly cs := by
  induction cs with
  | nil => intro i _; simp [printedTerms]
  | cons c cs ih =>
    intro i hi
    have he : ((if i = 1 then none else some i : Option ℕ).getD 1) = i := by
      split_ifs with h
      · exact h.symm
      · rfl
    simp only [printedTerms, List.map_cons, List.sum_cons, PrintedTerm.value, he,
      ih (i + 1) (by omega), listPoly_cons]
    ring

/-- For every coefficient type: the text of a polynomial, read as a sum of products, stands for this
polynomial. -/
theorem C63_text_denotes (p : Poly T) : Denotes p.text p.toPoly := by
  obtain ⟨c, cs, s, hs, hp, hc⟩ := poly_text_eq p
  refine ⟨c, printedTerms 1 cs, s, hs, hp, ?_⟩
  rw [printedTerms_sum cs 1 (le_refl 1), pow_one]
  rcases hc with hc | ⟨hc, rfl, rfl⟩
  · show listPoly p.coeffs = _
    rw [hc, listPoly_cons]
  · rw [(Poly.coeffs_eq_nil_iff p).mp hc]; simp

end

theorem readable_nested (A : CoeffType) (hA : BaseCoefficients A) (k : ℕ) :
    Readable (T := (A.nested k).carrier) (Printable.nestingDepth (A.nested k).carrier)
      Printable.text := by
  induction k with
  | zero =>
    rcases hA with rfl | rfl | ⟨m, hm, rfl⟩
    · exact readable_int
    · exact readable_rat
    · have : NeZero m := ⟨hm⟩
      exact readable_modInt m
  | succ k ih => exact readable_poly ih

/-- A text has at most one reading as a polynomial, for coefficients that are integers, fractions,
modular integers, or polynomials over these nested to any depth. -/
theorem C63_unambiguous (A : CoeffType) (hA : BaseCoefficients A) (k : ℕ) (s : Text)
    (f g : (A.nested k).carrier[X]) (hf : Denotes s f) (hg : Denotes s g) : f = g := by
  obtain ⟨c, ts, u, hu, rfl, rfl⟩ := hf
  obtain ⟨c', ts', u', hu', h, rfl⟩ := hg
  have h' : u ++ termsText ts ++ [] = u' ++ termsText ts' ++ [] := by
    rw [List.append_nil, List.append_nil]; exact h
  obtain ⟨rfl, rfl, _⟩ := sum_unique (readable_nested A hA k) hu hu' (Follow.nil _)
    (Follow.nil _) h'
  rfl

/-- Two polynomials with the same text are equal. -/
theorem C63_polynomial_injective (A : CoeffType) (hA : BaseCoefficients A) (k : ℕ) :
    Function.Injective (Poly.text (T := (A.nested k).carrier)) := by
  intro p q h
  apply Poly.toPoly_injective
  exact C63_unambiguous A hA k _ _ _ (C63_text_denotes p) (h ▸ C63_text_denotes q)

/-- Two coefficients with the same text are equal. -/
theorem C63_coefficient_injective (A : CoeffType) (hA : BaseCoefficients A) (k : ℕ) :
    Function.Injective (Printable.text (T := (A.nested k).carrier)) := by
  intro c d h
  exact ((readable_nested A hA k).unique c d [] [] (Follow.nil _) (Follow.nil _)
    (by rw [h])).1

/-- Two factors with the same text are the same polynomial with the same power. -/
theorem C63_factor_injective (A : CoeffType) (hA : BaseCoefficients A) (k : ℕ) :
    Function.Injective (factorText (T := (A.nested k).carrier)) := by
  rintro ⟨p, i⟩ ⟨q, j⟩ h
  have H := readable_nested A hA (k + 1)
  have h1 : p.text ++ ')' :: '^' :: decimal i = q.text ++ ')' :: '^' :: decimal j := by
    simpa [factorText] using h
  obtain ⟨h2, h3⟩ := H.unique p q _ _ (Or.inl (Or.inr (Or.inl ⟨_, rfl⟩)))
    (Or.inl (Or.inr (Or.inl ⟨_, rfl⟩))) h1
  simp only [List.cons.injEq, true_and] at h3
  rw [h2, decimal_injective h3]

/-- Non-vacuity: `BaseCoefficients` holds of integers, and a polynomial with a negative, a zero and
a large coefficient. -/
example : BaseCoefficients CoeffType.int ∧
    (Poly.ofCoeffs ([-1, 0, 120, 7] : List ℤ)).text = "-1 + 0*X + 120*X^2 + 7*X^3".toList := by
  refine ⟨Or.inl rfl, ?_⟩
  have hc : (Poly.ofCoeffs ([-1, 0, 120, 7] : List ℤ)).coeffs = [-1, 0, 120, 7] := by
    decide +kernel
  rw [Poly.text, hc]
  simp only [List.isEmpty_cons, Bool.false_eq_true, if_false, coefficientsText, coefficientText]
  rw [show Printable.nestingDepth ℤ = 0 from rfl, variableName_eq]
  decide +kernel

/-- Non-vacuity: a polynomial in `Y` whose coefficients are polynomials in `X` with fractions. -/
example : (Poly.ofCoeffs [Poly.ofCoeffs ([1, 2] : List ℚ), 0, Poly.ofCoeffs [0, 3 / 4]]).text =
    "1 + 2*X + (0)*Y + (0 + 3/4*X)*Y^2".toList := by
  have hc : (Poly.ofCoeffs [Poly.ofCoeffs ([1, 2] : List ℚ), 0, Poly.ofCoeffs [0, 3 / 4]]).coeffs =
      [Poly.ofCoeffs [1, 2], 0, Poly.ofCoeffs [0, 3 / 4]] := by decide +kernel
  have h1 : (Poly.ofCoeffs ([1, 2] : List ℚ)).coeffs = [1, 2] := by decide +kernel
  have h2 : (0 : Poly ℚ).coeffs = [] := by decide +kernel
  have h3 : (Poly.ofCoeffs ([0, 3 / 4] : List ℚ)).coeffs = [0, 3 / 4] := by decide +kernel
  rw [Poly.text, hc]
  simp only [List.isEmpty_cons, Bool.false_eq_true, if_false, coefficientsText, coefficientText]
  rw [show Printable.nestingDepth (Poly ℚ) = 1 from rfl,
    show ∀ p : Poly ℚ, Printable.text p = p.text from fun _ => rfl,
    show ∀ p : Poly ℚ, Printable.text p = p.text from fun _ => rfl,
    show ∀ p : Poly ℚ, Printable.text p = p.text from fun _ => rfl, Poly.text, Poly.text,
    Poly.text, h1, h2, h3]
  simp only [List.isEmpty_cons, Bool.false_eq_true, if_false, coefficientsText, coefficientText]
  rw [show Printable.nestingDepth ℚ = 0 from rfl, variableName_eq, variableName_eq]
  decide +kernel

/-- Two intervals with the same text have the same bounds and the same denominator. -/
theorem C63_interval_injective : Function.Injective DFI.text ∧ Function.Injective DFI.debugText := by
  constructor
  · rintro ⟨l, u, d⟩ ⟨l', u', d'⟩ h
    unfold DFI.text at h
    dsimp only at h
    generalize hs1 : "[".toList = s1 at h
    generalize hs2 : " / 2^".toList = s2 at h
    generalize hs3 : ", ".toList = s3 at h
    generalize hs4 : "]".toList = s4 at h
    have hh2 : s2.head? = some ' ' := by rw [← hs2]; rfl
    have hh3 : s3.head? = some ',' := by rw [← hs3]; rfl
    have hh4 : s4.head? = some ']' := by rw [← hs4]; rfl
    clear hs1 hs2 hs3 hs4
    simp only [List.append_assoc] at h
    have h1 := List.append_cancel_left h
    obtain ⟨rfl, h2⟩ := intText_unique (StartsOutside.literal _ hh2 (by unfold IntChar; decide))
      (StartsOutside.literal _ hh2 (by unfold IntChar; decide)) h1
    have h3 := List.append_cancel_left h2
    obtain ⟨rfl, h4⟩ := decimal_unique (StartsOutside.literal _ hh3 (by decide))
      (StartsOutside.literal _ hh3 (by decide)) h3
    have h5 := List.append_cancel_left h4
    obtain ⟨rfl, h6⟩ := intText_unique (StartsOutside.literal _ hh2 (by unfold IntChar; decide))
      (StartsOutside.literal _ hh2 (by unfold IntChar; decide)) h5
    rfl
  · rintro ⟨l, u, d⟩ ⟨l', u', d'⟩ h
    unfold DFI.debugText at h
    dsimp only at h
    generalize hs1 : "DyadicFractionInterval { lower_bound_numer: ".toList = s1 at h
    generalize hs2 : ", upper_bound_numer: ".toList = s2 at h
    generalize hs3 : ", log2_denom: ".toList = s3 at h
    generalize hs4 : " }".toList = s4 at h
    have hh2 : s2.head? = some ',' := by rw [← hs2]; rfl
    have hh3 : s3.head? = some ',' := by rw [← hs3]; rfl
    have hh4 : s4.head? = some ' ' := by rw [← hs4]; rfl
    clear hs1 hs2 hs3 hs4
    simp only [List.append_assoc] at h
    have h1 := List.append_cancel_left h
    obtain ⟨rfl, h2⟩ := intText_unique (StartsOutside.literal _ hh2 (by unfold IntChar; decide))
      (StartsOutside.literal _ hh2 (by unfold IntChar; decide)) h1
    have h3 := List.append_cancel_left h2
    obtain ⟨rfl, h4⟩ := intText_unique (StartsOutside.literal _ hh3 (by unfold IntChar; decide))
      (StartsOutside.literal _ hh3 (by unfold IntChar; decide)) h3
    have h5 := List.append_cancel_left h4
    have h6 := List.append_cancel_right h5
    rw [decimal_injective h6]

theorem debugText_injective : Function.Injective RealAlg.debugText := by
  rintro ⟨p, i⟩ ⟨q, j⟩ h
  unfold RealAlg.debugText at h
  dsimp only at h
  generalize hs1 : "RealAlgebraicNumber { minimal_polynomial: ".toList = s1 at h
  have hs2 : ", interval: ".toList = ',' :: " interval: ".toList := rfl
  rw [hs2] at h
  clear hs1 hs2
  generalize " interval: ".toList = s2 at h
  generalize " }".toList = s3 at h
  simp only [List.append_assoc] at h
  have h1 := List.append_cancel_left h
  have H := readable_nested CoeffType.int (Or.inl rfl) 1
  obtain ⟨h2, h3⟩ := H.unique p q _ _ (Or.inl (Or.inr (Or.inr ⟨_, rfl⟩)))
    (Or.inl (Or.inr (Or.inr ⟨_, rfl⟩))) h1
  simp only [List.cons_append, List.cons.injEq, true_and] at h3
  have h4 := List.append_cancel_left h3
  have h5 := List.append_cancel_right h4
  have h6 := C63_interval_injective.2 h5
  cases h2; cases h6; rfl

/-- Two numbers with the same `{:?}` text, or the same Python `repr`, have the same polynomial and the
same interval, and stand for the same real number. -/
theorem C63_number_text (a b : RealAlg)
    (h : a.debugText = b.debugText ∨ a.pyRepr = b.pyRepr) :
    a = b ∧ ∀ x y : ℝ, a.Represents x → b.Represents y → x = y := by
  have hab : a = b := by
    rcases h with h | h
    · exact debugText_injective h
    · unfold RealAlg.pyRepr at h
      exact debugText_injective (List.append_cancel_left (List.append_cancel_right h))
  subst hab
  exact ⟨rfl, fun x y hx hy => (hx.isolated y hy.mem hy.root).symm⟩

end Algebraics
