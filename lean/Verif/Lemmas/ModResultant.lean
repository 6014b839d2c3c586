import Verif.Model.ModResultant
import Verif.Lemmas.ModPoly

/-!
# Resultants over modular integers: the stored computation and the one over `ZMod m`
-/

namespace Algebraics

namespace ModPoly

set_option linter.unusedSectionVars false

variable {t : IntTy} {m : ℕ} [NeZero m] {ext : ℤ → ℤ → ModInt.ExtGcd}

theorem resultantPsi_enc (hext : ModInt.IsExtGcd ext) (ht : t.Instantiated) (hm : t.fits m)
    (f : ZMod m) (dp : ℕ) (psiP : ZMod m) :
    resultantPsi t ext (enc f) dp (enc psiP) = (Poly.resultantPsi f dp psiP).map enc := by
  unfold resultantPsi Poly.resultantPsi
  match dp with
  | 0 => rfl
  | 1 => rfl
  | dp + 2 =>
    simp only [neg_enc hm, coeffPow_enc ht hm, bind, Option.bind, div_enc hext ht hm]

/-- a pair in stored form -/
def encPair (x : ZMod m × ZMod m) : ModInt × ModInt := (enc x.1, enc x.2)

theorem resultantPsiBeta_enc (hext : ModInt.IsExtGcd ext) (ht : t.Instantiated) (hm : t.fits m)
    (u v : Poly (ZMod m)) (hv : v.isZero = false) (i delta dp : ℕ) (psiP : ZMod m) :
    resultantPsiBeta t ext (encP u) (encP v) i delta dp (enc psiP) =
      (Poly.resultantPsiBeta u i delta dp psiP).map encPair := by
  unfold resultantPsiBeta Poly.resultantPsiBeta
  by_cases hi : i = 1
  · rw [if_pos hi, if_pos hi]
    cases he : v.raw.elements with
    | nil => simp [Poly.isZero, he] at hv
    | cons a as =>
      simp only [encP, he, encL, List.map_cons, List.head?_cons, bind, Option.bind, oneLike_enc hm, neg_enc hm]
      by_cases hd : delta % 2 = 1
      · rw [if_pos hd, if_pos hd]; rfl
      · rw [if_neg hd, if_neg hd]; rfl
  · rw [if_neg hi, if_neg hi, last_encP]
    cases u.nonzeroHighestPowerCoefficient with
    | none => rfl
    | some f =>
      simp only [Option.map_some, bind, Option.bind, resultantPsi_enc hext ht hm]
      cases Poly.resultantPsi f dp psiP with
      | none => rfl
      | some psi =>
        simp only [Option.map_some, neg_enc hm, coeffPow_enc ht hm, mul_enc ht hm]
        rfl

theorem negIfOdd_enc (hm : t.fits m) (k n : ℕ) (x : ZMod m) :
    negIfOdd t k n (enc x) = some (enc (if k % 2 == 1 && n % 2 == 1 then -x else x)) := by
  unfold negIfOdd
  by_cases h : (k % 2 == 1 && n % 2 == 1) = true
  · rw [if_pos h, if_pos h, neg_enc hm]
  · rw [if_neg h, if_neg h]

theorem resultantLoop_enc (hext : ModInt.IsExtGcd ext) (ht : t.Instantiated) (hm : t.fits m) (fuel : ℕ) :
    ∀ (u v : Poly (ZMod m)) (i dp : ℕ) (psiP : ZMod m),
      resultantLoop t ext fuel (encP u) (encP v) i dp (enc psiP) =
        (Poly.resultantLoop fuel u v i dp psiP).map (Option.map enc) := by
  induction fuel with
  | zero => intros; rfl
  | succ fuel ih =>
    intro u v i dp psiP
    unfold resultantLoop Poly.resultantLoop
    rw [degree_encP u, degree_encP v]
    by_cases hu : (encP u).isEmpty = true
    · rw [if_pos hu]; simp [hu]
    by_cases hv : (encP v).isEmpty = true
    · rw [if_pos hv]; simp [hu, hv]
    have hvz : v.isZero = false := by rw [← isEmpty_encP]; simpa using hv
    rw [if_neg (by simp [hu, hv]), if_neg hu, if_neg hv]
    simp only
    generalize (encP u).length - 1 = k
    generalize (encP v).length - 1 = n
    by_cases hkn : k < n
    · rw [if_pos hkn, if_pos hkn, ih]
      rcases Poly.resultantLoop fuel v u i dp psiP with _ | _ | r
      · rfl
      · rfl
      · simp only [Option.map_some, bind, Option.bind, negIfOdd_enc hm]
        split <;> rfl
    rw [if_neg hkn, if_neg hkn]
    by_cases hn : n = 0
    · rw [if_pos hn, if_pos hn, coeffs_eq]
      cases he : v.raw.elements with
      | nil => simp [Poly.isZero, he] at hvz
      | cons a as =>
        simp only [encP, he, encL, List.map_cons, List.head?_cons, bind, Option.bind, coeffPow_enc ht hm]
        rfl
    rw [if_neg hn, if_neg hn, pseudoDivRem_encP ht hm]
    cases u.pseudoDivRem v with
    | none => rfl
    | some pr =>
      simp only [Option.map_some, bind, Option.bind, encD, isEmpty_encP]
      by_cases hz : pr.remainder.isZero = true
      · rw [if_pos hz, if_pos hz]; rfl
      rw [if_neg hz, if_neg hz, resultantPsiBeta_enc hext ht hm u v hvz]
      rcases Poly.resultantPsiBeta u i (k + 1 - n) dp psiP with _ | ⟨psi, beta⟩
      · rfl
      simp only [Option.map_some, encPair, divCoeff_encP hext ht hm, last_encP]
      cases pr.remainder.divCoeff beta with
      | none => rfl
      | some r =>
        cases v.nonzeroHighestPowerCoefficient with
        | none => rfl
        | some l =>
          simp only [Option.map_some]
          rw [degree_encP r, isEmpty_encP]
          by_cases hr : r.isZero = true
          · rw [if_pos hr, if_pos hr]; rfl
          rw [if_neg hr, if_neg hr]
          simp only [coeffPow_enc ht hm, negIfOdd_enc hm, ih]
          rcases Poly.resultantLoop fuel v r (i + 1) (k + 1 - n) psi with _ | _ | x
          · rfl
          · rfl
          simp only [Option.map_some, mul_enc ht hm]
          by_cases hs : n * (k + 1 - n) + ((encP r).length - 1) < k
          · rw [if_pos hs, if_pos hs]; rfl
          rw [if_neg hs, if_neg hs]
          simp only [div_enc hext ht hm]
          rcases ExactDivCoeff.exactDiv _ (Poly.coeffPow l (n * (k + 1 - n) + ((encP r).length - 1) - k)) with _ | y
          · rfl
          · rfl

theorem nonzeroResultant_encP (hext : ModInt.IsExtGcd ext) (ht : t.Instantiated) (hm : t.fits m)
    (u v : Poly (ZMod m)) :
    nonzeroResultant t ext (encP u) (encP v) = (Poly.nonzeroResultant u v).map (Option.map enc) := by
  unfold nonzeroResultant Poly.nonzeroResultant
  simp only [isEmpty_encP, length_encP]
  by_cases h : (u.isZero || v.isZero) = true
  · rw [if_pos h, if_pos h]; rfl
  rw [if_neg h, if_neg h]
  cases he : u.raw.elements with
  | nil => simp [Poly.isZero, he] at h
  | cons a as =>
    have h1 : (encP u).head? = some (enc a) := by simp [encP, he]
    simp only [h1, bind, Option.bind, zeroLike_enc hm, resultantLoop_enc hext ht hm]

end ModPoly

end Algebraics
