import Verif.Lemmas.Poly
import Mathlib.Algebra.Polynomial.RingDivision

/-!
# Pseudo-division, exact division, Euclidean division
-/

set_option linter.unusedSectionVars false

namespace Algebraics

open Polynomial PolyCoeff

variable {T : Type} [CommRing T] [PolyCoeff T]

/-- `mkc · d` as an additive map -/
def mkcHom (d : Dv T) : Elem T →+ T where
  toFun := (mkc · d)
  map_zero' := mkc_zero d
  map_add' a b := mkc_add a b d

/-- `A` is `F / d` coefficientwise -/
def Rel (d : Dv T) (F : (Elem T)[X]) (A : T[X]) : Prop := ∀ i, A.coeff i = mkc (F.coeff i) d

theorem Rel.elem (es : List (Elem T)) (d : Dv T) : Rel d (listPoly es) (elemPoly (T := T) es d) := by
  intro i
  rw [Poly.elemPoly_coeff, listPoly_coeff]

theorem Rel.unique {d : Dv T} {F : (Elem T)[X]} {A B : T[X]} (h : Rel d F A) (h' : Rel d F B) :
    A = B := by
  ext i; rw [h i, h' i]

theorem Rel.add {d : Dv T} {F G : (Elem T)[X]} {A B : T[X]} (h : Rel d F A) (h' : Rel d G B) :
    Rel d (F + G) (A + B) := by
  intro i; rw [coeff_add, coeff_add, h i, h' i, mkc_add]

theorem Rel.mul {d d' : Dv T} {F G : (Elem T)[X]} {A B : T[X]} (h : Rel d F A) (h' : Rel d' G B) :
    Rel (d * d') (F * G) (A * B) := by
  intro i
  rw [coeff_mul, coeff_mul]
  have : ∀ s : Finset (ℕ × ℕ), mkc (T := T) (∑ x ∈ s, F.coeff x.1 * G.coeff x.2) (d * d') =
      ∑ x ∈ s, mkc (F.coeff x.1 * G.coeff x.2) (d * d') := by
    intro s
    exact map_sum (mkcHom (T := T) (d * d')) _ s
  rw [this]
  apply Finset.sum_congr rfl
  intro x _
  rw [h, h', mkc_mul]

theorem Rel.C (d : Dv T) (c : Elem T) : Rel (T := T) d (C c) (Polynomial.C (mkc c d)) := by
  intro i
  rw [coeff_C, coeff_C]
  split_ifs
  · rfl
  · rw [mkc_zero]

theorem mkc_pow (c : Elem T) (d : Dv T) (n : ℕ) : mkc (T := T) (c ^ n) (d ^ n) = mkc c d ^ n := by
  induction n with
  | zero => simp [mkc_one]
  | succ n ih => rw [pow_succ, pow_succ, mkc_mul, ih, pow_succ]

namespace Poly

section Elements

/-- `Σ qs[i] dl^i X^i` -/
noncomputable def scaledPoly (dl : Elem T) : List (Elem T) → (Elem T)[X]
  | [] => 0
  | q :: qs => C q + C dl * X * scaledPoly dl qs

theorem scaledPoly_append (dl : Elem T) (qs : List (Elem T)) (c : Elem T) :
    scaledPoly (T := T) dl (qs ++ [c]) =
      scaledPoly dl qs + C (dl ^ qs.length * c) * X ^ qs.length := by
  induction qs with
  | nil => simp [scaledPoly]
  | cons q qs ih =>
    simp only [List.cons_append, scaledPoly, ih, List.length_cons, pow_succ, C_mul]
    ring

theorem scaleTail_spec (dl f : Elem T) (qs : List (Elem T)) :
    listPoly (scaleTail (T := T) dl f qs).1 = C f * scaledPoly (T := T) dl qs ∧
      (scaleTail (T := T) dl f qs).2 = f * dl ^ qs.length := by
  induction qs generalizing f with
  | nil => simp [scaleTail, scaledPoly]
  | cons q qs ih =>
    obtain ⟨h1, h2⟩ := ih (f * dl)
    constructor
    · simp only [scaleTail, listPoly_cons, h1, scaledPoly, C_mul]; ring
    · simp only [scaleTail, h2, List.length_cons, pow_succ]; ring

theorem subRow_spec (qc : Elem T) (ds rs : List (Elem T)) (h : ds.length ≤ rs.length) :
    (subRow (T := T) qc ds rs).length = rs.length ∧
      listPoly (subRow (T := T) qc ds rs) = listPoly rs - C qc * listPoly ds := by
  induction ds generalizing rs with
  | nil => cases rs <;> simp [subRow]
  | cons d ds ih =>
    cases rs with
    | nil => simp at h
    | cons r rs =>
      obtain ⟨h1, h2⟩ := ih rs (by simpa using h)
      constructor
      · simp [subRow, h1]
      · simp only [subRow, listPoly_cons, h2, C_sub, C_mul]; ring

theorem subAt_spec (qc : Elem T) (ds : List (Elem T)) (k : ℕ) (rs : List (Elem T))
    (h : k + ds.length ≤ rs.length) :
    (subAt (T := T) qc ds k rs).length = rs.length ∧
      listPoly (subAt (T := T) qc ds k rs) = listPoly rs - C qc * X ^ k * listPoly ds := by
  induction k generalizing rs with
  | zero =>
    have := subRow_spec (T := T) qc ds rs (by simpa using h)
    simpa [subAt] using this
  | succ k ih =>
    cases rs with
    | nil => simp at h
    | cons r rs =>
      obtain ⟨h1, h2⟩ := ih rs (by simp only [List.length_cons] at h; omega)
      constructor
      · simp [subAt, h1]
      · simp only [subAt, listPoly_cons, h2, pow_succ]; ring

theorem listPoly_map_mul_right (l : List (Elem T)) (c : Elem T) :
    listPoly (l.map (· * c)) = C c * listPoly l := by
  induction l with
  | nil => simp
  | cons a l ih => simp only [List.map_cons, listPoly_cons, ih, C_mul]; ring

theorem pdrLoop_spec (den : List (Elem T)) (hden : den ≠ []) (k : ℕ) :
    ∀ (rem q : List (Elem T)), rem.length = k + (den.length - 1) →
      ∃ qs : List (Elem T), qs.length = k ∧
        (pdrLoop (T := T) (den.getLastD 0) den k rem q).1 = qs ++ q ∧
        (pdrLoop (T := T) (den.getLastD 0) den k rem q).2.length = den.length - 1 ∧
        C (den.getLastD 0) ^ k * listPoly rem =
          scaledPoly (T := T) (den.getLastD 0) qs * listPoly den +
            listPoly (pdrLoop (T := T) (den.getLastD 0) den k rem q).2 := by
  have hden' : listPoly den =
      listPoly den.dropLast + X ^ (den.length - 1) * C (den.getLastD 0) := by
    conv_lhs => rw [← List.dropLast_append_getLast hden]
    rw [listPoly_append, List.length_dropLast]
    simp only [listPoly_cons, listPoly_nil, mul_zero, add_zero]
    rw [List.getLastD_eq_getLast?, List.getLast?_eq_getLast_of_ne_nil hden]; rfl
  induction k with
  | zero =>
    intro rem q hlen
    refine ⟨[], rfl, rfl, by simpa [pdrLoop] using hlen, ?_⟩
    simp [pdrLoop, scaledPoly]
  | succ k ih =>
    intro rem q hlen
    set dl := den.getLastD 0 with hdl
    have hne : rem ≠ [] := by
      intro h; rw [h] at hlen; simp at hlen; omega
    have hrem : listPoly rem =
        listPoly rem.dropLast + X ^ (k + (den.length - 1)) * C (rem.getLastD 0) := by
      conv_lhs => rw [← List.dropLast_append_getLast hne]
      rw [listPoly_append, List.length_dropLast, hlen]
      simp only [listPoly_cons, listPoly_nil, mul_zero, add_zero]
      rw [List.getLastD_eq_getLast?, List.getLast?_eq_getLast_of_ne_nil hne]
      rw [show k + 1 + (den.length - 1) - 1 = k + (den.length - 1) by omega]; rfl
    have hlen1 : (rem.dropLast.map (· * dl)).length = k + (den.length - 1) := by
      simp [hlen]
    obtain ⟨h1, h2⟩ := subAt_spec (T := T) (rem.getLastD 0) den.dropLast k
      (rem.dropLast.map (· * dl)) (by rw [hlen1, List.length_dropLast])
    obtain ⟨qs, e1, e2, e3, e4⟩ := ih _ (rem.getLastD 0 :: q) (h1.trans hlen1)
    refine ⟨qs ++ [rem.getLastD 0], by simp [e1], ?_, ?_, ?_⟩
    · simp only [pdrLoop]; rw [e2]; simp
    · simp only [pdrLoop]; exact e3
    · simp only [pdrLoop]
      rw [scaledPoly_append, e1]
      rw [h2, listPoly_map_mul_right] at e4
      have : C dl ^ (k + 1) * listPoly rem =
          C dl ^ k * (C dl * listPoly rem.dropLast -
            C (rem.getLastD 0) * X ^ k * listPoly den.dropLast) +
          C (dl ^ k * rem.getLastD 0) * X ^ k * listPoly den := by
        rw [hrem, hden', C_mul, C_pow, pow_add]; ring
      rw [this, e4]; ring

theorem elementPseudoDivRem_spec (num den : List (Elem T)) (hden : den ≠ []) (ql : ℕ) (hql : 0 < ql)
    (hlen : num.length = ql + (den.length - 1)) :
    (elementPseudoDivRem (T := T) num den ql).2.2 = den.getLastD 0 ^ ql ∧
    (elementPseudoDivRem (T := T) num den ql).2.1.length = den.length - 1 ∧
    C (den.getLastD 0 ^ ql) * listPoly num =
      listPoly (elementPseudoDivRem (T := T) num den ql).1 * listPoly den +
        listPoly (elementPseudoDivRem (T := T) num den ql).2.1 := by
  obtain ⟨qs, e1, e2, e3, e4⟩ := pdrLoop_spec (T := T) den hden ql num [] hlen
  rw [List.append_nil] at e2
  cases qs with
  | nil => simp at e1; omega
  | cons q0 qs =>
    obtain ⟨s1, s2⟩ := scaleTail_spec (T := T) (den.getLastD 0) (den.getLastD 0) qs
    unfold elementPseudoDivRem
    dsimp only
    rw [e2]
    dsimp only
    refine ⟨?_, e3, ?_⟩
    · rw [s2, ← pow_succ', ← List.length_cons (a := q0), e1]
    · rw [C_pow, e4, listPoly_cons, s1, scaledPoly]; ring

end Elements

variable [DecidableEq T]

/-- what the code's pseudo-division returns -/
theorem pseudoDivRem_spec (p q : Poly T) (hq : q.toPoly ≠ 0) :
    ∃ r, p.pseudoDivRem q = some r ∧
      C r.factor * p.toPoly = r.quotient.toPoly * q.toPoly + r.remainder.toPoly ∧
      r.remainder.toPoly.degree < q.toPoly.degree ∧
      r.factor = q.toPoly.leadingCoeff ^ (p.len + 1 - q.len) := by
  have hqz : q.isZero = false := by
    rw [Bool.eq_false_iff, Ne, isZero_iff]; exact hq
  have hqc : q.coeffs ≠ [] := by rwa [Ne, coeffs_eq_nil_iff]
  have hqe : q.raw.elements ≠ [] := by simpa [coeffs] using hqc
  have hdegq : q.toPoly.degree = ((q.len - 1 : ℕ) : WithBot ℕ) := by
    rw [degree_eq_natDegree hq, (toPoly_leading q hqc).1]
  have hqlen : 0 < q.len := by rw [len_eq]; exact List.length_pos_of_ne_nil hqc
  have hlead : q.toPoly.leadingCoeff = mkc (q.raw.elements.getLastD 0) q.raw.divisor := by
    have h := List.getLast?_eq_getLast_of_ne_nil hqc
    rw [(toPoly_leading q hqc).2, List.getLastD_eq_getLast?]
    simp only [coeffs, List.getLast?_map, List.getLast?_eq_getLast_of_ne_nil hqe,
      Option.map_some, Option.some.injEq] at h
    rw [List.getLast?_eq_getLast_of_ne_nil hqe]
    exact h.symm
  unfold pseudoDivRem quotientLen
  rw [hqz]
  by_cases hlt : p.len < q.len
  · rw [if_pos hlt]
    refine ⟨⟨0, p, 1⟩, rfl, by simp, ?_, ?_⟩
    · rw [hdegq]
      have := listPoly_degree_lt p.coeffs
      rw [← len_eq] at this
      exact this.trans_le (by exact_mod_cast (by omega : p.len ≤ q.len - 1))
    · rw [show p.len + 1 - q.len = 0 by omega, pow_zero]
  · rw [if_neg hlt]
    have hql : 1 + p.len - q.len = p.len + 1 - q.len := by omega
    set ql := 1 + p.len - q.len with hqldef
    have hqlpos : 0 < ql := by omega
    obtain ⟨s1, s2, s3⟩ := elementPseudoDivRem_spec (T := T) p.raw.elements q.raw.elements hqe ql
      hqlpos (by show p.len = ql + (q.len - 1); omega)
    have hpow : q.raw.divisor ^ (ql - 1) * q.raw.divisor = q.raw.divisor ^ ql := by
      rw [← pow_succ]; congr 1; omega
    refine ⟨_, rfl, ?_, ?_, ?_⟩
    · dsimp only
      rw [toPoly_normalize, toPoly_normalize, s1, hpow]
      have r1 := (Rel.C (T := T) (q.raw.divisor ^ ql) (q.raw.elements.getLastD 0 ^ ql)).mul
        (Rel.elem (T := T) p.raw.elements p.raw.divisor)
      rw [s3] at r1
      have r2 := (Rel.elem (T := T) (elementPseudoDivRem (T := T) p.raw.elements q.raw.elements ql).1
        (q.raw.divisor ^ (ql - 1) * p.raw.divisor)).mul
        (Rel.elem (T := T) q.raw.elements q.raw.divisor)
      rw [mul_right_comm, hpow] at r2
      have r3 := r2.add (Rel.elem (T := T)
        (elementPseudoDivRem (T := T) p.raw.elements q.raw.elements ql).2.1
        (q.raw.divisor ^ ql * p.raw.divisor))
      exact r1.unique r3
    · dsimp only
      rw [toPoly_normalize, hdegq]
      have := listPoly_degree_lt ((elementPseudoDivRem (T := T) p.raw.elements q.raw.elements
        ql).2.1.map (mkc · (q.raw.divisor ^ (ql - 1) * q.raw.divisor * p.raw.divisor)))
      rw [List.length_map, s2] at this
      exact this
    · dsimp only
      rw [s1, hpow, mkc_pow, hlead, hql]

theorem pseudoDivRem_none (p q : Poly T) : p.pseudoDivRem q = none ↔ q.toPoly = 0 := by
  constructor
  · intro h
    by_contra hq
    obtain ⟨r, hr, _⟩ := pseudoDivRem_spec p q hq
    rw [hr] at h; cases h
  · intro h
    unfold pseudoDivRem
    rw [if_pos ((isZero_iff q).mpr h)]

section ExactDiv

variable [ExactDivCoeff T]
open ExactDivCoeff

theorem mapM_exactDiv_sound (l m : List T) (c : T) (h : l.mapM (fun a => exactDiv a c) = some m) :
    listPoly l = listPoly m * C c := by
  induction l generalizing m with
  | nil => simp at h; subst h; simp
  | cons a l ih =>
    rw [List.mapM_cons] at h
    cases h1 : exactDiv a c with
    | none => rw [h1] at h; simp at h
    | some b =>
      rw [h1] at h
      cases h2 : l.mapM (fun a => exactDiv a c) with
      | none => rw [h2] at h; simp at h
      | some m' =>
        rw [h2] at h
        simp at h
        subst h
        rw [listPoly_cons, listPoly_cons, ih m' h2, ← exactDiv_sound a c b h1, C_mul]
        ring

theorem divCoeff_sound (p r : Poly T) (c : T) (h : p.divCoeff c = some r) :
    r.toPoly * C c = p.toPoly := by
  unfold divCoeff at h
  cases h1 : p.coeffs.mapM (fun a => exactDiv a c) with
  | none => rw [h1] at h; simp at h
  | some m =>
    rw [h1] at h
    simp only [Option.map_some, Option.some.injEq] at h
    rw [← h, toPoly_ofCoeffs, ← mapM_exactDiv_sound _ _ _ h1]
    rfl

end ExactDiv

end Poly

/-- Completeness of exact division on an integral domain: it succeeds exactly on multiples of a
nonzero divisor. -/
class LawfulExactDiv (T : Type) [CommRing T] [ExactDivCoeff T] : Prop where
  exactDiv_complete : ∀ q b : T, b ≠ 0 → ExactDivCoeff.exactDiv (q * b) b = some q
  exactDiv_zero : ∀ a : T, ExactDivCoeff.exactDiv a 0 = none

open ExactDivCoeff in
theorem exactDiv_eq_some_iff {T : Type} [CommRing T] [ExactDivCoeff T] [LawfulExactDiv T]
    (a b q : T) : exactDiv a b = some q ↔ b ≠ 0 ∧ a = q * b := by
  constructor
  · intro h
    refine ⟨?_, (exactDiv_sound a b q h).symm⟩
    rintro rfl
    rw [LawfulExactDiv.exactDiv_zero] at h; cases h
  · rintro ⟨h, rfl⟩
    exact LawfulExactDiv.exactDiv_complete q b h

namespace Poly

variable [DecidableEq T] [ExactDivCoeff T] [LawfulExactDiv T]
open ExactDivCoeff

theorem mapM_exactDiv_complete (m : List T) (c : T) (hc : c ≠ 0) :
    (m.map (· * c)).mapM (fun a => exactDiv a c) = some m := by
  induction m with
  | nil => simp
  | cons a m ih =>
    rw [List.map_cons, List.mapM_cons, LawfulExactDiv.exactDiv_complete a c hc, ih]
    rfl

theorem divCoeff_complete [IsDomain T] (p r : Poly T) (c : T) (hc : c ≠ 0)
    (h : p.toPoly = r.toPoly * C c) : p.divCoeff c = some r := by
  have : p.coeffs = r.coeffs.map (· * c) := by
    apply listPoly_inj _ _ (coeffs_last p)
    · intro h'
      rw [List.getLast_map]
      exact mul_ne_zero (coeffs_last r _) hc
    · show p.toPoly = _
      rw [h]
      unfold toPoly
      generalize r.coeffs = l
      induction l with
      | nil => simp
      | cons a l ih => simp only [List.map_cons, listPoly_cons, ← ih, C_mul]; ring
  unfold divCoeff
  rw [this, mapM_exactDiv_complete _ _ hc]
  simp only [Option.map_some, Option.some.injEq]
  apply coeffs_injective
  rw [coeffs_ofCoeffs]
  unfold stripZeros
  rw [List.rdropWhile_eq_self_iff]
  intro h'
  simpa using coeffs_last r h'

theorem divCoeff_eq_some_iff [IsDomain T] (p r : Poly T) (c : T) (hc : c ≠ 0) :
    p.divCoeff c = some r ↔ p.toPoly = r.toPoly * C c :=
  ⟨fun h => (divCoeff_sound p r c h).symm, divCoeff_complete p r c hc⟩

theorem exactDivPoly_sound (p q r : Poly T) (h : p.exactDivPoly q = some r) :
    q.toPoly ≠ 0 := by
  intro hq
  unfold exactDivPoly exactPseudoDiv at h
  rw [(pseudoDivRem_none p q).mpr hq] at h
  cases h

/-- exact division of polynomials over an integral domain -/
theorem exactDivPoly_eq_some_iff [IsDomain T] (p q r : Poly T) :
    p.exactDivPoly q = some r ↔ q.toPoly ≠ 0 ∧ p.toPoly = r.toPoly * q.toPoly := by
  constructor
  · intro h
    have hq := exactDivPoly_sound p q r h
    refine ⟨hq, ?_⟩
    obtain ⟨s, hs, h1, h2, h3⟩ := pseudoDivRem_spec p q hq
    have hf : s.factor ≠ 0 := by rw [h3]; exact pow_ne_zero _ (leadingCoeff_ne_zero.mpr hq)
    unfold exactDivPoly exactPseudoDiv at h
    rw [hs] at h
    dsimp only at h
    by_cases hz : s.remainder.isZero = true
    · rw [if_pos hz] at h
      dsimp only at h
      have := divCoeff_sound _ _ _ h
      rw [(isZero_iff _).mp hz, add_zero, ← this] at h1
      have hC : (C s.factor : T[X]) ≠ 0 := by rwa [Ne, C_eq_zero]
      apply mul_left_cancel₀ hC
      rw [h1]; ring
    · rw [if_neg hz] at h; cases h
  · rintro ⟨hq, h⟩
    obtain ⟨s, hs, h1, h2, h3⟩ := pseudoDivRem_spec p q hq
    have hf : s.factor ≠ 0 := by rw [h3]; exact pow_ne_zero _ (leadingCoeff_ne_zero.mpr hq)
    have hrem : s.remainder.toPoly = 0 := by
      by_contra hne
      have e : s.remainder.toPoly = (C s.factor * r.toPoly - s.quotient.toPoly) * q.toPoly := by
        rw [h] at h1; linear_combination -h1
      have hd : q.toPoly.degree ≤ s.remainder.toPoly.degree := by
        apply degree_le_of_dvd _ hne
        rw [e]; exact dvd_mul_left _ _
      exact absurd h2 (not_lt.mpr hd)
    have hquot : s.quotient.toPoly = r.toPoly * C s.factor := by
      apply mul_right_cancel₀ hq
      rw [hrem, add_zero] at h1
      rw [← h1, h]; ring
    unfold exactDivPoly exactPseudoDiv
    rw [hs]
    dsimp only
    rw [if_pos ((isZero_iff _).mpr hrem)]
    exact divCoeff_complete _ _ _ hf hquot

end Poly

/-- `ExactDiv` for nested polynomials. -/
instance [DecidableEq T] [ExactDivCoeff T] [LawfulExactDiv T] [IsDomain T] :
    ExactDivCoeff (Poly T) where
  exactDiv := Poly.exactDivPoly
  exactDiv_sound a b q h := by
    apply Poly.toPoly_injective
    rw [Poly.toPoly_mul]
    exact ((Poly.exactDivPoly_eq_some_iff a b q).mp h).2.symm

instance [DecidableEq T] [ExactDivCoeff T] [LawfulExactDiv T] [IsDomain T] :
    LawfulExactDiv (Poly T) where
  exactDiv_complete q b hb := by
    refine (Poly.exactDivPoly_eq_some_iff _ _ _).mpr ⟨?_, Poly.toPoly_mul _ _⟩
    rwa [Ne, Poly.toPoly_eq_zero]
  exactDiv_zero a := by
    show Poly.exactDivPoly a 0 = none
    unfold Poly.exactDivPoly Poly.exactPseudoDiv
    rw [(Poly.pseudoDivRem_none a 0).mpr Poly.toPoly_zero]

/-- exact division of `BigInt`s: `checkedExactDivInt`. -/
instance : ExactDivCoeff ℤ where
  exactDiv := checkedExactDivInt
  exactDiv_sound a b q h := by
    unfold checkedExactDivInt at h
    split_ifs at h with h1 h2
    cases h
    exact Int.tdiv_mul_cancel (Int.dvd_of_tmod_eq_zero h2)

instance : LawfulExactDiv ℤ where
  exactDiv_complete q b hb := by
    show checkedExactDivInt _ _ = _
    unfold checkedExactDivInt
    rw [if_neg hb, if_pos (Int.mul_tmod_left q b), Int.mul_tdiv_cancel q hb]
  exactDiv_zero a := by
    show checkedExactDivInt _ _ = _
    unfold checkedExactDivInt
    simp

/-- `src/traits.rs` `ExactDiv for Ratio<T>`: division, failing on a zero divisor. -/
instance : ExactDivCoeff ℚ where
  exactDiv a b := if b = 0 then none else some (a / b)
  exactDiv_sound a b q h := by
    split_ifs at h with h1
    cases h
    exact div_mul_cancel₀ a h1

instance : LawfulExactDiv ℚ where
  exactDiv_complete q b hb := by
    show (if b = 0 then none else some (q * b / b)) = _
    rw [if_neg hb, mul_div_cancel_right₀ q hb]
  exactDiv_zero a := by
    show (if (0 : ℚ) = 0 then none else some (a / 0)) = _
    simp

end Algebraics
