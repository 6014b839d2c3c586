import Verif.Spec.Poly
import Mathlib.Tactic
import Mathlib.Algebra.Polynomial.Degree.Lemmas
import Mathlib.Algebra.Polynomial.Derivative
import Mathlib.Algebra.Polynomial.Eval.Degree

/-!
# Refinement lemmas: the code's polynomial operations against Mathlib's `T[X]`
-/

set_option linter.unusedSectionVars false

namespace Algebraics

open Polynomial PolyCoeff

section ListPoly

variable {R : Type} [CommRing R]

@[simp] theorem listPoly_nil : listPoly ([] : List R) = 0 := rfl
@[simp] theorem listPoly_cons (c : R) (cs : List R) :
    listPoly (c :: cs) = C c + X * listPoly cs := rfl

theorem listPoly_coeff (l : List R) (i : ℕ) : (listPoly l).coeff i = l.getD i 0 := by
  induction l generalizing i with
  | nil => simp
  | cons a l ih =>
    cases i with
    | zero => simp
    | succ i => simp [ih]

theorem listPoly_append (l m : List R) :
    listPoly (l ++ m) = listPoly l + X ^ l.length * listPoly m := by
  induction l with
  | nil => simp
  | cons a l ih => simp [ih, pow_succ]; ring

theorem listPoly_replicate_zero (n : ℕ) : listPoly (List.replicate n (0 : R)) = 0 := by
  induction n with
  | zero => rfl
  | succ n ih => simp [List.replicate_succ, ih]

theorem listPoly_stripZeros [DecidableEq R] (l : List R) : listPoly (stripZeros l) = listPoly l := by
  induction l using List.reverseRecOn with
  | nil => rfl
  | append_singleton l a ih =>
    unfold stripZeros at *
    by_cases h : a = 0
    · rw [List.rdropWhile_concat_pos _ _ _ (by simpa using h), ih, listPoly_append]
      simp [h]
    · rw [List.rdropWhile_concat_neg _ _ _ (by simpa using h)]

theorem listPoly_natDegree_lt (l : List R) (h : l ≠ []) : (listPoly l).natDegree < l.length := by
  rw [Nat.lt_iff_le_pred (List.length_pos_of_ne_nil h)]
  rw [natDegree_le_iff_coeff_eq_zero]
  intro N hN
  rw [listPoly_coeff]
  have : l.length ≤ N := by omega
  simp [List.getElem?_eq_none this]

theorem listPoly_degree_lt (l : List R) : (listPoly l).degree < l.length := by
  rw [degree_lt_iff_coeff_zero]
  intro m hm
  rw [listPoly_coeff]
  simp [List.getElem?_eq_none hm]

theorem listPoly_leading (l : List R) (h : l ≠ []) (hl : l.getLast h ≠ 0) :
    (listPoly l).natDegree = l.length - 1 ∧ (listPoly l).leadingCoeff = l.getLast h := by
  have hlen := List.length_pos_of_ne_nil h
  have hc : (listPoly l).coeff (l.length - 1) = l.getLast h := by
    rw [listPoly_coeff, List.getLast_eq_getElem]
    simp [List.getElem?_eq_getElem (show l.length - 1 < l.length by omega)]
  have h1 : (listPoly l).natDegree = l.length - 1 := by
    apply le_antisymm
    · have := listPoly_natDegree_lt l h; omega
    · apply le_natDegree_of_ne_zero; rw [hc]; exact hl
  exact ⟨h1, by rw [leadingCoeff, h1, hc]⟩

theorem listPoly_ne_zero (l : List R) (h : l ≠ []) (hl : l.getLast h ≠ 0) : listPoly l ≠ 0 := by
  intro hz
  have := (listPoly_leading l h hl).2
  rw [hz, leadingCoeff_zero] at this
  exact hl this.symm

theorem listPoly_inj (l m : List R) (hl : ∀ h : l ≠ [], l.getLast h ≠ 0)
    (hm : ∀ h : m ≠ [], m.getLast h ≠ 0) (h : listPoly l = listPoly m) : l = m := by
  have hlen : l.length = m.length := by
    by_cases h1 : l = []
    · by_cases h2 : m = []
      · rw [h1, h2]
      · subst h1
        exact absurd h.symm (listPoly_ne_zero m h2 (hm h2))
    · by_cases h2 : m = []
      · subst h2
        exact absurd h (listPoly_ne_zero l h1 (hl h1))
      · have e1 := (listPoly_leading l h1 (hl h1)).1
        have e2 := (listPoly_leading m h2 (hm h2)).1
        rw [h] at e1
        have := List.length_pos_of_ne_nil h1
        have := List.length_pos_of_ne_nil h2
        omega
  apply List.ext_getElem hlen
  intro i hi hi'
  have := congrArg (fun p => p.coeff i) h
  simp only [listPoly_coeff] at this
  simpa [List.getElem?_eq_getElem hi, List.getElem?_eq_getElem hi'] using this

end ListPoly

variable {T : Type} [CommRing T] [PolyCoeff T]

theorem mkc_neg (a : Elem T) (d : Dv T) : mkc (T := T) (-a) d = - mkc a d := by
  have := mkc_add (T := T) a (-a) d
  rw [add_neg_cancel, mkc_zero] at this
  exact (neg_eq_of_add_eq_zero_right this.symm).symm

theorem mkc_sub (a b : Elem T) (d : Dv T) : mkc (T := T) (a - b) d = mkc a d - mkc b d := by
  rw [sub_eq_add_neg, mkc_add, mkc_neg, ← sub_eq_add_neg]

theorem mkc_lift (a : Elem T) (d d' : Dv T) : mkc (T := T) (a * d2e d') (d * d') = mkc a d := by
  rw [mkc_mul, mkc_d2e, mul_one]

/-- polynomial denoted by an element vector over a divisor -/
noncomputable def elemPoly (es : List (Elem T)) (d : Dv T) : T[X] := listPoly (es.map (mkc · d))

namespace Poly

theorem toPoly_eq (p : Poly T) : p.toPoly = elemPoly p.raw.elements p.raw.divisor := rfl

theorem stripZeros_map_mkc [DecidableEq T] (es : List (Elem T)) (d : Dv T) :
    (stripZeros es).map (mkc (T := T) · d) = stripZeros (es.map (mkc · d)) := by
  induction es using List.reverseRecOn with
  | nil => rfl
  | append_singleton l a ih =>
    unfold stripZeros at *
    rw [List.map_append, List.map_singleton]
    by_cases h : a = 0
    · rw [List.rdropWhile_concat_pos _ _ _ (by simpa using h), List.rdropWhile_concat_pos _ _ _
        (by simpa using (mkc_eq_zero a d).mpr h), ih]
    · rw [List.rdropWhile_concat_neg _ _ _ (by simpa using h), List.rdropWhile_concat_neg _ _ _
        (by simpa using fun hh => h ((mkc_eq_zero a d).mp hh))]
      simp

theorem toPoly_normalize (es : List (Elem T)) (d : Dv T) :
    (normalize (T := T) es d).toPoly = elemPoly es d := by
  classical
  unfold toPoly coeffs normalize elemPoly
  dsimp only
  rw [reduce_val, stripZeros_map_mkc, listPoly_stripZeros]

theorem coeffs_last (p : Poly T) (h : p.coeffs ≠ []) : p.coeffs.getLast h ≠ 0 := by
  unfold coeffs at *
  have h' : p.raw.elements ≠ [] := by simpa using h
  rw [List.getLast_map, Ne, mkc_eq_zero]
  exact p.canonical.1 h'

theorem coeffs_injective {p q : Poly T} (h : p.coeffs = q.coeffs) : p = q := by
  have := reduce_congr (T := T) _ _ _ _ h
  obtain ⟨⟨pe, pd⟩, hp⟩ := p
  obtain ⟨⟨qe, qd⟩, hq⟩ := q
  have h1 := hp.2
  have h2 := hq.2
  dsimp only at this h1 h2
  rw [h1, h2, Prod.mk.injEq] at this
  obtain ⟨rfl, rfl⟩ := this
  rfl

theorem toPoly_injective : Function.Injective (toPoly (T := T)) := by
  intro p q h
  exact coeffs_injective (listPoly_inj _ _ (coeffs_last p) (coeffs_last q) h)

theorem len_eq (p : Poly T) : p.len = p.coeffs.length := by simp [len, coeffs]

theorem isZero_iff (p : Poly T) : p.isZero = true ↔ p.toPoly = 0 := by
  unfold isZero
  rw [List.isEmpty_iff]
  constructor
  · intro h; simp [toPoly_eq, elemPoly, h]
  · intro h
    by_contra hc
    have h' : p.coeffs ≠ [] := by simpa [coeffs] using hc
    exact listPoly_ne_zero _ h' (coeffs_last p h') h

theorem toPoly_leading (p : Poly T) (h : p.coeffs ≠ []) :
    p.toPoly.natDegree = p.len - 1 ∧ p.toPoly.leadingCoeff = p.coeffs.getLast h := by
  rw [len_eq]; exact listPoly_leading _ h (coeffs_last p h)

theorem coeffs_eq_nil_iff (p : Poly T) : p.coeffs = [] ↔ p.toPoly = 0 := by
  rw [← isZero_iff]; unfold isZero coeffs; simp

theorem len_eq_zero_iff (p : Poly T) : p.len = 0 ↔ p.toPoly = 0 := by
  rw [len_eq, List.length_eq_zero_iff, coeffs_eq_nil_iff]

theorem len_of_ne (p : Poly T) (h : p.toPoly ≠ 0) : p.len = p.toPoly.natDegree + 1 := by
  have h' : p.coeffs ≠ [] := by rwa [Ne, coeffs_eq_nil_iff]
  have := (toPoly_leading p h').1
  have := List.length_pos_of_ne_nil h'
  rw [← len_eq] at this
  omega

variable [DecidableEq T]

theorem coeffs_ofCoeffs (cs : List T) : (ofCoeffs cs).coeffs = stripZeros cs := split_val _

theorem toPoly_ofCoeffs (cs : List T) : (ofCoeffs cs).toPoly = listPoly cs := by
  rw [toPoly, coeffs_ofCoeffs, listPoly_stripZeros]

@[simp] theorem toPoly_zero : (0 : Poly T).toPoly = 0 := toPoly_ofCoeffs []
@[simp] theorem toPoly_one : (1 : Poly T).toPoly = 1 := by
  show (ofCoeffs [1]).toPoly = 1
  rw [toPoly_ofCoeffs]; simp

theorem toPoly_eq_zero {p : Poly T} : p.toPoly = 0 ↔ p = 0 := by
  rw [← toPoly_zero (T := T)]; exact toPoly_injective.eq_iff

theorem nonzeroCoefficient_eq (p : Poly T) (i : ℕ) : p.nonzeroCoefficient i = p.coeffs[i]? := by
  simp [nonzeroCoefficient, coeffs]

@[simp] theorem coefficient_eq (p : Poly T) (i : ℕ) : p.coefficient i = p.toPoly.coeff i := by
  rw [coefficient, nonzeroCoefficient_eq, toPoly, listPoly_coeff]; simp

theorem nonzeroHighest_eq (p : Poly T) :
    p.nonzeroHighestPowerCoefficient = if p.toPoly = 0 then none else some p.toPoly.leadingCoeff := by
  unfold nonzeroHighestPowerCoefficient
  by_cases h : p.toPoly = 0
  · rw [if_pos h, if_pos ((len_eq_zero_iff p).mpr h)]
  · rw [if_neg h, if_neg (fun hh => h ((len_eq_zero_iff p).mp hh)), nonzeroCoefficient_eq]
    have h' : p.coeffs ≠ [] := by rwa [Ne, coeffs_eq_nil_iff]
    rw [(toPoly_leading p h').2, ← List.getLast?_eq_getLast_of_ne_nil h', List.getLast?_eq_getElem?,
      len_eq]

theorem highest_eq (p : Poly T) : p.highestPowerCoefficient = p.toPoly.leadingCoeff := by
  rw [highestPowerCoefficient, nonzeroHighest_eq]
  by_cases h : p.toPoly = 0 <;> simp [h]

theorem degree_eq (p : Poly T) :
    p.degree = if p.toPoly = 0 then none else some p.toPoly.natDegree := by
  unfold degree
  by_cases h : p.toPoly = 0
  · rw [if_pos h, if_pos ((len_eq_zero_iff p).mpr h)]
  · rw [if_neg h, if_neg (fun hh => h ((len_eq_zero_iff p).mp hh)), len_of_ne p h]; simp

theorem toPoly_makeMonomial (c : T) (n : ℕ) : (makeMonomial c n).toPoly = monomial n c := by
  unfold makeMonomial
  by_cases h : c = 0
  · simp [h]
  · rw [dif_neg h, toPoly_eq]
    simp only [elemPoly, List.map_append, List.map_replicate, List.map_singleton, mkc_zero,
      toElem_val]
    rw [listPoly_append, listPoly_replicate_zero]
    rw [← C_mul_X_pow_eq_monomial, List.length_replicate, listPoly_cons, listPoly_nil, mul_zero,
      add_zero, zero_add, mul_comm]

/-! ### addition -/

theorem elemPoly_addSub (f : Elem T → Elem T → Elem T) (s : T) (lm rm : Elem T) (dl dr d : Dv T)
    (hf : ∀ a b, mkc (T := T) (f a b) d = mkc a d + s * mkc b d)
    (hl : ∀ a, mkc (T := T) (a * lm) d = mkc a dl)
    (hr : ∀ a, mkc (T := T) (a * rm) d = mkc a dr) (l r : List (Elem T)) :
    elemPoly (addSubElems f lm rm l r) d = elemPoly l dl + C s * elemPoly r dr := by
  unfold elemPoly
  induction l, r using addSubElems.induct (T := T) with
  | case1 bs =>
    simp only [addSubElems, List.map_nil, listPoly_nil, zero_add]
    induction bs with
    | nil => simp
    | cons b bs ih =>
      simp only [List.map_cons, listPoly_cons, ih, hf, hl, hr, mkc_zero]
      simp; ring
  | case2 a as ih =>
    simp only [addSubElems, List.map_cons, listPoly_cons, ih, hl]
    simp
  | case3 a as b bs ih =>
    simp only [addSubElems, List.map_cons, listPoly_cons, ih, hf, hl, hr]
    simp; ring

theorem toPoly_addSub (f : Elem T → Elem T → Elem T) (s : T)
    (hf : ∀ a b (d : Dv T), mkc (T := T) (f a b) d = mkc a d + s * mkc b d) (l r : Poly T) :
    (addSub f l r).toPoly = l.toPoly + C s * r.toPoly := by
  unfold addSub
  by_cases h : (l.isZero && r.isZero) = true
  · rw [if_pos h]
    rw [Bool.and_eq_true, isZero_iff, isZero_iff] at h
    simp [h.2]
  · rw [if_neg h, toPoly_normalize]
    have e1 := gcdLcm_left (T := T) l.raw.divisor r.raw.divisor
    have e2 := gcdLcm_right (T := T) l.raw.divisor r.raw.divisor
    have e3 := gcdLcm_lcm (T := T) l.raw.divisor r.raw.divisor
    rw [elemPoly_addSub f s _ _ l.raw.divisor r.raw.divisor _ (fun a b => hf a b _)]
    · rfl
    · intro a
      rw [e3, e1, mkc_lift]
    · intro a
      rw [e3, mul_right_comm, e2, mkc_lift]

@[simp] theorem toPoly_add (l r : Poly T) : (l + r).toPoly = l.toPoly + r.toPoly := by
  have := toPoly_addSub (T := T) (· + ·) 1 (fun a b d => by rw [mkc_add, one_mul]) l r
  rw [C_1, one_mul] at this; exact this

@[simp] theorem toPoly_sub (l r : Poly T) : (l - r).toPoly = l.toPoly - r.toPoly := by
  have := toPoly_addSub (T := T) (· - ·) (-1) (fun a b d => by rw [mkc_sub]; ring) l r
  rw [C_neg, C_1, neg_one_mul, ← sub_eq_add_neg] at this; exact this

theorem listPoly_map_neg (l : List T) : listPoly (l.map (- ·)) = - listPoly l := by
  induction l with
  | nil => simp
  | cons a l ih => simp [ih]; ring

@[simp] theorem toPoly_neg (p : Poly T) : (-p).toPoly = -p.toPoly := by
  show (ofCoeffs (p.coeffs.map (- ·))).toPoly = _
  rw [toPoly_ofCoeffs, listPoly_map_neg]; rfl

/-! ### multiplication -/

theorem mulStep_length (acc : List (Elem T)) (i : ℕ) (v : Elem T) (hi : i ≤ acc.length) :
    acc.length ≤ (mulStep (T := T) acc i v).length ∧ i < (mulStep (T := T) acc i v).length := by
  unfold mulStep
  split_ifs with h
  · simp; omega
  · simp; omega

theorem elemPoly_append (l m : List (Elem T)) (d : Dv T) :
    elemPoly (T := T) (l ++ m) d = elemPoly l d + X ^ l.length * elemPoly m d := by
  simp [elemPoly, listPoly_append]

omit [DecidableEq T] in
theorem elemPoly_coeff (l : List (Elem T)) (d : Dv T) (i : ℕ) :
    (elemPoly (T := T) l d).coeff i = mkc (l.getD i 0) d := by
  rw [elemPoly, listPoly_coeff]
  by_cases h : i < l.length
  · simp [List.getElem?_eq_getElem h]
  · simp [List.getElem?_eq_none (Nat.not_lt.mp h), mkc_zero]

theorem elemPoly_mulStep (acc : List (Elem T)) (i : ℕ) (v : Elem T) (hi : i ≤ acc.length)
    (d : Dv T) :
    elemPoly (T := T) (mulStep acc i v) d = elemPoly acc d + C (mkc v d) * X ^ i := by
  unfold mulStep
  split_ifs with h
  · rw [elemPoly_append, ← h]
    simp only [elemPoly, List.map_cons, List.map_nil, listPoly_cons, listPoly_nil, mul_zero, add_zero]
    rw [mul_comm]
  · have hlt : i < acc.length := by omega
    ext j
    rw [elemPoly_coeff, coeff_add, elemPoly_coeff, coeff_C_mul, coeff_X_pow]
    by_cases hj : j = i
    · subst hj
      rw [if_pos rfl, mul_one, ← mkc_add, List.getD_eq_getElem?_getD, List.getElem?_set_self hlt]
      rfl
    · rw [if_neg hj, mul_zero, add_zero, List.getD_eq_getElem?_getD,
        List.getElem?_set_ne (Ne.symm hj), List.getD_eq_getElem?_getD]

theorem mulRow_spec (a : Elem T) (d d' : Dv T) (bs : List (Elem T)) :
    ∀ (i : ℕ) (acc : List (Elem T)), i ≤ acc.length →
      i + bs.length ≤ (mulRow (T := T) a i bs acc).length ∧
      elemPoly (T := T) (mulRow a i bs acc) (d * d') =
        elemPoly acc (d * d') + X ^ i * C (mkc a d) * elemPoly bs d' := by
  induction bs with
  | nil => intro i acc hi; simp [mulRow, elemPoly, hi]
  | cons b bs ih =>
    intro i acc hi
    obtain ⟨h1, h2⟩ := mulStep_length (T := T) acc i (a * b) hi
    obtain ⟨h3, h4⟩ := ih (i + 1) (mulStep acc i (a * b)) (by omega)
    refine ⟨by simp only [mulRow, List.length_cons]; omega, ?_⟩
    simp only [mulRow]
    rw [h4, elemPoly_mulStep _ _ _ hi, mkc_mul]
    simp [elemPoly, pow_succ]
    ring

theorem mulRows_spec (d d' : Dv T) (r : List (Elem T)) (hr : r ≠ []) (as : List (Elem T)) :
    ∀ (i : ℕ) (acc : List (Elem T)), i ≤ acc.length →
      elemPoly (T := T) (mulRows r i as acc) (d * d') =
        elemPoly acc (d * d') + X ^ i * elemPoly as d * elemPoly r d' := by
  induction as with
  | nil => intro i acc hi; simp [mulRows, elemPoly]
  | cons a as ih =>
    intro i acc hi
    obtain ⟨h1, h2⟩ := mulRow_spec (T := T) a d d' r i acc hi
    have := List.length_pos_of_ne_nil hr
    simp only [mulRows]
    rw [ih (i + 1) _ (by omega), h2]
    simp [elemPoly, pow_succ]
    ring

@[simp] theorem toPoly_mul (l r : Poly T) : (l * r).toPoly = l.toPoly * r.toPoly := by
  show (mul l r).toPoly = _
  unfold mul
  by_cases h : (l.isZero || r.isZero) = true
  · rw [if_pos h]
    rw [Bool.or_eq_true, isZero_iff, isZero_iff] at h
    rcases h with h | h <;> simp [h]
  · rw [if_neg h, toPoly_normalize]
    simp only [Bool.or_eq_true, not_or, Bool.not_eq_true] at h
    have hr : r.raw.elements ≠ [] := by
      have := h.2; unfold isZero at this; simpa using this
    rw [mulRows_spec _ _ _ hr _ 0 [] (by simp)]
    simp [elemPoly, toPoly, coeffs]

theorem elemPoly_map_mul (l : List (Elem T)) (c : Elem T) (d d' : Dv T) :
    elemPoly (T := T) (l.map (· * c)) (d * d') = elemPoly l d * C (mkc c d') := by
  unfold elemPoly
  induction l with
  | nil => simp
  | cons a l ih =>
    simp only [List.map_cons, listPoly_cons, ih, mkc_mul]
    simp; ring

theorem toPoly_mulCoeff (l : Poly T) (c : T) : (mulCoeff l c).toPoly = l.toPoly * C c := by
  unfold mulCoeff
  dsimp only
  rw [toPoly_normalize, elemPoly_map_mul, toElem_val]; rfl

/-! ### ring structure -/

instance : NatCast (Poly T) := ⟨fun n => ofCoeffs [(n : T)]⟩
instance : IntCast (Poly T) := ⟨fun n => ofCoeffs [(n : T)]⟩
instance : SMul ℕ (Poly T) := ⟨fun n p => ofCoeffs (p.coeffs.map (n • ·))⟩
instance : SMul ℤ (Poly T) := ⟨fun n p => ofCoeffs (p.coeffs.map (n • ·))⟩
instance : Pow (Poly T) ℕ := ⟨fun p n => Nat.rec 1 (fun _ r => r * p) n⟩

theorem toPoly_pow (p : Poly T) (n : ℕ) : (p ^ n).toPoly = p.toPoly ^ n := by
  induction n with
  | zero => exact toPoly_one
  | succ n ih =>
    show ((p ^ n) * p).toPoly = _
    rw [toPoly_mul, ih, pow_succ]

theorem listPoly_map_nsmul (n : ℕ) (l : List T) : listPoly (l.map (n • ·)) = n • listPoly l := by
  induction l with
  | nil => simp
  | cons a l ih => simp only [List.map_cons, listPoly_cons, ih]; simp; ring

theorem listPoly_map_zsmul (n : ℤ) (l : List T) : listPoly (l.map (n • ·)) = n • listPoly l := by
  induction l with
  | nil => simp
  | cons a l ih => simp only [List.map_cons, listPoly_cons, ih]; simp; ring

theorem toPoly_nsmul (n : ℕ) (p : Poly T) : (n • p).toPoly = n • p.toPoly := by
  show (ofCoeffs _).toPoly = _; rw [toPoly_ofCoeffs, listPoly_map_nsmul]; rfl

theorem toPoly_zsmul (n : ℤ) (p : Poly T) : (n • p).toPoly = n • p.toPoly := by
  show (ofCoeffs _).toPoly = _; rw [toPoly_ofCoeffs, listPoly_map_zsmul]; rfl

theorem toPoly_natCast (n : ℕ) : (n : Poly T).toPoly = n := by
  show (ofCoeffs _).toPoly = _; rw [toPoly_ofCoeffs]; simp

theorem toPoly_intCast (n : ℤ) : (n : Poly T).toPoly = n := by
  show (ofCoeffs _).toPoly = _; rw [toPoly_ofCoeffs]; simp

/-- the polynomials of the code form a commutative ring under the code's operations -/
instance instCommRing : CommRing (Poly T) where
  add_assoc a b c := toPoly_injective (by simp only [toPoly_add, add_assoc])
  zero_add a := toPoly_injective (by simp only [toPoly_add, toPoly_zero, zero_add])
  add_zero a := toPoly_injective (by simp only [toPoly_add, toPoly_zero, add_zero])
  add_comm a b := toPoly_injective (by simp only [toPoly_add, add_comm])
  left_distrib a b c := toPoly_injective (by simp only [toPoly_add, toPoly_mul, mul_add])
  right_distrib a b c := toPoly_injective (by simp only [toPoly_add, toPoly_mul, add_mul])
  zero_mul a := toPoly_injective (by simp only [toPoly_mul, toPoly_zero, zero_mul])
  mul_zero a := toPoly_injective (by simp only [toPoly_mul, toPoly_zero, mul_zero])
  mul_assoc a b c := toPoly_injective (by simp only [toPoly_mul, mul_assoc])
  one_mul a := toPoly_injective (by simp only [toPoly_mul, toPoly_one, one_mul])
  mul_one a := toPoly_injective (by simp only [toPoly_mul, toPoly_one, mul_one])
  mul_comm a b := toPoly_injective (by simp only [toPoly_mul, mul_comm])
  neg_add_cancel a := toPoly_injective (by
    simp only [toPoly_add, toPoly_neg, toPoly_zero, neg_add_cancel])
  sub_eq_add_neg a b := toPoly_injective (by
    simp only [toPoly_add, toPoly_neg, toPoly_sub, sub_eq_add_neg])
  nsmul := fun n p => n • p
  nsmul_zero p := toPoly_injective (by rw [toPoly_nsmul, zero_smul, toPoly_zero])
  nsmul_succ n p := toPoly_injective (by
    rw [toPoly_nsmul, toPoly_add, toPoly_nsmul, succ_nsmul])
  zsmul := fun n p => n • p
  zsmul_zero' p := toPoly_injective (by rw [toPoly_zsmul, zero_smul, toPoly_zero])
  zsmul_succ' n p := toPoly_injective (by
    rw [toPoly_zsmul, toPoly_add, toPoly_zsmul]; push_cast; rw [add_smul, one_smul])
  zsmul_neg' n p := toPoly_injective (by
    rw [toPoly_zsmul, toPoly_neg, toPoly_zsmul, Int.negSucc_eq, ← neg_smul]; push_cast; rfl)
  natCast_zero := toPoly_injective (by rw [toPoly_natCast, toPoly_zero, Nat.cast_zero])
  natCast_succ n := toPoly_injective (by
    rw [toPoly_natCast, toPoly_add, toPoly_natCast, toPoly_one, Nat.cast_succ])
  intCast_ofNat n := toPoly_injective (by
    rw [toPoly_intCast, toPoly_natCast, Int.cast_natCast])
  intCast_negSucc n := toPoly_injective (by
    rw [toPoly_intCast, toPoly_neg, toPoly_natCast, Int.cast_negSucc])
  npow := fun n p => p ^ n
  npow_zero p := toPoly_injective (by rw [toPoly_pow, pow_zero, toPoly_one])
  npow_succ n p := toPoly_injective (by rw [toPoly_pow, toPoly_mul, toPoly_pow, pow_succ])

/-- the code's polynomials are isomorphic to `T[X]` -/
noncomputable def toPolyEquiv : Poly T ≃+* T[X] :=
  RingEquiv.ofBijective
    ({ toFun := toPoly, map_zero' := toPoly_zero, map_one' := toPoly_one, map_add' := toPoly_add,
       map_mul' := toPoly_mul } : Poly T →+* T[X])
    ⟨toPoly_injective, fun f => by
      refine ⟨ofCoeffs ((List.range (f.natDegree + 1)).map f.coeff), ?_⟩
      show toPoly _ = f
      rw [toPoly_ofCoeffs]
      ext i
      rw [listPoly_coeff]
      by_cases h : i < f.natDegree + 1
      · simp [h]
      · simp [h, coeff_eq_zero_of_natDegree_lt (show f.natDegree < i by omega)]⟩

@[simp] theorem toPolyEquiv_apply (p : Poly T) : toPolyEquiv p = p.toPoly := rfl

end Poly

/-- polynomials as coefficients of polynomials: `src/polynomial.rs:703-808`. -/
instance {T : Type} [CommRing T] [PolyCoeff T] [DecidableEq T] : PolyCoeff (Poly T) :=
  PolyCoeff.selfCoeff (Poly T)

instance {T : Type} [CommRing T] [PolyCoeff T] [DecidableEq T] [IsDomain T] : IsDomain (Poly T) :=
  MulEquiv.isDomain T[X] (Poly.toPolyEquiv (T := T)).toMulEquiv

end Algebraics
