import Verif.Lemmas.PolyDiv
import Mathlib.Algebra.Field.ZMod
import Mathlib.Algebra.Polynomial.FieldDivision
import Mathlib.RingTheory.Polynomial.Content
import Mathlib.Tactic

/-!
# Powers, division over fields, derivative, evaluation, norms and contents
-/

set_option linter.unusedSectionVars false

namespace Algebraics

open Polynomial PolyCoeff

/-- the value of the running result, `1` when absent -/
def optVal {α M : Type} [One M] (sem : α → M) : Option α → M
  | none => 1
  | some w => sem w

theorem powStep_sound {α M : Type} [CommMonoid M] (sem : α → M) (mulOp : α → α → Option α)
    (hm : ∀ x y z, mulOp x y = some z → sem z = sem x * sem y) (odd : Bool) (base : α)
    (r r1 : Option α) (h : Poly.powStep mulOp odd base r = some r1) :
    optVal sem r1 = optVal sem r * sem base ^ odd.toNat ∧ (odd = true → ∃ v, r1 = some v) := by
  unfold Poly.powStep at h
  cases odd with
  | false => simp at h; subst h; simp
  | true =>
    simp only [if_true] at h
    cases r with
    | none => simp at h; subst h; simp [optVal]
    | some v =>
      simp only at h
      cases hmv : mulOp v base with
      | none => rw [hmv] at h; cases h
      | some w =>
        rw [hmv] at h; cases h
        simp [optVal, hm _ _ _ hmv]

/-- The square-and-multiply loop: whenever it returns, the result is the power, in any commutative
monoid in which the multiplication is interpreted. -/
theorem powLoop_sound {α M : Type} [CommMonoid M] (sem : α → M) (mulOp : α → α → Option α)
    (hm : ∀ x y z, mulOp x y = some z → sem z = sem x * sem y) (fuel : ℕ) :
    ∀ (base : α) (e : ℕ) (r r' : Option α), 0 < e → e < 2 ^ fuel →
      Poly.powLoop mulOp fuel base e r = some r' →
      ∃ v, r' = some v ∧ sem v = optVal sem r * sem base ^ e := by
  induction fuel with
  | zero => intro base e r r' h0 h1; simp at h1; omega
  | succ fuel ih =>
    intro base e r r' h0 h1 h
    unfold Poly.powLoop at h
    have hodd : (e % 2 == 1).toNat = e % 2 := by
      rcases Nat.mod_two_eq_zero_or_one e with h | h <;> simp [h]
    cases hs : Poly.powStep mulOp (e % 2 == 1) base r with
    | none => rw [hs] at h; simp at h
    | some r1 =>
      obtain ⟨h2, h3⟩ := powStep_sound sem mulOp hm _ _ _ _ hs
      rw [hodd] at h2
      rw [hs] at h
      simp only at h
      by_cases hz : e / 2 = 0
      · rw [if_pos hz] at h
        cases h
        have h6 : e = 1 := by omega
        obtain ⟨v, rfl⟩ := h3 (by subst h6; rfl)
        refine ⟨v, rfl, ?_⟩
        subst h6
        exact h2
      · rw [if_neg hz] at h
        cases hb : mulOp base base with
        | none => rw [hb] at h; simp at h
        | some b2 =>
          rw [hb] at h
          simp only at h
          obtain ⟨v, hv, hsem⟩ := ih b2 (e / 2) r1 r' (by omega) (by
            rw [pow_succ] at h1; omega) h
          refine ⟨v, hv, ?_⟩
          rw [hsem, h2, hm _ _ _ hb, ← pow_two, ← pow_mul, mul_assoc, ← pow_add]
          congr 2
          omega

/-- with a total multiplication the loop always returns -/
theorem powLoop_total {α : Type} (mulOp : α → α → Option α) (P : α → Prop)
    (hm : ∀ x y, P x → P y → ∃ z, mulOp x y = some z ∧ P z) (fuel : ℕ) :
    ∀ (base : α) (e : ℕ) (r : Option α), P base → (∀ v, r = some v → P v) →
      ∃ r', Poly.powLoop mulOp fuel base e r = some r' ∧ (∀ v, r' = some v → P v) := by
  induction fuel with
  | zero => intro base e r hb hr; exact ⟨r, rfl, hr⟩
  | succ fuel ih =>
    intro base e r hb hr
    unfold Poly.powLoop
    obtain ⟨b2, hb2, hPb2⟩ := hm base base hb hb
    have : ∃ r1, Poly.powStep mulOp (e % 2 == 1) base r = some r1 ∧ (∀ v, r1 = some v → P v) := by
      unfold Poly.powStep
      by_cases hodd : (e % 2 == 1) = true
      · rw [if_pos hodd]
        cases r with
        | none => exact ⟨some base, rfl, fun v hv => by cases hv; exact hb⟩
        | some v =>
          obtain ⟨z, hz, hPz⟩ := hm v base (hr v rfl) hb
          exact ⟨some z, by simp [hz], fun v hv => by cases hv; exact hPz⟩
      · rw [if_neg hodd]; exact ⟨r, rfl, hr⟩
    obtain ⟨r1, h1, h2⟩ := this
    rw [h1]
    simp only
    by_cases hz : e / 2 = 0
    · rw [if_pos hz]; exact ⟨r1, rfl, h2⟩
    · rw [if_neg hz, hb2]; exact ih b2 (e / 2) r1 hPb2 h2

namespace Poly

variable {T : Type} [CommRing T] [PolyCoeff T] [DecidableEq T]

theorem toOneIfNonzero_eq (p : Poly T) :
    p.toOneIfNonzero = if p.toPoly = 0 then none else some 1 := by
  unfold toOneIfNonzero
  by_cases h : p.toPoly = 0
  · rw [if_pos ((isZero_iff p).mpr h), if_pos h]
  · rw [if_neg (by rwa [isZero_iff]), if_neg h]

theorem checkedPow_pos (p : Poly T) (n : ℕ) (hn : 0 < n) :
    ∃ r, p.checkedPow n = some r ∧ r.toPoly = p.toPoly ^ n := by
  unfold checkedPow
  rw [if_neg (by omega), if_neg (by omega)]
  by_cases h1 : (n : ℤ) = 1
  · have : n = 1 := by omega
    subst this
    exact ⟨p, by simp, by simp⟩
  · rw [if_neg h1]
    obtain ⟨r', h2, -⟩ := powLoop_total (fun a b : Poly T => some (a * b)) (fun _ => True)
      (fun x y _ _ => ⟨x * y, rfl, trivial⟩) ((n : ℤ).toNat + 1) p (n : ℤ).toNat none trivial
      (fun _ _ => trivial)
    obtain ⟨v, rfl, hv⟩ := powLoop_sound (toPoly (T := T)) (fun a b : Poly T => some (a * b))
      (fun x y z h => by cases h; exact toPoly_mul x y) ((n : ℤ).toNat + 1) p (n : ℤ).toNat none r'
      (by omega) (by
        rw [Int.toNat_natCast]
        exact lt_trans Nat.lt_two_pow_self (Nat.pow_lt_pow_right (by omega) (by omega))) h2
    rw [h2]
    refine ⟨v, rfl, ?_⟩
    simpa [optVal] using hv

/-! ### evaluation -/

theorem foldl_horner (l : List T) (x acc : T) :
    l.reverse.foldl (fun acc c => acc * x + c) acc =
      acc * x ^ l.length + (listPoly l).eval x := by
  induction l generalizing acc with
  | nil => simp
  | cons a l ih =>
    rw [List.reverse_cons, List.foldl_append, ih]
    simp [pow_succ]; ring

theorem eval_eq (p : Poly T) (x : T) : p.eval x = p.toPoly.eval x := by
  unfold eval evalGeneric
  rw [foldl_horner]; simp [toPoly]

/-! ### derivative -/

theorem mkc_natCast (n : ℕ) : mkc (T := T) (n : Elem T) 1 = n := by
  induction n with
  | zero => simp [mkc_zero]
  | succ n ih => rw [Nat.cast_succ, mkc_add, ih, mkc_one, Nat.cast_succ]

theorem elemPoly_derivElems (es : List (Elem T)) (d : Dv T) (i : ℕ) :
    Polynomial.C ((i : T)) * elemPoly es d + Polynomial.derivative (X * elemPoly (T := T) es d) =
      elemPoly (derivElems (T := T) i es) d := by
  induction es generalizing i with
  | nil => simp [elemPoly, derivElems]
  | cons e es ih =>
    have h := ih (i + 1)
    have hh : mkc (T := T) (e * ((i + 1 : ℕ) : Elem T)) d = mkc e d * ((i + 1 : ℕ) : T) := by
      rw [← mkc_natCast (T := T) (i + 1), ← mkc_mul, mul_one]
    have e1 : elemPoly (T := T) (e :: es) d = Polynomial.C (mkc e d) + X * elemPoly es d := rfl
    have e2 : elemPoly (T := T) (derivElems (T := T) i (e :: es)) d =
        Polynomial.C (mkc (e * ((i + 1 : ℕ) : Elem T)) d) + X * elemPoly (derivElems (i + 1) es) d := rfl
    rw [e1, e2, ← h, hh]
    simp only [derivative_mul, derivative_X, derivative_C, map_mul, map_natCast,
      Nat.cast_add, Nat.cast_one, map_add, map_one]
    ring

theorem toPoly_derivative (p : Poly T) : p.derivative.toPoly = Polynomial.derivative p.toPoly := by
  unfold derivative
  cases h : p.raw.elements with
  | nil =>
    simp only
    have : p.toPoly = 0 := by rw [toPoly_eq, h]; rfl
    rw [this]; simp
  | cons e es =>
    simp only
    rw [toPoly_normalize, ← elemPoly_derivElems, toPoly_eq, h]
    have e1 : elemPoly (T := T) (e :: es) p.raw.divisor =
      Polynomial.C (mkc e p.raw.divisor) + X * elemPoly es p.raw.divisor := rfl
    rw [e1]; simp

/-! ### scalar addition -/

theorem addSubSingle_trivial (f : Elem T → Elem T → Elem T) (s : T)
    (hf : ∀ a b (d : Dv T), mkc (T := T) (f a b) d = mkc a d + s * mkc b d)
    (hg : gcdLcm (T := T) 1 1 = (1, 1)) (p : Poly T) (c : T)
    (hp : p.raw.divisor = 1) (hc : (toElem c).2 = 1) :
    (addSubSingle f p c).toPoly = p.toPoly + C (s * c) := by
  have hcv := toElem_val c
  have h1 : mkc (T := T) (d2e (1 : Dv T)) 1 = 1 := mkc_d2e 1
  have hm : ∀ x : Elem T, mkc (T := T) (x * d2e (1 : Dv T)) 1 = mkc x 1 := by
    intro x
    have := mkc_mul (T := T) x (d2e (1 : Dv T)) 1 1
    rw [mul_one, h1, mul_one] at this
    exact this
  unfold addSubSingle
  rw [hc] at hcv
  dsimp only
  rw [hp, hc, hg, toPoly_eq p, hp]
  cases h : p.raw.elements with
  | nil =>
    simp only [mul_one]
    rw [toPoly_normalize]
    have e1 : ∀ x : Elem T, elemPoly (T := T) [x] 1 = C (mkc x 1) + X * 0 := fun x => rfl
    have e0 : elemPoly (T := T) [] 1 = 0 := rfl
    rw [e1, e0, hf, hm, hm, hcv, mkc_zero]; simp
  | cons a as =>
    simp only [mul_one]
    rw [toPoly_normalize]
    have e1 : ∀ x : Elem T, elemPoly (T := T) (x :: as) 1 = C (mkc x 1) + X * elemPoly as 1 :=
      fun x => rfl
    rw [e1, e1, hf, hm, hm, hcv, C_add]; ring

theorem coeff_addSubSingle (f : Elem T → Elem T → Elem T) (p : Poly T) (c : T) (k : ℕ) :
    (addSubSingle f p c).toPoly.coeff k =
      mkc (if k = 0 then
          f (p.raw.elements.getD 0 0 *
              d2e (T := T) (p.raw.divisor * (gcdLcm (T := T) p.raw.divisor (toElem c).2).1))
            ((toElem c).1 *
              d2e (T := T) ((gcdLcm (T := T) p.raw.divisor (toElem c).2).1 * (toElem c).2))
        else p.raw.elements.getD k 0) (gcdLcm (T := T) p.raw.divisor (toElem c).2).2 := by
  unfold addSubSingle
  dsimp only
  cases h : p.raw.elements with
  | nil =>
    rw [toPoly_normalize, elemPoly_coeff]
    cases k <;> simp
  | cons a as =>
    simp only
    rw [toPoly_normalize, elemPoly_coeff]
    cases k <;> simp

theorem addCoeff_trivial (hg : gcdLcm (T := T) 1 1 = (1, 1)) (p : Poly T) (c : T)
    (hp : p.raw.divisor = 1) (hc : (toElem c).2 = 1) :
    (p.addCoeff c).toPoly = p.toPoly + C c ∧ (p.subCoeff c).toPoly = p.toPoly - C c := by
  constructor
  · have := addSubSingle_trivial (T := T) (· + ·) 1 (fun a b d => by rw [mkc_add, one_mul]) hg p c hp hc
    rwa [one_mul] at this
  · have := addSubSingle_trivial (T := T) (· - ·) (-1)
      (fun a b d => by rw [mkc_sub]; ring) hg p c hp hc
    rw [neg_one_mul, C_neg, ← sub_eq_add_neg] at this
    exact this

/-! ### division over a field -/

section Field
variable {K : Type} [Field K] [PolyCoeff K] [DecidableEq K] [ExactDivCoeff K] [LawfulExactDiv K]

theorem divCoeff_field (p : Poly K) (c : K) (hc : c ≠ 0) :
    ∃ r, p.divCoeff c = some r ∧ r.toPoly = p.toPoly * C c⁻¹ := by
  have h := (toPolyEquiv (T := K)).surjective (p.toPoly * C c⁻¹)
  obtain ⟨r, hr⟩ := h
  have hr : r.toPoly = p.toPoly * C c⁻¹ := hr
  refine ⟨r, divCoeff_complete p r c hc ?_, hr⟩
  rw [hr, mul_assoc, ← C_mul, inv_mul_cancel₀ hc, C_1, mul_one]

theorem divRem_field (p q : Poly K) (hq : q.toPoly ≠ 0) :
    ∃ a b, p.divRem q = some (a, b) ∧ p.div q = some a ∧ p.rem q = some b ∧
      p.toPoly = a.toPoly * q.toPoly + b.toPoly ∧ b.toPoly.degree < q.toPoly.degree := by
  obtain ⟨r, h1, h2, h3, h4⟩ := pseudoDivRem_spec p q hq
  have hf : r.factor ≠ 0 := by
    rw [h4]; exact pow_ne_zero _ (leadingCoeff_ne_zero.mpr hq)
  obtain ⟨a, ha, ha'⟩ := divCoeff_field r.quotient r.factor hf
  obtain ⟨b, hb, hb'⟩ := divCoeff_field r.remainder r.factor hf
  refine ⟨a, b, ?_, ?_, ?_, ?_, ?_⟩
  · unfold divRem; rw [h1]; simp only; rw [ha, hb]
  · unfold div; rw [h1]; exact ha
  · unfold rem; rw [h1]; exact hb
  · have hC : (C r.factor : K[X]) ≠ 0 := by rwa [Ne, C_eq_zero]
    apply mul_left_cancel₀ hC
    rw [h2, ha', hb']
    have : (C r.factor : K[X]) * C r.factor⁻¹ = 1 := by
      rw [← C_mul, mul_inv_cancel₀ hf, C_1]
    linear_combination (-(r.quotient.toPoly * q.toPoly) - r.remainder.toPoly) * this
  · rw [hb', mul_comm, degree_C_mul (inv_ne_zero hf)]; exact h3

theorem div_mod_unique' {f q a b : K[X]} (hq : q ≠ 0) (h : f = a * q + b)
    (hd : b.degree < q.degree) : a = f / q ∧ b = f % q := by
  have h1 := EuclideanDomain.div_add_mod f q
  have hb : b - f % q = 0 := by
    apply eq_zero_of_dvd_of_degree_lt (p := q)
    · exact ⟨f / q - a, by linear_combination -h1 - h⟩
    · exact lt_of_le_of_lt (degree_sub_le _ _) (max_lt hd (degree_mod_lt _ hq))
  have hb' : b = f % q := sub_eq_zero.mp hb
  refine ⟨?_, hb'⟩
  apply mul_left_cancel₀ hq
  linear_combination -h1 - h - hb

theorem rem_field (p q : Poly K) (hq : q.toPoly ≠ 0) :
    ∃ b, p.rem q = some b ∧ b.toPoly = p.toPoly % q.toPoly := by
  obtain ⟨a, b, -, -, h, h2, h3⟩ := divRem_field p q hq
  exact ⟨b, h, (div_mod_unique' hq h2 h3).2⟩

theorem div_field (p q : Poly K) (hq : q.toPoly ≠ 0) :
    ∃ a, p.div q = some a ∧ a.toPoly = p.toPoly / q.toPoly := by
  obtain ⟨a, b, -, h, -, h2, h3⟩ := divRem_field p q hq
  exact ⟨a, h, (div_mod_unique' hq h2 h3).1⟩

theorem rem_zero_none (p q : Poly K) (hq : q.toPoly = 0) : p.rem q = none := by
  unfold rem; rw [(pseudoDivRem_none p q).mpr hq]

/-- for a positive exponent `powmod` returns the remainder of the power -/
theorem powmod_field (p m : Poly K) (hm : m.toPoly ≠ 0) (n : ℕ) (hn : 0 < n) :
    ∃ r, p.powmod n m = some r ∧ r.toPoly = p.toPoly ^ n % m.toPoly := by
  obtain ⟨base, hb, hb'⟩ := rem_field p m hm
  have hmod : ∀ f : K[X], Ideal.Quotient.mk (Ideal.span {m.toPoly}) (f % m.toPoly) =
      Ideal.Quotient.mk (Ideal.span {m.toPoly}) f := by
    intro f
    rw [Ideal.Quotient.eq, Ideal.mem_span_singleton]
    refine ⟨-(f / m.toPoly), ?_⟩
    have := EuclideanDomain.div_add_mod f m.toPoly
    linear_combination this
  have hfin : ∀ r : Poly K, r.toPoly.degree < m.toPoly.degree →
      Ideal.Quotient.mk (Ideal.span {m.toPoly}) r.toPoly =
        Ideal.Quotient.mk (Ideal.span {m.toPoly}) (p.toPoly ^ n) →
      r.toPoly = p.toPoly ^ n % m.toPoly := by
    intro r hd he
    rw [← hmod (p.toPoly ^ n), Ideal.Quotient.eq, Ideal.mem_span_singleton] at he
    have h0 : r.toPoly - p.toPoly ^ n % m.toPoly = 0 := by
      apply eq_zero_of_dvd_of_degree_lt he
      exact lt_of_le_of_lt (degree_sub_le _ _) (max_lt hd (degree_mod_lt _ hm))
    exact sub_eq_zero.mp h0
  have hbd : base.toPoly.degree < m.toPoly.degree := by rw [hb']; exact degree_mod_lt _ hm
  unfold powmod
  rw [if_neg (by omega), if_neg (by omega), hb]
  simp only
  by_cases h1 : (n : ℤ) = 1
  · have : n = 1 := by omega
    subst this
    exact ⟨base, by simp, by simpa using hb'⟩
  · rw [if_neg h1]
    obtain ⟨r', h2, h2'⟩ := powLoop_total (fun a b : Poly K => (a * b).rem m)
      (fun x => x.toPoly.degree < m.toPoly.degree)
      (fun x y _ _ => by
        obtain ⟨z, hz, hz'⟩ := rem_field (x * y) m hm
        exact ⟨z, hz, by rw [hz']; exact degree_mod_lt _ hm⟩)
      ((n : ℤ).toNat + 1) base (n : ℤ).toNat none hbd (fun _ h => by cases h)
    obtain ⟨v, rfl, hv⟩ := powLoop_sound
      (fun x : Poly K => Ideal.Quotient.mk (Ideal.span {m.toPoly}) x.toPoly)
      (fun a b : Poly K => (a * b).rem m)
      (fun x y z h => by
        obtain ⟨z', hz, hz'⟩ := rem_field (x * y) m hm
        rw [hz] at h; cases h
        rw [hz', hmod, toPoly_mul, map_mul]) ((n : ℤ).toNat + 1) base (n : ℤ).toNat none r'
      (by omega) (by
        rw [Int.toNat_natCast]
        exact lt_trans Nat.lt_two_pow_self (Nat.pow_lt_pow_right (by omega) (by omega))) h2
    rw [h2]
    refine ⟨v, rfl, hfin v (h2' v rfl) ?_⟩
    simp only [optVal, one_mul, Int.toNat_natCast] at hv
    rw [hv, hb', hmod, map_pow]

end Field

/-! ### norms -/

section Ordered
variable [LinearOrder T] [IsStrictOrderedRing T]

theorem foldl_max_spec (l : List T) (a : T) :
    a ≤ l.foldl max a ∧ (∀ x ∈ l, x ≤ l.foldl max a) ∧ (l.foldl max a = a ∨ l.foldl max a ∈ l) := by
  induction l generalizing a with
  | nil => simp
  | cons b l ih =>
    obtain ⟨h1, h2, h3⟩ := ih (max a b)
    refine ⟨le_trans (le_max_left a b) h1, ?_, ?_⟩
    · intro x hx
      rcases List.mem_cons.mp hx with rfl | hx
      · exact le_trans (le_max_right a x) h1
      · exact h2 x hx
    · rw [List.foldl_cons]
      rcases h3 with h3 | h3
      · rw [h3]
        rcases max_choice a b with h | h
        · left; exact h
        · right; rw [h]; simp
      · right; exact List.mem_cons_of_mem _ h3

theorem mem_coeffs_iff (p : Poly T) (c : T) : c ∈ p.coeffs ↔ ∃ i < p.len, p.toPoly.coeff i = c := by
  rw [List.mem_iff_getElem, len_eq]
  constructor
  · rintro ⟨i, hi, rfl⟩
    refine ⟨i, hi, ?_⟩
    rw [toPoly, listPoly_coeff]; simp [hi]
  · rintro ⟨i, hi, rfl⟩
    refine ⟨i, hi, ?_⟩
    rw [toPoly, listPoly_coeff]; simp [hi]

theorem coeff_of_len_le (p : Poly T) (i : ℕ) (h : p.len ≤ i) : p.toPoly.coeff i = 0 := by
  rw [toPoly, listPoly_coeff]; rw [len_eq] at h; simp [h]

theorem maxNorm_spec (p : Poly T) :
    (∀ i, |p.toPoly.coeff i| ≤ p.maxNorm) ∧ ∃ i, |p.toPoly.coeff i| = p.maxNorm := by
  unfold maxNorm
  have hmem := mem_coeffs_iff p
  have hlen := coeff_of_len_le p
  rw [len_eq] at hlen
  cases h : p.coeffs with
  | nil =>
    have : p.toPoly = 0 := (coeffs_eq_nil_iff p).mp h
    simp [this]
  | cons a as =>
    simp only [List.map_cons]
    rw [h] at hmem hlen
    obtain ⟨h1, h2, h3⟩ := foldl_max_spec (as.map (fun c => |c|)) |a|
    have hall : ∀ c ∈ a :: as, |c| ≤ (as.map (fun c => |c|)).foldl max |a| := by
      intro c hc
      rcases List.mem_cons.mp hc with rfl | hc
      · exact h1
      · exact h2 _ (List.mem_map_of_mem hc)
    constructor
    · intro i
      by_cases hi : i < p.len
      · exact hall _ ((hmem _).mpr ⟨i, hi, rfl⟩)
      · rw [coeff_of_len_le p i (not_lt.mp hi), abs_zero]
        exact le_trans (abs_nonneg a) h1
    · have : ∃ c ∈ a :: as, |c| = (as.map (fun c => |c|)).foldl max |a| := by
        rcases h3 with h3 | h3
        · exact ⟨a, by simp, h3.symm⟩
        · obtain ⟨c, hc, hc'⟩ := List.mem_map.mp h3
          exact ⟨c, List.mem_cons_of_mem _ hc, hc'⟩
      obtain ⟨c, hc, hc'⟩ := this
      obtain ⟨i, -, hi⟩ := (hmem c).mp hc
      exact ⟨i, by rw [hi, hc']⟩

theorem manhattan_fold (l : List T) (s : Option T) :
    (l.foldl (fun sum c => match sum with
      | none => some |c|
      | some s => some (s + |c|)) s).getD 0 = s.getD 0 + (l.map (fun c => |c|)).sum := by
  induction l generalizing s with
  | nil => simp
  | cons a l ih =>
    rw [List.foldl_cons, ih]
    cases s with
    | none => simp
    | some v => simp [add_assoc]

theorem manhattanNorm_spec (p : Poly T) :
    p.manhattanNorm = ∑ i ∈ Finset.range p.len, |p.toPoly.coeff i| := by
  have h : p.manhattanNorm = (p.coeffs.map (fun c => |c|)).sum := by
    have := manhattan_fold p.coeffs none
    simp only [Option.getD_none, zero_add] at this
    rw [← this]
    unfold manhattanNorm
    cases (p.coeffs.foldl (fun sum c => match sum with
      | none => some |c|
      | some s => some (s + |c|)) none) <;> rfl
  rw [h, len_eq]
  have hc : ∀ i, p.toPoly.coeff i = p.coeffs.getD i 0 := fun i => by rw [toPoly, listPoly_coeff]
  simp only [hc]
  generalize p.coeffs = l
  induction l with
  | nil => simp
  | cons a l ih =>
    rw [List.map_cons, List.sum_cons, List.length_cons, Finset.sum_range_succ', ih]
    simp [add_comm]

end Ordered

/-! ### content of integer polynomials -/

theorem foldl_gcd_dvd (l : List ℤ) (a d : ℤ) :
    d ∣ l.foldl intGcd a ↔ d ∣ a ∧ ∀ x ∈ l, d ∣ x := by
  induction l generalizing a with
  | nil => simp
  | cons b l ih =>
    rw [List.foldl_cons, ih]
    unfold intGcd
    rw [Int.dvd_coe_gcd_iff]
    simp [and_assoc]

theorem dvd_iff_coeffs (p : Poly ℤ) (d : ℤ) : (∀ i, d ∣ p.toPoly.coeff i) ↔ ∀ c ∈ p.coeffs, d ∣ c := by
  constructor
  · intro h c hc
    obtain ⟨i, -, rfl⟩ := (mem_coeffs_iff p c).mp hc
    exact h i
  · intro h i
    by_cases hi : i < p.len
    · exact h _ ((mem_coeffs_iff p _).mpr ⟨i, hi, rfl⟩)
    · rw [coeff_of_len_le p i (not_lt.mp hi)]; exact dvd_zero d

/-- the content returned by the code: divides every coefficient, is divisible by every common
divisor, and has the sign of the leading coefficient -/
theorem content_spec (p : Poly ℤ) :
    (∀ d : ℤ, d ∣ p.content intGcd ↔ ∀ i, d ∣ p.toPoly.coeff i) ∧
      (p.toPoly ≠ 0 → p.nonzeroContent intGcd = some (p.content intGcd) ∧
        p.content intGcd ≠ 0 ∧ (0 < p.content intGcd ↔ 0 < p.toPoly.leadingCoeff)) ∧
      (p.toPoly = 0 → p.nonzeroContent intGcd = none) := by
  simp only [dvd_iff_coeffs]
  have hl := highest_eq p
  have hz := coeffs_eq_nil_iff p
  unfold content nonzeroContent
  rw [hl]
  cases h : p.coeffs with
  | nil =>
    have h0 : p.toPoly = 0 := hz.mp h
    simp [h0]
  | cons a as =>
    have h0 : p.toPoly ≠ 0 := fun h' => by rw [hz.mpr h'] at h; cases h
    have hlc : p.toPoly.leadingCoeff ≠ 0 := leadingCoeff_ne_zero.mpr h0
    have hdvd : ∀ d : ℤ, d ∣ as.foldl intGcd a ↔ ∀ c ∈ a :: as, d ∣ c := by
      intro d; rw [foldl_gcd_dvd]; simp
    have hne : as.foldl intGcd a ≠ 0 := by
      intro hg
      have := (hdvd 0).mp (by rw [hg])
      have hp : ∀ i, (0:ℤ) ∣ p.toPoly.coeff i := (dvd_iff_coeffs p 0).mpr (by rw [h]; exact this)
      exact h0 (Polynomial.ext fun i => by simpa using hp i)
    simp only
    by_cases hs : (decide (p.toPoly.leadingCoeff < 0) != decide (as.foldl intGcd a < 0)) = true
    · rw [if_pos hs]
      have hs' : ¬ (p.toPoly.leadingCoeff < 0 ↔ as.foldl intGcd a < 0) := by
        simpa using hs
      refine ⟨?_, ?_, fun h' => absurd h' h0⟩
      · intro d; simp only [Option.getD_some, zero_sub, dvd_neg]; exact hdvd d
      · intro _
        refine ⟨by simp, by simpa using hne, ?_⟩
        simp only [Option.getD_some, zero_sub]
        constructor <;> intro h1 <;> by_contra h2 <;> apply hs' <;> constructor <;> intro h3 <;> omega
    · rw [if_neg hs]
      have hs' : (p.toPoly.leadingCoeff < 0 ↔ as.foldl intGcd a < 0) := by
        simpa using hs
      refine ⟨?_, ?_, fun h' => absurd h' h0⟩
      · intro d; simp only [Option.getD_some]; exact hdvd d
      · intro _
        refine ⟨by simp, by simpa using hne, ?_⟩
        simp only [Option.getD_some]
        constructor <;> intro h1 <;> by_contra h2
        · have h3 : p.toPoly.leadingCoeff < 0 := by omega
          have := hs'.mp h3; omega
        · have h3 : as.foldl intGcd a < 0 := by omega
          have := hs'.mpr h3; omega

theorem primitivePart_spec (p : Poly ℤ) :
    ∃ r, p.primitivePart intGcd = some r ∧ p.toPoly = r.toPoly * C (p.content intGcd) := by
  obtain ⟨h1, h2, h3⟩ := content_spec p
  unfold primitivePart
  by_cases h : p.toPoly = 0
  · rw [h3 h]; exact ⟨p, rfl, by rw [h]; simp⟩
  · obtain ⟨h4, h5, h6⟩ := h2 h
    rw [h4]
    simp only
    have hd : C (p.content intGcd) ∣ p.toPoly := by
      rw [C_dvd_iff_dvd_coeff]; exact (h1 _).mp dvd_rfl
    obtain ⟨q, hq⟩ := hd
    obtain ⟨r, hr⟩ := (toPolyEquiv (T := ℤ)).surjective q
    have hr : r.toPoly = q := hr
    have he : p.toPoly = r.toPoly * C (p.content intGcd) := by rw [hr, hq]; ring
    exact ⟨r, divCoeff_complete p r _ h5 he, he⟩

end Poly

/-! ### laws for coefficients modulo a prime -/

/-- exact division by a unit of `ZMod n` -/
theorem zmod_exactDiv_unit {n : ℕ} (q b : ZMod n) (hb : IsUnit b) (hb0 : b ≠ 0) :
    ExactDivCoeff.exactDiv (q * b) b = some q := by
  show (if b = 0 then none else if Nat.gcd b.val n = 1 then some (q * b * b⁻¹) else none) = some q
  have h1 : Nat.gcd b.val n = 1 := by
    obtain ⟨u, rfl⟩ := hb
    exact ZMod.val_coe_unit_coprime u
  rw [if_neg hb0, if_pos h1, mul_assoc, ZMod.mul_inv_eq_gcd, h1, Nat.cast_one, mul_one]

instance (p : ℕ) [Fact p.Prime] : LawfulExactDiv (ZMod p) where
  exactDiv_complete q b hb := zmod_exactDiv_unit q b (isUnit_iff_ne_zero.mpr hb) hb
  exactDiv_zero a := by
    show (if (0 : ZMod p) = 0 then none else _) = none
    rw [if_pos rfl]

end Algebraics
