import Verif.Model.MachinePoly
import Verif.Lemmas.PolyDiv
import Mathlib.Data.ZMod.Basic

/-!
# Polynomials over machine integers, seen through a ring homomorphism

If a homomorphism does not see what `fit` does to a result (the identity, with overflow checks; the residue modulo
`2^w`, when it wraps), every operation on machine polynomials is the exact one in the target ring.
-/

namespace Algebraics

open Polynomial

namespace MachinePoly

variable {w : ℕ} {m : Overflow}

/-- the homomorphism does not see what happens to the results of the operators -/
def Blind {R : Type} [CommRing R] (w : ℕ) (m : Overflow) (φ : ℤ →+* R) : Prop :=
  ∀ v r, m.fit w v = some r → φ r = φ v

theorem blind_panics (w : ℕ) : Blind w .panics (RingHom.id ℤ) := by
  intro v r h
  simp only [Overflow.fit, IntTy.check] at h
  split at h
  · cases h; rfl
  · cases h

theorem blind_wraps (w : ℕ) : Blind w .wraps (Int.castRingHom (ZMod (2 ^ w))) := by
  intro v r h
  simp only [Overflow.fit, Option.some.injEq] at h
  subst h
  simp only [eq_intCast]
  rw [ZMod.intCast_eq_intCast_iff]
  exact_mod_cast Int.bmod_emod

theorem fits_of_fit (hw : 0 < w) {v r : ℤ} (h : m.fit w v = some r) : (IntTy.signed w).fits r := by
  cases m with
  | panics =>
    simp only [Overflow.fit, IntTy.check] at h
    split at h
    · next hf => cases h; exact hf
    · cases h
  | wraps =>
    simp only [Overflow.fit, Option.some.injEq] at h
    subst h
    have hp : (2 : ℕ) ^ w = 2 * 2 ^ (w - 1) := by
      rw [← pow_succ']; congr 1; omega
    have h1 := Int.le_bmod (x := v) (m := 2 ^ w) (by positivity)
    have h2 := Int.bmod_lt (x := v) (m := 2 ^ w) (by positivity)
    rw [hp] at h1 h2 ⊢
    unfold IntTy.fits
    push_cast at h1 h2 ⊢
    constructor <;> omega

variable {R : Type} [CommRing R] [DecidableEq R] {φ : ℤ →+* R}

theorem listPoly_map (φ : ℤ →+* R) (l : List ℤ) : listPoly (l.map φ) = (listPoly l).map φ := by
  induction l with
  | nil => simp
  | cons a l ih => simp [ih]

theorem map_normalize (φ : ℤ →+* R) (l : List ℤ) : (listPoly (normalize l)).map φ = (listPoly l).map φ := by
  rw [normalize, listPoly_stripZeros]

theorem addSubElems_hom (hφ : Blind w m φ) (f : ℤ → ℤ → ℤ) (s : R) (hf : ∀ a b, φ (f a b) = φ a + s * φ b)
    (l r c : List ℤ) (h : addSubElems w m f l r = some c) :
    (listPoly c).map φ = (listPoly l).map φ + C s * (listPoly r).map φ := by
  induction l generalizing r c with
  | nil =>
    induction r generalizing c with
    | nil => simp [addSubElems] at h; subst h; simp
    | cons b bs ih =>
      simp only [addSubElems, bind, Option.bind_eq_some_iff, pure, Option.some.injEq] at h
      obtain ⟨l', h1, r', h2, e, h3, cs, h4, rfl⟩ := h
      have e1 := hφ _ _ h1
      have e2 := hφ _ _ h2
      have e3 := hφ _ _ h3
      rw [hf, e1, e2] at e3
      simp only [listPoly_cons, Polynomial.map_add, Polynomial.map_mul, map_C, map_X, ih _ h4, e3, listPoly_nil,
        Polynomial.map_zero]
      simp only [zero_mul, mul_one, map_zero, zero_add, C_mul]
      ring
  | cons a as ih =>
    cases r with
    | nil =>
      simp only [addSubElems, bind, Option.bind_eq_some_iff, pure, Option.some.injEq] at h
      obtain ⟨e, h1, cs, h4, rfl⟩ := h
      have e1 := hφ _ _ h1
      simp only [listPoly_cons, Polynomial.map_add, Polynomial.map_mul, map_C, map_X, ih _ _ h4, e1, listPoly_nil,
        Polynomial.map_zero, mul_one]
      ring
    | cons b bs =>
      simp only [addSubElems, bind, Option.bind_eq_some_iff, pure, Option.some.injEq] at h
      obtain ⟨l', h1, r', h2, e, h3, cs, h4, rfl⟩ := h
      have e1 := hφ _ _ h1
      have e2 := hφ _ _ h2
      have e3 := hφ _ _ h3
      rw [hf, e1, e2] at e3
      simp only [listPoly_cons, Polynomial.map_add, Polynomial.map_mul, map_C, map_X, ih _ _ h4, e3]
      simp only [mul_one, C_mul, C_add]
      ring

theorem add_hom (hφ : Blind w m φ) (l r c : List ℤ) (h : add w m l r = some c) :
    (listPoly c).map φ = (listPoly l + listPoly r).map φ := by
  simp only [add, Option.map_eq_some_iff] at h
  obtain ⟨d, h, rfl⟩ := h
  rw [map_normalize, addSubElems_hom hφ _ 1 (by intros; simp) l r d h]
  simp

theorem sub_hom (hφ : Blind w m φ) (l r c : List ℤ) (h : sub w m l r = some c) :
    (listPoly c).map φ = (listPoly l - listPoly r).map φ := by
  simp only [sub, Option.map_eq_some_iff] at h
  obtain ⟨d, h, rfl⟩ := h
  rw [map_normalize, addSubElems_hom hφ _ (-1) (by intros; simp; ring) l r d h]
  simp; ring

theorem addSubSingle_hom (hφ : Blind w m φ) (f : ℤ → ℤ → ℤ) (s : R) (hf : ∀ a b, φ (f a b) = φ a + s * φ b)
    (l : List ℤ) (r : ℤ) (c : List ℤ) (h : addSubSingle w m f l r = some c) :
    (listPoly c).map φ = (listPoly l).map φ + C (s * φ r) := by
  cases l <;>
  · simp only [addSubSingle, bind, Option.bind_eq_some_iff, pure, Option.some.injEq] at h
    obtain ⟨a', h1, r', h2, e, h3, rfl⟩ := h
    have e1 := hφ _ _ h1
    have e2 := hφ _ _ h2
    have e3 := hφ _ _ h3
    rw [hf, e1, e2] at e3
    rw [map_normalize]
    simp only [listPoly_cons, Polynomial.map_add, Polynomial.map_mul, map_C, map_X, e3, listPoly_nil,
        Polynomial.map_zero, mul_one, C_add, C_mul, map_zero, zero_mul]
    ring

theorem mapM_hom (hφ : Blind w m φ) (g : ℤ → ℤ) (s : R) (hg : ∀ a, φ (g a) = s * φ a) (l c : List ℤ)
    (h : l.mapM (fun a => m.fit w (g a)) = some c) : c.map φ = l.map fun a => s * φ a := by
  induction l generalizing c with
  | nil => simp at h; subst h; rfl
  | cons a l ih =>
    simp only [List.mapM_cons, bind, Option.bind_eq_some_iff, pure, Option.some.injEq] at h
    obtain ⟨b, h1, cs, h2, rfl⟩ := h
    simp only [List.map_cons, ih _ h2, hφ _ _ h1, hg]

theorem listPoly_map_mul (φ : ℤ →+* R) (s : R) (l : List ℤ) :
    listPoly (l.map fun a => s * φ a) = C s * (listPoly l).map φ := by
  induction l with
  | nil => simp
  | cons a l ih =>
    rw [List.map_cons, listPoly_cons, ih, listPoly_cons, Polynomial.map_add, Polynomial.map_mul, map_C, map_X, C_mul]
    ring

theorem mapM_poly (hφ : Blind w m φ) (g : ℤ → ℤ) (s : R) (hg : ∀ a, φ (g a) = s * φ a) (l c : List ℤ)
    (h : l.mapM (fun a => m.fit w (g a)) = some c) : (listPoly c).map φ = C s * (listPoly l).map φ := by
  rw [← listPoly_map, mapM_hom hφ g s hg l c h, listPoly_map_mul]

theorem neg_hom (hφ : Blind w m φ) (p c : List ℤ) (h : neg w m p = some c) :
    (listPoly c).map φ = (-listPoly p).map φ := by
  simp only [neg, Option.map_eq_some_iff] at h
  obtain ⟨d, h, rfl⟩ := h
  rw [map_normalize, mapM_poly hφ _ (-1) (by intros; simp) p d h]
  simp

theorem mulCoeff_hom (hφ : Blind w m φ) (p : List ℤ) (r : ℤ) (c : List ℤ) (h : mulCoeff w m p r = some c) :
    (listPoly c).map φ = (listPoly p * C r).map φ := by
  simp only [mulCoeff, Option.map_eq_some_iff] at h
  obtain ⟨d, h, rfl⟩ := h
  rw [map_normalize, mapM_poly hφ _ (φ r) (by intros; simp [mul_comm]) p d h]
  simp [mul_comm]

/-! ## multiplication -/

theorem mulStep_length {acc c : List ℤ} {i : ℕ} {v : ℤ} (hi : i ≤ acc.length)
    (h : mulStep w m acc i v = some c) : acc.length ≤ c.length ∧ i < c.length := by
  unfold mulStep at h
  split_ifs at h with hc
  · cases h; simp; omega
  · simp only [bind, Option.bind_eq_some_iff, pure, Option.some.injEq] at h
    obtain ⟨s, -, rfl⟩ := h
    simp; omega

theorem mulStep_hom (hφ : Blind w m φ) {acc c : List ℤ} {i : ℕ} {v : ℤ} (hi : i ≤ acc.length)
    (h : mulStep w m acc i v = some c) :
    (listPoly c).map φ = (listPoly acc).map φ + C (φ v) * X ^ i := by
  unfold mulStep at h
  split_ifs at h with hc
  · cases h
    rw [listPoly_append, ← hc]
    simp [mul_comm]
  · simp only [bind, Option.bind_eq_some_iff, pure, Option.some.injEq] at h
    obtain ⟨s, hs, rfl⟩ := h
    have hlt : i < acc.length := by omega
    have e := hφ _ _ hs
    ext j
    rw [coeff_map, listPoly_coeff, coeff_add, coeff_map, listPoly_coeff, coeff_C_mul, coeff_X_pow]
    by_cases hj : j = i
    · subst hj
      rw [if_pos rfl, mul_one, List.getD_eq_getElem?_getD, List.getElem?_set_self hlt]
      simpa using e
    · rw [if_neg hj, mul_zero, add_zero, List.getD_eq_getElem?_getD,
        List.getElem?_set_ne (Ne.symm hj), List.getD_eq_getElem?_getD]

theorem mulRow_hom (hφ : Blind w m φ) (a : ℤ) (bs : List ℤ) :
    ∀ (i : ℕ) (acc c : List ℤ), i ≤ acc.length → mulRow w m a i bs acc = some c →
      i + bs.length ≤ c.length ∧
      (listPoly c).map φ = (listPoly acc).map φ + X ^ i * C (φ a) * (listPoly bs).map φ := by
  induction bs with
  | nil =>
    intro i acc c hi h
    simp only [mulRow, Option.some.injEq] at h
    subst h
    simp [hi]
  | cons b bs ih =>
    intro i acc c hi h
    simp only [mulRow, bind, Option.bind_eq_some_iff] at h
    obtain ⟨v, h1, d, h2, h3⟩ := h
    obtain ⟨l1, l2⟩ := mulStep_length hi h2
    obtain ⟨l3, l4⟩ := ih (i + 1) d c (by omega) h3
    refine ⟨by simp only [List.length_cons]; omega, ?_⟩
    rw [l4, mulStep_hom hφ hi h2, hφ _ _ h1]
    simp [pow_succ]
    ring

theorem mulRows_hom (hφ : Blind w m φ) (r : List ℤ) (hr : r ≠ []) (as : List ℤ) :
    ∀ (i : ℕ) (acc c : List ℤ), i ≤ acc.length → mulRows w m r i as acc = some c →
      (listPoly c).map φ = (listPoly acc).map φ + X ^ i * (listPoly as).map φ * (listPoly r).map φ := by
  induction as with
  | nil =>
    intro i acc c hi h
    simp only [mulRows, Option.some.injEq] at h
    subst h
    simp
  | cons a as ih =>
    intro i acc c hi h
    simp only [mulRows, bind, Option.bind_eq_some_iff] at h
    obtain ⟨d, h1, h2⟩ := h
    obtain ⟨l1, l2⟩ := mulRow_hom hφ a r i acc d hi h1
    have := List.length_pos_of_ne_nil hr
    rw [ih (i + 1) d c (by omega) h2, l2]
    simp [pow_succ]
    ring

theorem mul_hom (hφ : Blind w m φ) (l r c : List ℤ) (h : mul w m l r = some c) :
    (listPoly c).map φ = (listPoly l * listPoly r).map φ := by
  unfold mul at h
  split_ifs at h with hc
  · cases h
    simp only [Bool.or_eq_true, List.isEmpty_iff] at hc
    rcases hc with rfl | rfl <;> simp
  · simp only [Option.map_eq_some_iff] at h
    obtain ⟨d, h, rfl⟩ := h
    simp only [Bool.or_eq_true, List.isEmpty_iff, not_or] at hc
    rw [map_normalize, mulRows_hom hφ r hc.2 l 0 [] d (by simp) h]
    simp

/-- the square-and-multiply loop with a multiplication that is right as far as `φ` can see -/
theorem powLoop_hom (hφ : Blind w m φ) (fuel : ℕ) :
    ∀ (base : List ℤ) (e : ℕ) (r : Option (List ℤ)) (c : Option (List ℤ)), e < 2 ^ fuel → 0 < e →
      Poly.powLoop (mul w m) fuel base e r = some c →
      ∃ c', c = some c' ∧ (listPoly c').map φ =
        (r.elim 1 fun r => (listPoly r).map φ) * (listPoly base).map φ ^ e := by
  induction fuel with
  | zero => intro base e r c he h0; simp at he; omega
  | succ fuel ih =>
    intro base e r c he h0 h
    rw [Poly.powLoop] at h
    have hstep : ∀ r', Poly.powStep (mul w m) (e % 2 == 1) base r = some r' →
        (e % 2 = 1 → ∃ d, r' = some d ∧ (listPoly d).map φ =
          (r.elim 1 fun r => (listPoly r).map φ) * (listPoly base).map φ) ∧
        (e % 2 ≠ 1 → r' = r) := by
      intro r' h'
      unfold Poly.powStep at h'
      by_cases ho : e % 2 = 1
      · refine ⟨fun _ => ?_, fun h => absurd ho h⟩
        rw [if_pos (by simpa using ho)] at h'
        cases r with
        | none => simp only [Option.some.injEq] at h'; subst h'; exact ⟨base, rfl, by simp⟩
        | some v =>
          simp only [Option.map_eq_some_iff] at h'
          obtain ⟨d, h1, rfl⟩ := h'
          exact ⟨d, rfl, by rw [mul_hom hφ _ _ _ h1, Polynomial.map_mul, Option.elim_some]⟩
      · refine ⟨fun h => absurd h ho, fun _ => ?_⟩
        rw [if_neg (by simpa using ho)] at h'
        cases h'; rfl
    cases hs : Poly.powStep (mul w m) (e % 2 == 1) base r with
    | none => rw [hs] at h; cases h
    | some r' =>
      rw [hs] at h
      obtain ⟨s1, s2⟩ := hstep r' hs
      simp only at h
      by_cases h2 : e / 2 = 0
      · rw [if_pos h2] at h
        cases h
        have : e = 1 := by omega
        subst this
        obtain ⟨d, rfl, hd⟩ := s1 rfl
        exact ⟨d, rfl, by rw [hd, pow_one]⟩
      · rw [if_neg h2] at h
        cases hb : mul w m base base with
        | none => rw [hb] at h; cases h
        | some b =>
          rw [hb] at h
          obtain ⟨c', h3, h4⟩ := ih b (e / 2) r' c (by rw [pow_succ] at he; omega) (by omega) h
          refine ⟨c', h3, ?_⟩
          rw [h4, mul_hom hφ _ _ _ hb, Polynomial.map_mul, ← sq, ← pow_mul]
          by_cases ho : e % 2 = 1
          · obtain ⟨d, rfl, hd⟩ := s1 ho
            rw [Option.elim_some, hd, mul_assoc, ← pow_succ', show 2 * (e / 2) + 1 = e by omega]
          · rw [s2 ho, show 2 * (e / 2) = e by omega]

/-! ## derivative and evaluation -/

theorem derivElems_hom (hφ : Blind w m φ) (es : List ℤ) : ∀ (i : ℕ) (c : List ℤ), derivElems w m i es = some c →
    (listPoly c).map φ = (Polynomial.derivative (X * listPoly es) + C (i : ℤ) * listPoly es).map φ := by
  induction es with
  | nil => intro i c h; simp [derivElems] at h; subst h; simp
  | cons e es ih =>
    intro i c h
    simp only [derivElems, bind, Option.bind_eq_some_iff, pure, Option.some.injEq] at h
    obtain ⟨k, h1, v, h2, cs, h3, rfl⟩ := h
    have hk : k = i + 1 := by
      simp only [IntTy.check] at h1
      split at h1
      · cases h1; rfl
      · cases h1
    simp only [listPoly_cons, Polynomial.map_add, Polynomial.map_mul, map_C, map_X, ih _ _ h3, hφ _ _ h2, hk,
      derivative_mul, derivative_add, derivative_C, derivative_X]
    simp
    ring

theorem derivative_hom (hφ : Blind w m φ) (p c : List ℤ) (h : derivative w m p = some c) :
    (listPoly c).map φ = (Polynomial.derivative (listPoly p)).map φ := by
  cases p with
  | nil => simp [derivative] at h; subst h; simp
  | cons a es =>
    simp only [derivative, Option.map_eq_some_iff] at h
    obtain ⟨d, h, rfl⟩ := h
    rw [map_normalize, derivElems_hom hφ es 0 d h]
    simp

theorem eval_hom (hφ : Blind w m φ) (p : List ℤ) (x r : ℤ) (h : eval w m p x = some r) :
    φ r = φ ((listPoly p).eval x) := by
  unfold eval at h
  have key : ∀ (l : List ℤ) (r : ℤ), l.reverse.foldlM (fun acc c => do
      let v ← m.fit w (acc * x)
      m.fit w (v + c)) 0 = some r → φ r = φ ((listPoly l).eval x) := by
    intro l
    induction l with
    | nil => intro r h; simp at h; subst h; simp
    | cons c l ih =>
      intro r h
      rw [List.reverse_cons, List.foldlM_append] at h
      simp only [bind, Option.bind_eq_some_iff, List.foldlM_cons, List.foldlM_nil, pure] at h
      obtain ⟨r', h1, r'', ⟨v, h2, h3⟩, h4⟩ := h
      simp only [Option.some.injEq] at h4
      subst h4
      rw [hφ _ _ h3, map_add, hφ _ _ h2, map_mul, ih r' h1]
      simp [mul_comm, add_comm]
  exact key p r h

/-! ## pseudo-division: every step is the one of the general model, in the target ring -/

section Div

attribute [local instance] PolyCoeff.selfCoeff

omit [DecidableEq R] in
theorem getLastD_map (φ : ℤ →+* R) (l : List ℤ) : (l.map φ).getLastD 0 = φ (l.getLastD 0) := by
  induction l using List.reverseRecOn with
  | nil => simp
  | append_singleton l a _ => simp

theorem subRow_hom (hφ : Blind w m φ) (qc : ℤ) (ds : List ℤ) : ∀ (rs c : List ℤ),
    subRow w m qc ds rs = some c → c.map φ = Poly.subRow (T := R) (φ qc) (ds.map φ) (rs.map φ) := by
  induction ds with
  | nil => intro rs c h; cases rs <;> simp [subRow] at h <;> subst h <;> simp [Poly.subRow]
  | cons d ds ih =>
    intro rs c h
    cases rs with
    | nil => simp [subRow] at h; subst h; simp [Poly.subRow]
    | cons r rs =>
      simp only [subRow, bind, Option.bind_eq_some_iff, pure, Option.some.injEq] at h
      obtain ⟨v, h1, e, h2, cs, h3, rfl⟩ := h
      have e2 := hφ _ _ h2
      rw [map_sub, hφ _ _ h1, map_mul] at e2
      simp only [List.map_cons, Poly.subRow, ih _ _ h3, e2]

theorem subAt_hom (hφ : Blind w m φ) (qc : ℤ) (ds : List ℤ) (k : ℕ) : ∀ (rs c : List ℤ),
    subAt w m qc ds k rs = some c → c.map φ = Poly.subAt (T := R) (φ qc) (ds.map φ) k (rs.map φ) := by
  induction k with
  | zero => intro rs c h; simp only [subAt] at h; simpa [Poly.subAt] using subRow_hom hφ qc ds rs c h
  | succ k ih =>
    intro rs c h
    cases rs with
    | nil => simp [subAt] at h; subst h; simp [Poly.subAt]
    | cons r rs =>
      simp only [subAt, bind, Option.bind_eq_some_iff, pure, Option.some.injEq] at h
      obtain ⟨cs, h3, rfl⟩ := h
      simp only [List.map_cons, Poly.subAt, ih _ _ h3]

theorem pdrLoop_hom (hφ : Blind w m φ) (dl : ℤ) (den : List ℤ) (k : ℕ) : ∀ (rem q : List ℤ) (c : List ℤ × List ℤ),
    pdrLoop w m dl den k rem q = some c →
    (c.1.map φ, c.2.map φ) = Poly.pdrLoop (T := R) (φ dl) (den.map φ) k (rem.map φ) (q.map φ) := by
  induction k with
  | zero => intro rem q c h; simp [pdrLoop] at h; subst h; simp [Poly.pdrLoop]
  | succ k ih =>
    intro rem q c h
    simp only [pdrLoop, bind, Option.bind_eq_some_iff] at h
    obtain ⟨r1, h1, r2, h2, h3⟩ := h
    rw [ih _ _ _ h3, Poly.pdrLoop, subAt_hom hφ _ _ _ _ _ h2,
      mapM_hom hφ (fun e => e * dl) (φ dl) (by intros; simp [mul_comm]) _ _ h1]
    simp only [List.map_cons, getLastD_map, List.map_dropLast, List.map_map]
    congr 3
    refine List.map_congr_left fun e _ => ?_
    simp [mul_comm]

theorem scaleTail_hom (hφ : Blind w m φ) (dl : ℤ) (qs : List ℤ) : ∀ (f : ℤ) (c : List ℤ × ℤ),
    scaleTail w m dl f qs = some c →
    (c.1.map φ, φ c.2) = Poly.scaleTail (T := R) (φ dl) (φ f) (qs.map φ) := by
  induction qs with
  | nil => intro f c h; simp [scaleTail] at h; subst h; simp [Poly.scaleTail]
  | cons q qs ih =>
    intro f c h
    simp only [scaleTail, bind, Option.bind_eq_some_iff, pure, Option.some.injEq] at h
    obtain ⟨v, h1, g, h2, s, h3, rfl⟩ := h
    have e := ih _ _ h3
    rw [hφ _ _ h2, map_mul] at e
    simp only [List.map_cons, Poly.scaleTail, ← e, hφ _ _ h1, map_mul]

theorem elementPseudoDivRem_hom (hφ : Blind w m φ) (num den : List ℤ) (ql : ℕ) (c : List ℤ × List ℤ × ℤ)
    (h : elementPseudoDivRem w m num den ql = some c) :
    (c.1.map φ, c.2.1.map φ, φ c.2.2) =
      Poly.elementPseudoDivRem (T := R) (num.map φ) (den.map φ) ql := by
  simp only [elementPseudoDivRem, bind, Option.bind_eq_some_iff] at h
  obtain ⟨⟨q, r⟩, h1, h2⟩ := h
  have e1 := pdrLoop_hom hφ _ _ _ _ _ _ h1
  unfold Poly.elementPseudoDivRem
  rw [getLastD_map]
  simp only [List.map_nil] at e1
  simp only [← e1]
  cases q with
  | nil => simp only [pure, Option.some.injEq] at h2; subst h2; simp
  | cons q0 qs =>
    simp only [bind, Option.bind_eq_some_iff, pure, Option.some.injEq] at h2
    obtain ⟨s, h3, rfl⟩ := h2
    simp only [List.map_cons, ← scaleTail_hom hφ _ _ _ _ h3]

end Div

end MachinePoly

end Algebraics
