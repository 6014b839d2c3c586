import Verif.Spec.Factor
import Verif.Lemmas.PolyMore
import Verif.Lemmas.FactorMod

/-!
# Lemmas about Hensel lifting
-/

set_option linter.unusedSectionVars false

namespace Algebraics
namespace Poly

open Polynomial

/-! ## Polynomials modulo `n` -/

theorem listPoly_map_coeff {R S : Type} [CommRing R] [CommRing S] (g : R → S) (h0 : g 0 = 0)
    (l : List R) (i : ℕ) : (listPoly (l.map g)).coeff i = g ((listPoly l).coeff i) := by
  rw [listPoly_coeff, listPoly_coeff, List.getD_eq_getElem?_getD, List.getD_eq_getElem?_getD,
    List.getElem?_map]
  cases l[i]? <;> simp [h0]

theorem coeff_setModulus {n : ℕ} (m : ℕ) (f : Poly (ZMod n)) (i : ℕ) :
    (setModulus m f).toPoly.coeff i = ((f.toPoly.coeff i).val : ZMod m) := by
  unfold setModulus
  rw [toPoly_ofCoeffs]
  exact listPoly_map_coeff (fun c : ZMod n => (c.val : ZMod m)) (by simp) f.coeffs i

/-- reducing the modulus -/
theorem setModulus_down {n m : ℕ} [NeZero n] (h : m ∣ n) (f : Poly (ZMod n)) :
    (setModulus m f).toPoly = f.toPoly.map (ZMod.castHom h (ZMod m)) := by
  ext i
  rw [coeff_setModulus, coeff_map, ZMod.castHom_apply, ZMod.natCast_val]

/-- raising the modulus, and reducing it again -/
theorem setModulus_up {n m : ℕ} [NeZero n] (h : n ∣ m) (f : Poly (ZMod n)) :
    (setModulus m f).toPoly.map (ZMod.castHom h (ZMod n)) = f.toPoly := by
  ext i
  rw [coeff_map, coeff_setModulus, map_natCast, ZMod.natCast_zmod_val]

theorem toPoly_modPoly (m : ℕ) (f : Poly ℤ) :
    (modPoly m f).toPoly = f.toPoly.map (Int.castRingHom (ZMod m)) := by
  ext i
  unfold modPoly
  rw [toPoly_ofCoeffs, coeff_map]
  exact listPoly_map_coeff (fun c : ℤ => (c : ZMod m)) (by simp) f.coeffs i

theorem modPoly_down {n m : ℕ} (h : m ∣ n) (f : Poly ℤ) :
    (modPoly n f).toPoly.map (ZMod.castHom h (ZMod m)) = (modPoly m f).toPoly := by
  rw [toPoly_modPoly, toPoly_modPoly, Polynomial.map_map]
  congr 1
  exact RingHom.ext_int _ _

/-! ## Division by a polynomial with invertible leading coefficient -/

theorem mapM_exactDiv_unit {m : ℕ} (l : List (ZMod m)) (c : ZMod m) (hc : IsUnit c) (hc0 : c ≠ 0) :
    ∃ r, l.mapM (fun a => ExactDivCoeff.exactDiv a c) = some r := by
  induction l with
  | nil => exact ⟨[], rfl⟩
  | cons a l ih =>
    obtain ⟨r, hr⟩ := ih
    obtain ⟨u, rfl⟩ := hc
    have : a = (a * ((u⁻¹ : (ZMod m)ˣ) : ZMod m)) * u := by rw [mul_assoc, Units.inv_mul, mul_one]
    refine ⟨(a * ((u⁻¹ : (ZMod m)ˣ) : ZMod m)) :: r, ?_⟩
    rw [List.mapM_cons, hr]
    have h2 := zmod_exactDiv_unit (a * ((u⁻¹ : (ZMod m)ˣ) : ZMod m)) u u.isUnit hc0
    rw [← this] at h2
    rw [h2]; rfl

theorem divCoeff_unit {m : ℕ} (p : Poly (ZMod m)) (c : ZMod m) (hc : IsUnit c) (hc0 : c ≠ 0) :
    ∃ r, p.divCoeff c = some r ∧ r.toPoly * C c = p.toPoly := by
  obtain ⟨r, hr⟩ := mapM_exactDiv_unit p.coeffs c hc hc0
  have : p.divCoeff c = some (ofCoeffs r) := by unfold divCoeff; rw [hr]; rfl
  exact ⟨_, this, divCoeff_sound _ _ _ this⟩

theorem divRem_unit {m : ℕ} (hm : 1 < m) (p q : Poly (ZMod m)) (hq : IsUnit q.toPoly.leadingCoeff) :
    ∃ a b, p.divRem q = some (a, b) ∧ p.toPoly = a.toPoly * q.toPoly + b.toPoly ∧
      b.toPoly.degree < q.toPoly.degree := by
  have : Fact (1 < m) := ⟨hm⟩
  have hq0 : q.toPoly ≠ 0 := leadingCoeff_ne_zero.mp hq.ne_zero
  obtain ⟨r, h1, h2, h3, h4⟩ := pseudoDivRem_spec p q hq0
  have hf : IsUnit r.factor := by rw [h4]; exact hq.pow _
  obtain ⟨a, ha, ha'⟩ := divCoeff_unit r.quotient r.factor hf hf.ne_zero
  obtain ⟨b, hb, hb'⟩ := divCoeff_unit r.remainder r.factor hf hf.ne_zero
  have hC : IsUnit (C r.factor : (ZMod m)[X]) := isUnit_C.mpr hf
  refine ⟨a, b, ?_, ?_, ?_⟩
  · unfold divRem; rw [h1]; simp only; rw [ha, hb]
  · apply hC.mul_left_cancel
    rw [h2, ← ha', ← hb']
    ring
  · refine lt_of_eq_of_lt ?_ h3
    rw [← hb']
    have h5 : (b.toPoly * C r.factor).degree = b.toPoly.degree := by
      by_cases hb0 : b.toPoly = 0
      · rw [hb0, zero_mul]
      · rw [degree_mul' , degree_C hf.ne_zero, add_zero]
        rw [leadingCoeff_C]
        intro h
        exact leadingCoeff_ne_zero.mpr hb0 ((hf.mul_left_eq_zero).mp h)
    exact h5.symm

/-! ## Reduction from `n²` to `n` -/

section Sq

variable {n : ℕ} (hn : 1 < n)

/-- reduction of a coefficient -/
def red (n : ℕ) : ZMod (n * n) →+* ZMod n := ZMod.castHom (Dvd.intro n rfl) (ZMod n)

theorem red_ker (hn : 1 < n) {a b : ZMod (n * n)} (ha : red n a = 0) (hb : red n b = 0) : a * b = 0 := by
  have : NeZero (n * n) := ⟨by positivity⟩
  have key : ∀ a : ZMod (n * n), red n a = 0 → ∃ k : ℕ, a = ((n * k : ℕ) : ZMod (n * n)) := by
    intro a ha
    unfold red at ha
    rw [ZMod.castHom_apply, ← ZMod.natCast_val, ZMod.natCast_eq_zero_iff] at ha
    obtain ⟨k, hk⟩ := ha
    exact ⟨k, by rw [← hk, ZMod.natCast_zmod_val]⟩
  obtain ⟨k, rfl⟩ := key a ha
  obtain ⟨l, rfl⟩ := key b hb
  rw [← Nat.cast_mul, ZMod.natCast_eq_zero_iff]
  exact ⟨k * l, by ring⟩

theorem red_ker_poly (hn : 1 < n) {a b : (ZMod (n * n))[X]} (ha : a.map (red n) = 0)
    (hb : b.map (red n) = 0) : a * b = 0 := by
  ext k
  rw [coeff_mul, coeff_zero]
  apply Finset.sum_eq_zero
  rintro ⟨i, j⟩ _
  apply red_ker hn
  · have := congrArg (fun q => q.coeff i) ha
    simpa using this
  · have := congrArg (fun q => q.coeff j) hb
    simpa using this

theorem red_isUnit (hn : 1 < n) {a : ZMod (n * n)} (ha : IsUnit (red n a)) : IsUnit a := by
  have : NeZero n := ⟨by omega⟩
  obtain ⟨b, hb⟩ := ha.exists_right_inv
  have hsurj : Function.Surjective (red n) := ZMod.castHom_surjective _
  obtain ⟨b, rfl⟩ := hsurj b
  have hz : red n (a * b - 1) = 0 := by rw [map_sub, map_mul, hb, map_one, sub_self]
  have h2 := red_ker hn hz hz
  refine IsUnit.of_mul_eq_one (b * (2 - a * b)) ?_
  linear_combination -h2

/-- division of a polynomial that vanishes modulo `n` -/
theorem div_vanish (hn : 1 < n) {p a q b : (ZMod (n * n))[X]} (hq : IsUnit q.leadingCoeff)
    (hp : p.map (red n) = 0) (h : p = a * q + b) (hd : b.degree < q.degree) :
    a.map (red n) = 0 ∧ b.map (red n) = 0 := by
  have : Fact (1 < n) := ⟨hn⟩
  have hlq : IsUnit (red n q.leadingCoeff) := hq.map _
  have hdeg : (q.map (red n)).degree = q.degree := degree_map_eq_of_leadingCoeff_ne_zero _ hlq.ne_zero
  have hlead : (q.map (red n)).leadingCoeff = red n q.leadingCoeff :=
    leadingCoeff_map_of_leadingCoeff_ne_zero _ hlq.ne_zero
  rw [h, Polynomial.map_add, Polynomial.map_mul] at hp
  have hbd : (b.map (red n)).degree < (q.map (red n)).degree := by
    rw [hdeg]; exact lt_of_le_of_lt degree_map_le hd
  have ha : a.map (red n) = 0 := by
    by_contra ha
    have h1 : (a.map (red n) * q.map (red n)).degree
        = (a.map (red n)).degree + (q.map (red n)).degree := by
      apply degree_mul'
      rw [hlead]
      intro h0
      exact leadingCoeff_ne_zero.mpr ha ((hlq.mul_left_eq_zero).mp h0)
    have h2 : a.map (red n) * q.map (red n) = -(b.map (red n)) := by linear_combination hp
    rw [h2, degree_neg] at h1
    have h3 : (0 : WithBot ℕ) ≤ (a.map (red n)).degree := zero_le_degree_iff.mpr ha
    rw [h1] at hbd
    have : (q.map (red n)).degree ≤ (a.map (red n)).degree + (q.map (red n)).degree := by
      calc (q.map (red n)).degree = 0 + (q.map (red n)).degree := (zero_add _).symm
        _ ≤ _ := by gcongr
    exact absurd hbd (not_lt.mpr this)
  refine ⟨ha, ?_⟩
  rw [ha, zero_mul, zero_add] at hp
  exact hp

theorem red_setModulus_up [NeZero n] (f : Poly (ZMod n)) :
    (setModulus (n * n) f).toPoly.map (red n) = f.toPoly := setModulus_up _ f

theorem red_setModulus_down [NeZero (n * n)] (f : Poly (ZMod (n * n))) :
    (setModulus n f).toPoly = f.toPoly.map (red n) := setModulus_down _ f

/-- raising the modulus keeps the degree and the representative of the leading coefficient -/
theorem setModulus_up_lead (hn : 1 < n) (f : Poly (ZMod n)) :
    (setModulus (n * n) f).toPoly.natDegree = f.toPoly.natDegree ∧
    (setModulus (n * n) f).toPoly.leadingCoeff = (f.toPoly.leadingCoeff.val : ZMod (n * n)) := by
  have : NeZero n := ⟨by omega⟩
  have h1 : (setModulus (n * n) f).toPoly.natDegree = f.toPoly.natDegree := by
    apply le_antisymm
    · rw [natDegree_le_iff_coeff_eq_zero]
      intro i hi
      rw [coeff_setModulus, coeff_eq_zero_of_natDegree_lt hi]; simp
    · conv_lhs => rw [← red_setModulus_up f]
      exact natDegree_map_le
  exact ⟨h1, by rw [leadingCoeff, h1, coeff_setModulus]; rfl⟩

theorem setModulus_up_unit (hn : 1 < n) (f : Poly (ZMod n)) (hf : IsUnit f.toPoly.leadingCoeff) :
    IsUnit (setModulus (n * n) f).toPoly.leadingCoeff := by
  have : NeZero n := ⟨by omega⟩
  rw [(setModulus_up_lead hn f).2]
  apply red_isUnit hn
  rw [map_natCast, ZMod.natCast_zmod_val]
  exact hf

end Sq

end Poly

namespace FTree

open Polynomial Poly

variable {n : ℕ}

theorem liftFactors_spec (hn : 1 < n) (l r lb rb np : Poly (ZMod (n * n)))
    (hr : IsUnit r.toPoly.leadingCoeff) (hp : np.toPoly.map (red n) = (l.toPoly * r.toPoly).map (red n))
    (hb : (lb.toPoly * l.toPoly + rb.toPoly * r.toPoly).map (red n) = 1) :
    ∃ l' r', liftFactors l r lb rb np = some (l', r') ∧ l'.toPoly * r'.toPoly = np.toPoly ∧
      l'.toPoly.map (red n) = l.toPoly.map (red n) ∧ r'.toPoly.map (red n) = r.toPoly.map (red n) ∧
      r'.toPoly.natDegree = r.toPoly.natDegree ∧ r'.toPoly.leadingCoeff = r.toPoly.leadingCoeff := by
  have hnn : 1 < n * n := by nlinarith
  unfold liftFactors
  simp only
  obtain ⟨q, m, h1, h2, h3⟩ := divRem_unit hnn (lb * (np - l * r)) r hr
  rw [h1]
  rw [toPoly_mul, toPoly_sub, toPoly_mul] at h2
  have hE : (np.toPoly - l.toPoly * r.toPoly).map (red n) = 0 := by
    rw [Polynomial.map_sub, hp, sub_self]
  have hE2 : (lb.toPoly * (np.toPoly - l.toPoly * r.toPoly)).map (red n) = 0 := by
    rw [Polynomial.map_mul, hE, mul_zero]
  obtain ⟨hq0, hm0⟩ := div_vanish hn hr hE2 h2 h3
  have e1 := red_ker_poly hn hE hm0
  have e2 := red_ker_poly hn hq0 hm0
  have hB : (lb.toPoly * l.toPoly + rb.toPoly * r.toPoly - 1).map (red n) = 0 := by
    rw [Polynomial.map_sub, hb, Polynomial.map_one, sub_self]
  have e3 := red_ker_poly hn hE hB
  refine ⟨_, _, rfl, ?_, ?_, ?_, ?_, ?_⟩
  · simp only [toPoly_add, toPoly_mul, toPoly_sub]
    linear_combination rb.toPoly * e1 + l.toPoly * e2 + e3 - l.toPoly * h2
  · simp only [toPoly_add, toPoly_mul, toPoly_sub, Polynomial.map_add, Polynomial.map_mul, hq0, hE]
    ring
  · rw [toPoly_add, Polynomial.map_add, hm0, add_zero]
  · rw [toPoly_add]; exact natDegree_add_eq_left_of_degree_lt h3
  · rw [toPoly_add]; exact leadingCoeff_add_of_degree_lt' h3

theorem liftBezout_spec (hn : 1 < n) (l r lb rb : Poly (ZMod (n * n)))
    (hr : IsUnit r.toPoly.leadingCoeff)
    (hb : (lb.toPoly * l.toPoly + rb.toPoly * r.toPoly).map (red n) = 1) :
    ∃ lb' rb', liftBezout l r lb rb = some (lb', rb') ∧
      lb'.toPoly * l.toPoly + rb'.toPoly * r.toPoly = 1 := by
  have hnn : 1 < n * n := by nlinarith
  unfold liftBezout
  simp only
  obtain ⟨q, m, h1, h2, h3⟩ := divRem_unit hnn (lb * (lb * l + rb * r).subCoeff 1) r hr
  rw [h1]
  rw [toPoly_mul, zmod_subCoeff, toPoly_add, toPoly_mul, toPoly_mul, C_1] at h2
  have hB : (lb.toPoly * l.toPoly + rb.toPoly * r.toPoly - 1).map (red n) = 0 := by
    rw [Polynomial.map_sub, hb, Polynomial.map_one, sub_self]
  have e3 := red_ker_poly hn hB hB
  refine ⟨_, _, rfl, ?_⟩
  simp only [toPoly_sub, toPoly_mul, zmod_subCoeff, toPoly_add, C_1]
  linear_combination (-1 : (ZMod (n * n))[X]) * e3 + l.toPoly * h2

theorem Ok.unit {t : FTree n} (h : t.Ok) : IsUnit t.product.toPoly.leadingCoeff := by
  induction t with
  | leaf f => exact h
  | node l r d p lb rb ihl ihr =>
    obtain ⟨h1, h2, h3, -, -⟩ := h
    show IsUnit p.toPoly.leadingCoeff
    by_cases hs : Subsingleton (ZMod n)
    · exact isUnit_of_subsingleton _
    have : Nontrivial (ZMod n) := not_subsingleton_iff_nontrivial.mp hs
    have h4 := (ihl h1).mul (ihr h2)
    rw [h3, leadingCoeff_mul' h4.ne_zero]
    exact h4

theorem Ok.degree_eq {t : FTree n} (h : t.Ok) : t.degree = t.product.toPoly.natDegree := by
  cases t with
  | leaf f =>
    show f.degree.getD 0 = f.toPoly.natDegree
    rw [Poly.degree_eq]
    by_cases h : f.toPoly = 0
    · rw [if_pos h, h]; simp
    · rw [if_neg h]; rfl
  | node l r d p lb rb => exact h.2.2.2.1

theorem Ok.product_eq {t : FTree n} (h : t.Ok) : t.product.toPoly = t.leafProduct := by
  induction t with
  | leaf f => simp [leafProduct, leaves, product]
  | node l r d p lb rb ihl ihr =>
    obtain ⟨h1, h2, h3, -, -⟩ := h
    show p.toPoly = _
    rw [h3, ihl h1, ihr h2]
    simp [leafProduct, leaves, List.map_append, List.prod_append]

/-- the leading coefficients of the leaves: all are one but for one leaf with `v` and the leftmost leaf,
which carries `w` in addition -/
def Lcs (v w : ℕ) : FTree n → Prop
  | leaf f => f.toPoly.leadingCoeff = (v : ZMod n) * w
  | node l r _ _ _ _ => (l.Lcs 1 w ∧ r.Lcs v 1) ∨ (l.Lcs v w ∧ r.Lcs 1 1)

theorem Lcs.product {t : FTree n} (hn : 1 < n) (h : t.Ok) : ∀ v w, t.Lcs v w →
    t.product.toPoly.leadingCoeff = (v : ZMod n) * w := by
  have : Fact (1 < n) := ⟨hn⟩
  induction t with
  | leaf f => intro v w h; exact h
  | node l r d p lb rb ihl ihr =>
    intro v w hv
    obtain ⟨h1, h2, h3, -, -⟩ := h
    have h4 := h1.unit.mul h2.unit
    show p.toPoly.leadingCoeff = (v : ZMod n) * w
    rw [h3, leadingCoeff_mul' h4.ne_zero]
    rcases hv with ⟨a, b⟩ | ⟨a, b⟩
    · rw [ihl h1 _ _ a, ihr h2 _ _ b]; simp [mul_comm]
    · rw [ihl h1 _ _ a, ihr h2 _ _ b]; simp

theorem Lcs.congr {t : FTree n} : ∀ v w w' : ℕ, (w : ZMod n) = w' → t.Lcs v w → t.Lcs v w' := by
  induction t with
  | leaf f =>
    intro v w w' hw h
    show f.toPoly.leadingCoeff = (v : ZMod n) * w'
    rw [← hw]; exact h
  | node l r d p lb rb ihl ihr =>
    intro v w w' hw h
    rcases h with ⟨a, b⟩ | ⟨a, b⟩
    · exact Or.inl ⟨ihl _ _ _ hw a, b⟩
    · exact Or.inr ⟨ihl _ _ _ hw a, b⟩

/-- the leading coefficients of the leaves as a list -/
theorem Lcs.leaf_list {t : FTree n} : ∀ v w, t.Lcs v w → ∃ rest : List (ZMod n), (∀ x ∈ rest, x = 1) ∧
    ((t.leaves.map fun g => g.toPoly.leadingCoeff).Perm ((v : ZMod n) * w :: rest) ∨
     (t.leaves.map fun g => g.toPoly.leadingCoeff).Perm ((v : ZMod n) :: (w : ZMod n) :: rest)) := by
  induction t with
  | leaf f =>
    intro v w h
    refine ⟨[], by simp, Or.inl ?_⟩
    simp only [leaves, List.map_cons, List.map_nil]
    rw [show f.toPoly.leadingCoeff = (v : ZMod n) * w from h]
  | node l r d p lb rb ihl ihr =>
    intro v w hv
    have ones : ∀ {t : FTree n} (_ : ∃ rest : List (ZMod n), (∀ x ∈ rest, x = 1) ∧
        ((t.leaves.map fun g => g.toPoly.leadingCoeff).Perm (((1 : ℕ) : ZMod n) * ((1 : ℕ) : ZMod n) :: rest) ∨
        (t.leaves.map fun g => g.toPoly.leadingCoeff).Perm (((1 : ℕ) : ZMod n) :: ((1 : ℕ) : ZMod n) :: rest))),
        ∀ x ∈ t.leaves.map (fun g => g.toPoly.leadingCoeff), x = 1 := by
      rintro t ⟨rest, h1, h2 | h2⟩ x hx
      · have := h2.mem_iff.mp hx
        rcases List.mem_cons.mp this with rfl | this
        · simp
        · exact h1 x this
      · have := h2.mem_iff.mp hx
        simp only [List.mem_cons] at this
        rcases this with rfl | rfl | this
        · simp
        · simp
        · exact h1 x this
    have hmap : (node l r d p lb rb).leaves.map (fun g => g.toPoly.leadingCoeff) =
        l.leaves.map (fun g => g.toPoly.leadingCoeff) ++ r.leaves.map (fun g => g.toPoly.leadingCoeff) := by
      rw [leaves, List.map_append]
    rw [hmap]
    rcases hv with ⟨a, b⟩ | ⟨a, b⟩
    · obtain ⟨r1, h1, h2⟩ := ihl 1 w a
      obtain ⟨r2, h3, h4⟩ := ihr v 1 b
      rw [Nat.cast_one, one_mul] at h2
      rw [Nat.cast_one, mul_one] at h4
      have h5 : ∃ r1' : List (ZMod n), (∀ x ∈ r1', x = 1) ∧
          (l.leaves.map fun g => g.toPoly.leadingCoeff).Perm ((w : ZMod n) :: r1') := by
        rcases h2 with h2 | h2
        · exact ⟨r1, h1, h2⟩
        · refine ⟨1 :: r1, ?_, h2.trans (List.Perm.swap _ _ _)⟩
          intro x hx
          rcases List.mem_cons.mp hx with rfl | hx
          · rfl
          · exact h1 x hx
      have h6 : ∃ r2' : List (ZMod n), (∀ x ∈ r2', x = 1) ∧
          (r.leaves.map fun g => g.toPoly.leadingCoeff).Perm ((v : ZMod n) :: r2') := by
        rcases h4 with h4 | h4
        · exact ⟨r2, h3, h4⟩
        · refine ⟨1 :: r2, ?_, h4⟩
          intro x hx
          rcases List.mem_cons.mp hx with rfl | hx
          · rfl
          · exact h3 x hx
      obtain ⟨r1', e1, e2⟩ := h5
      obtain ⟨r2', e3, e4⟩ := h6
      refine ⟨r1' ++ r2', ?_, Or.inr ?_⟩
      · intro x hx
        rcases List.mem_append.mp hx with hx | hx
        · exact e1 x hx
        · exact e3 x hx
      · refine (e2.append e4).trans ?_
        exact List.perm_middle (a := (v : ZMod n)) (l₁ := (w : ZMod n) :: r1') (l₂ := r2')
    · obtain ⟨r1, h1, h2⟩ := ihl v w a
      have h3 := ones (ihr 1 1 b)
      refine ⟨r1 ++ r.leaves.map (fun g => g.toPoly.leadingCoeff), ?_, ?_⟩
      · intro x hx
        rcases List.mem_append.mp hx with hx | hx
        · exact h1 x hx
        · exact h3 x hx
      · rcases h2 with h2 | h2
        · exact Or.inl (h2.append_right _)
        · exact Or.inr (h2.append_right _)

/-- one lifting step on a correct tree -/
theorem henselStep_spec (hn : 1 < n) (t : FTree n) : ∀ (np : Poly (ZMod (n * n))), t.Ok →
    np.toPoly.map (red n) = t.product.toPoly → np.toPoly.natDegree = t.product.toPoly.natDegree →
    ∃ t', t.henselStep (n * n) np = some t' ∧ t'.Ok ∧ t'.product = np ∧
      t'.leaves.map (setModulus n) = t.leaves ∧
      ∀ v w, v < n → t.Lcs v w → np.toPoly.leadingCoeff = (v : ZMod (n * n)) * w → t'.Lcs v w := by
  have hnn : 1 < n * n := by nlinarith
  have i1 : NeZero n := ⟨by omega⟩
  have i2 : NeZero (n * n) := ⟨by omega⟩
  have i3 : Fact (1 < n) := ⟨hn⟩
  have i4 : Fact (1 < n * n) := ⟨hnn⟩
  -- the leading coefficient of a lifted product
  have lift_unit : ∀ (a : (ZMod (n * n))[X]) (b : (ZMod n)[X]), a.map (red n) = b →
      a.natDegree = b.natDegree → IsUnit b.leadingCoeff → IsUnit a.leadingCoeff := by
    intro a b h1 h2 h3
    apply red_isUnit hn
    rw [leadingCoeff, h2, ← coeff_map, h1]
    exact h3
  induction t with
  | leaf f =>
    intro np hok hp hd
    refine ⟨leaf np, rfl, lift_unit _ _ hp hd hok, rfl, ?_, fun v w _ _ h => h⟩
    · simp only [leaves, List.map_cons, List.map_nil, List.cons.injEq, and_true]
      apply toPoly_injective
      rw [red_setModulus_down, hp]; rfl
  | node l r d p lb rb ihl ihr =>
    intro np hok hp hd
    have hunp := hok.unit
    obtain ⟨hl, hr, hpe, -, hbz⟩ := hok
    have hp : np.toPoly.map (red n) = p.toPoly := hp
    have hd : np.toPoly.natDegree = p.toPoly.natDegree := hd
    unfold henselStep
    have hR := setModulus_up_unit hn r.product hr.unit
    obtain ⟨l', r', h1, h2, h3, h4, h5, h6⟩ := liftFactors_spec hn (setModulus (n * n) l.product)
      (setModulus (n * n) r.product) (setModulus (n * n) lb) (setModulus (n * n) rb) np hR
      (by rw [Polynomial.map_mul, red_setModulus_up, red_setModulus_up, hp, hpe])
      (by rw [Polynomial.map_add, Polynomial.map_mul, Polynomial.map_mul]
          simp only [red_setModulus_up]; exact hbz)
    rw [red_setModulus_up] at h3 h4
    rw [h1]
    simp only
    have hR' : IsUnit r'.toPoly.leadingCoeff := by rw [h6]; exact hR
    obtain ⟨lb', rb', h7, h8⟩ := liftBezout_spec hn l' r' (setModulus (n * n) lb)
      (setModulus (n * n) rb) hR'
      (by rw [Polynomial.map_add, Polynomial.map_mul, Polynomial.map_mul, h3, h4]
          simp only [red_setModulus_up]; exact hbz)
    rw [h7]
    simp only
    have hchk : liftChecks l.product r.product l' r' lb' rb' np = true := by
      unfold liftChecks
      rw [Bool.and_eq_true, Bool.and_eq_true, Bool.and_eq_true, decide_eq_true_iff,
        decide_eq_true_iff, decide_eq_true_iff]
      refine ⟨⟨⟨?_, ?_⟩, ?_⟩, ?_⟩
      · apply toPoly_injective; rw [red_setModulus_down, h3]
      · apply toPoly_injective; rw [red_setModulus_down, h4]
      · rw [isOne_iff, toPoly_add, toPoly_mul, toPoly_mul, h8]
      · apply toPoly_injective; rw [toPoly_mul, h2]
    rw [if_pos hchk]
    have hr'd : r'.toPoly.natDegree = r.product.toPoly.natDegree := by
      rw [h5, (setModulus_up_lead hn r.product).1]
    have hl'0 : l'.toPoly.leadingCoeff ≠ 0 := by
      rw [leadingCoeff_ne_zero]
      rintro h0
      have : l.product.toPoly = 0 := by rw [← h3, h0, Polynomial.map_zero]
      have h9 := hl.unit
      rw [this, leadingCoeff_zero] at h9
      exact h9.ne_zero rfl
    have hmul0 : l'.toPoly.leadingCoeff * r'.toPoly.leadingCoeff ≠ 0 := fun h =>
      hl'0 ((hR'.mul_left_eq_zero).mp h)
    have hl'd : l'.toPoly.natDegree = l.product.toPoly.natDegree := by
      have e1 := natDegree_mul' hmul0
      have e2 := natDegree_mul' (hl.unit.mul hr.unit).ne_zero
      rw [h2, hd, hpe, e2] at e1
      omega
    have hlc : l'.toPoly.leadingCoeff * r'.toPoly.leadingCoeff = np.toPoly.leadingCoeff := by
      rw [← h2, leadingCoeff_mul' hmul0]
    obtain ⟨tl, a1, a2, a3, a4, a6⟩ := ihl l' hl h3 hl'd
    obtain ⟨tr, b1, b2, b3, b4, b6⟩ := ihr r' hr h4 hr'd
    rw [a1, b1]
    refine ⟨_, rfl, ⟨a2, b2, ?_, ?_, ?_⟩, rfl, ?_, ?_⟩
    · rw [a3, b3, h2]
    · rw [a2.degree_eq, b2.degree_eq, a3, b3, ← h2, natDegree_mul' hmul0]
    · rw [a3, b3]; exact h8
    · rw [leaves, leaves, List.map_append, a4, b4]
    · intro v w hv hlv hnv
      have hvval : ((v : ZMod n).val : ZMod (n * n)) = v := by
        rw [ZMod.val_natCast, Nat.mod_eq_of_lt hv]
      rw [hnv] at hlc
      rcases hlv with ⟨u1, u2⟩ | ⟨u1, u2⟩
      · left
        have e1 : r'.toPoly.leadingCoeff = v := by
          rw [h6, (setModulus_up_lead hn r.product).2, Lcs.product hn hr v 1 u2, Nat.cast_one, mul_one, hvval]
        refine ⟨a6 1 w hn u1 ?_, b6 v 1 hv u2 (by rw [e1]; simp)⟩
        have : IsUnit (v : ZMod (n * n)) := e1 ▸ hR'
        rw [e1] at hlc
        rw [Nat.cast_one, one_mul]
        exact this.mul_right_cancel (by rw [hlc]; ring)
      · right
        have e1 : r'.toPoly.leadingCoeff = 1 := by
          rw [h6, (setModulus_up_lead hn r.product).2, Lcs.product hn hr 1 1 u2, Nat.cast_one, mul_one,
            ← Nat.cast_one (R := ZMod n)]
          rw [ZMod.val_natCast, Nat.mod_eq_of_lt hn, Nat.cast_one]
        refine ⟨a6 v w hv u1 ?_, b6 1 1 hn u2 (by rw [e1]; simp)⟩
        rw [e1, mul_one] at hlc
        exact hlc

/-! ## Building the tree -/

section Build

variable {p : ℕ} [Fact p.Prime]

/-- what the entries of the heap satisfy pairwise -/
def Apart (a b : FTree p) : Prop :=
  IsCoprime a.product.toPoly b.product.toPoly ∧
    ¬ (IsUnit a.product.toPoly ∧ IsUnit b.product.toPoly)

theorem Apart.symm {a b : FTree p} (h : Apart a b) : Apart b a :=
  ⟨h.1.symm, fun g => h.2 ⟨g.2, g.1⟩⟩

theorem mkNode_spec (l r : FTree p) (hl : l.Ok) (hr : r.Ok) (h : Apart l r) :
    ∃ t, mkNode l r = some t ∧ t.Ok ∧ t.product.toPoly = l.product.toPoly * r.product.toPoly ∧
      t.leaves = l.leaves ++ r.leaves ∧
      ∀ v, (l.Lcs 1 1 ∧ r.Lcs v 1) ∨ (l.Lcs v 1 ∧ r.Lcs 1 1) → t.Lcs v 1 := by
  have hl0 : l.product.toPoly ≠ 0 := leadingCoeff_ne_zero.mp hl.unit.ne_zero
  have hr0 : r.product.toPoly ≠ 0 := leadingCoeff_ne_zero.mp hr.unit.ne_zero
  obtain ⟨e, h1, h2, h3, h4, -, h6⟩ := extendedGcd_spec l.product r.product
  have hev : e.v.toPoly = 1 := by
    have hu : IsUnit e.v.toPoly := h.1.isUnit_of_dvd' ((h4 _).mp dvd_rfl).1 ((h4 _).mp dvd_rfl).2
    exact (h3.resolve_left hu.ne_zero).isUnit_iff.mp hu
  have hna : ¬ Associated l.product.toPoly r.product.toPoly := by
    intro ha
    have hlu : IsUnit l.product.toPoly := h.1.isUnit_of_dvd' dvd_rfl ha.dvd
    exact h.2 ⟨hlu, ha.isUnit hlu⟩
  obtain ⟨d1, d2⟩ := h6 hl0 hr0 hna
  rw [hev, degree_one, add_zero] at d1 d2
  have hlt : ∀ a b : Poly (ZMod p), b.toPoly ≠ 0 → a.toPoly.degree < b.toPoly.degree → a.len < b.len := by
    intro a b hb hab
    by_cases ha : a.toPoly = 0
    · rw [(len_eq_zero_iff a).mpr ha, len_of_ne b hb]; omega
    · rw [len_of_ne a ha, len_of_ne b hb]
      have := natDegree_lt_natDegree ha hab
      omega
  unfold mkNode
  rw [h1]
  simp only
  rw [if_pos ⟨(isOne_iff _).mpr hev, hlt _ _ hr0 d1, hlt _ _ hl0 d2⟩]
  refine ⟨_, rfl, ⟨hl, hr, toPoly_mul _ _, ?_, ?_⟩, toPoly_mul _ _, rfl, fun v hv => hv⟩
  · rw [hl.degree_eq, hr.degree_eq, toPoly_mul, natDegree_mul hl0 hr0]
  · rw [← hev, h2]; ring

theorem pop_spec (choose : ℕ → List ℕ → ℕ) (hc : ∀ k ds, ds ≠ [] → choose k ds < ds.length) (k : ℕ)
    (heap : List (FTree p)) (h : heap ≠ []) :
    ∃ t rest, pop choose k heap = some (t, rest) ∧ heap.Perm (t :: rest) := by
  have hi : choose k (heap.map degree) < heap.length := by
    have := hc k (heap.map degree) (by simpa using h)
    simpa using this
  refine ⟨heap[choose k (heap.map degree)], heap.eraseIdx (choose k (heap.map degree)), ?_, ?_⟩
  · unfold pop
    simp only
    rw [List.getElem?_eq_getElem hi]
  · exact (List.getElem_cons_eraseIdx_perm hi).symm

theorem pop_nil (choose : ℕ → List ℕ → ℕ) (k : ℕ) : pop choose k ([] : List (FTree p)) = none := by
  unfold pop; simp

/-- the heap holds monic trees, but for one with the leading coefficient `v` -/
def HeapLcs (v : ℕ) (heap : List (FTree p)) : Prop :=
  ∃ t rest, heap.Perm (t :: rest) ∧ t.Lcs v 1 ∧ ∀ s ∈ rest, s.Lcs 1 1

theorem build_spec (choose : ℕ → List ℕ → ℕ) (hc : ∀ k ds, ds ≠ [] → choose k ds < ds.length)
    (fuel : ℕ) : ∀ (k : ℕ) (heap : List (FTree p)), heap ≠ [] → heap.length ≤ fuel →
    (∀ t ∈ heap, t.Ok) → heap.Pairwise Apart →
    ∃ t, build choose fuel k heap = some (some t) ∧ t.Ok ∧
      t.product.toPoly = (heap.map fun s => s.product.toPoly).prod ∧
      t.leaves.Perm (heap.flatMap leaves) ∧
      ∀ v, HeapLcs v heap → t.Lcs v 1 := by
  induction fuel with
  | zero =>
    intro k heap hne hlen
    exact absurd (List.length_pos_of_ne_nil hne) (by omega)
  | succ fuel ih =>
    intro k heap hne hlen hok hap
    unfold build
    obtain ⟨a, heap1, h1, h2⟩ := pop_spec choose hc k heap hne
    rw [h1]
    simp only
    by_cases hh : heap1 = []
    · subst hh
      rw [pop_nil]
      refine ⟨a, rfl, hok a (h2.mem_iff.mpr (by simp)), ?_, ?_, ?_⟩
      · rw [(h2.map _).prod_eq]; simp
      · have := h2.flatMap_right leaves
        simpa using this.symm
      · rintro v ⟨t, rest, h3, h4, -⟩
        have := (h2.symm.trans h3)
        have : a ∈ t :: rest := this.mem_iff.mp (by simp)
        have hl := (h2.symm.trans h3).length_eq
        simp only [List.length_cons, List.length_nil] at hl
        have hr : rest = [] := List.eq_nil_of_length_eq_zero (by omega)
        subst hr
        rw [List.mem_singleton] at this
        rw [this]; exact h4
    · obtain ⟨b, heap2, h3, h4⟩ := pop_spec choose hc (k + 1) heap1 hh
      rw [h3]
      simp only
      have hperm : heap.Perm (a :: b :: heap2) := h2.trans (h4.cons a)
      have hok' : ∀ t ∈ a :: b :: heap2, t.Ok := fun t ht => hok t (hperm.mem_iff.mpr ht)
      have hap' : (a :: b :: heap2).Pairwise Apart :=
        (hperm.pairwise_iff (fun h => Apart.symm h)).mp hap
      rw [List.pairwise_cons, List.pairwise_cons] at hap'
      obtain ⟨p1, p2, p3⟩ := hap'
      obtain ⟨t, e1, e2, e3, e4, e5⟩ := mkNode_spec a b (hok' a (by simp)) (hok' b (by simp))
        (p1 b (by simp))
      rw [e1]
      simp only
      have hlen2 : heap.length = heap2.length + 2 := by rw [hperm.length_eq]; simp
      obtain ⟨t', f1, f2, f3, f4, f5⟩ := ih (k + 2) (t :: heap2) (by simp)
        (by simp only [List.length_cons]; omega)
        (by
          intro s hs
          rcases List.mem_cons.mp hs with rfl | hs
          · exact e2
          · exact hok' s (by simp [hs]))
        (by
          rw [List.pairwise_cons]
          refine ⟨fun s hs => ⟨?_, ?_⟩, p3⟩
          · rw [e3]
            exact (p1 s (by simp [hs])).1.mul_left (p2 s hs).1
          · rintro ⟨hu, -⟩
            rw [e3, IsUnit.mul_iff] at hu
            exact (p1 b (by simp)).2 hu)
      refine ⟨t', f1, f2, ?_, ?_, ?_⟩
      · rw [f3, (hperm.map _).prod_eq]
        simp only [List.map_cons, List.prod_cons, e3]
        ring
      · refine f4.trans ?_
        have := hperm.flatMap_right leaves
        refine List.Perm.trans ?_ this.symm
        simp only [List.flatMap_cons, e4, List.append_assoc]
        exact List.Perm.refl _
      · rintro v ⟨t0, rest, g1, g2, g3⟩
        apply f5
        have g4 : (t0 :: rest).Perm (a :: b :: heap2) := g1.symm.trans hperm
        have hmem : t0 ∈ a :: b :: heap2 := g4.mem_iff.mp (by simp)
        simp only [List.mem_cons] at hmem
        rcases hmem with rfl | rfl | hmem
        · have g5 := List.Perm.cons_inv g4
          have g6 : ∀ s ∈ b :: heap2, s.Lcs 1 1 := fun s hs => g3 s (g5.mem_iff.mpr hs)
          exact ⟨t, heap2, List.Perm.refl _, e5 v (Or.inr ⟨g2, g6 b (by simp)⟩),
            fun s hs => g6 s (by simp [hs])⟩
        · have g5 := List.Perm.cons_inv (g4.trans (List.Perm.swap _ _ _))
          have g6 : ∀ s ∈ a :: heap2, s.Lcs 1 1 := fun s hs => g3 s (g5.mem_iff.mpr hs)
          exact ⟨t, heap2, List.Perm.refl _, e5 v (Or.inl ⟨g6 a (by simp), g2⟩),
            fun s hs => g6 s (by simp [hs])⟩
        · obtain ⟨u1, u2, rfl⟩ := List.append_of_mem hmem
          have g7 : (a :: b :: (u1 ++ t0 :: u2)).Perm (t0 :: a :: b :: (u1 ++ u2)) := by
            have := (List.perm_middle (a := t0) (l₁ := a :: b :: u1) (l₂ := u2))
            simpa using this
          have g5 := List.Perm.cons_inv (g4.trans g7)
          have g6 : ∀ s ∈ a :: b :: (u1 ++ u2), s.Lcs 1 1 := fun s hs => g3 s (g5.mem_iff.mpr hs)
          refine ⟨t0, t :: (u1 ++ u2), ?_, g2, ?_⟩
          · exact (List.perm_middle (a := t0) (l₁ := t :: u1) (l₂ := u2))
          · intro s hs
            rcases List.mem_cons.mp hs with rfl | hs
            · exact e5 1 (Or.inl ⟨g6 a (by simp), g6 b (by simp)⟩)
            · exact g6 s (List.mem_cons_of_mem _ (List.mem_cons_of_mem _ hs))

end Build

end FTree

namespace Poly

open Polynomial

/-! ## The lifting loop -/

theorem needsLift_true {limit n : ℕ} (h : needsLift limit n = true) : n ≤ limit + 1 := by
  unfold needsLift at h
  have hs := Nat.sqrt_le_self limit
  simp only at h
  by_cases h1 : Nat.sqrt limit * Nat.sqrt limit = limit
  · rw [if_pos h1, decide_eq_true_iff] at h; omega
  · rw [if_neg h1, decide_eq_true_iff] at h; omega

theorem needsLift_false {limit n : ℕ} (h : needsLift limit n = false) : limit < n * n := by
  unfold needsLift at h
  have hs := Nat.lt_succ_sqrt limit
  simp only at h
  have h2 : Nat.sqrt limit + 1 ≤ n := by
    by_cases h1 : Nat.sqrt limit * Nat.sqrt limit = limit
    · rw [if_pos h1, decide_eq_false_iff_not] at h; omega
    · rw [if_neg h1, decide_eq_false_iff_not] at h; omega
  exact lt_of_lt_of_le hs (Nat.mul_le_mul h2 h2)

theorem setModulus_setModulus {a b c : ℕ} [NeZero c] [NeZero b] (h1 : a ∣ b) (h2 : b ∣ c) (f : Poly (ZMod c)) :
    setModulus a (setModulus b f) = setModulus a f := by
  apply toPoly_injective
  rw [setModulus_down h1, setModulus_down h2, setModulus_down (h1.trans h2), Polynomial.map_map]
  congr 1
  exact ZMod.castHom_comp h1 h2

theorem modPoly_lead {n : ℕ} (hn : 1 < n) (f : Poly ℤ)
    (hu : IsUnit ((f.toPoly.leadingCoeff : ℤ) : ZMod n)) :
    (modPoly n f).toPoly.natDegree = f.toPoly.natDegree ∧
    (modPoly n f).toPoly.leadingCoeff = ((f.toPoly.leadingCoeff : ℤ) : ZMod n) := by
  have : Fact (1 < n) := ⟨hn⟩
  rw [toPoly_modPoly]
  have h : (Int.castRingHom (ZMod n)) f.toPoly.leadingCoeff ≠ 0 := by
    simpa using hu.ne_zero
  exact ⟨natDegree_map_of_leadingCoeff_ne_zero _ h, leadingCoeff_map_of_leadingCoeff_ne_zero _ h⟩

theorem liftLoop_spec (f : Poly ℤ) (limit : ℕ) (fuel : ℕ) : ∀ (n : ℕ) (t : FTree n), 1 < n →
    0 < fuel → limit + 2 < fuel + n → t.Ok → t.product = modPoly n f →
    IsUnit ((f.toPoly.leadingCoeff : ℤ) : ZMod n) →
    ∃ (k : ℕ) (t' : FTree (n ^ 2 ^ k)), liftLoop f limit fuel n t = some ⟨n ^ 2 ^ k, t'⟩ ∧ t'.Ok ∧
      t'.product = modPoly (n ^ 2 ^ k) f ∧ limit < n ^ 2 ^ k * n ^ 2 ^ k ∧
      t'.leaves.map (setModulus n) = t.leaves ∧
      ∀ v w : ℕ, v < n → ((f.toPoly.leadingCoeff : ℤ) : ZMod (n ^ 2 ^ k)) = v * w → t.Lcs v w →
        t'.Lcs v w := by
  induction fuel with
  | zero => intro n t _ h; omega
  | succ fuel ih =>
    intro n t hn _ hfuel hok hp hu
    have i1 : NeZero n := ⟨by omega⟩
    unfold liftLoop
    by_cases hl : needsLift limit n = true
    · rw [if_pos hl]
      have hle := needsLift_true hl
      have hnn : 1 < n * n := by nlinarith
      have i2 : NeZero (n * n) := ⟨by omega⟩
      have hu2 : IsUnit ((f.toPoly.leadingCoeff : ℤ) : ZMod (n * n)) := by
        apply red_isUnit hn
        rw [map_intCast]; exact hu
      obtain ⟨t', h1, h2, h3, h4, h5⟩ := FTree.henselStep_spec hn t (modPoly (n * n) f) hok
        (by rw [hp]; exact modPoly_down _ f)
        (by rw [hp, (modPoly_lead hn f hu).1, (modPoly_lead hnn f hu2).1])
      rw [h1]
      simp only
      obtain ⟨k, t'', g1, g2, g3, g4, g5, g6⟩ := ih (n * n) t' hnn (by omega) (by nlinarith) h2 h3 hu2
      have hpow : (n * n) ^ 2 ^ k = n ^ 2 ^ (k + 1) := by
        rw [← pow_two, ← pow_mul, pow_succ, mul_comm]
      rw [hpow] at g4
      revert t''
      rw [hpow]
      intro t'' g1 g2 g3 g5 g6
      refine ⟨k + 1, t'', g1, g2, g3, g4, ?_, ?_⟩
      · have i3 : NeZero (n ^ 2 ^ (k + 1)) := ⟨by positivity⟩
        rw [← h4, ← g5, List.map_map]
        apply List.map_congr_left
        intro g _
        symm
        apply setModulus_setModulus (Dvd.intro n rfl)
        rw [← hpow]
        exact dvd_pow_self _ (by positivity)
      · intro v w hv hlc hlcs
        refine g6 v w (by nlinarith) hlc (h5 v w hv hlcs ?_)
        rw [(modPoly_lead hnn f hu2).2]
        have hdn : n * n ∣ n ^ 2 ^ (k + 1) := by rw [← hpow]; exact dvd_pow_self _ (by positivity)
        have := congrArg (ZMod.castHom hdn (ZMod (n * n))) hlc
        simpa only [map_intCast, map_mul, map_natCast] using this
    · rw [if_neg hl]
      have hl' : needsLift limit n = false := by simpa using hl
      refine ⟨0, ?_⟩
      have hpow : n ^ 2 ^ 0 = n := by simp
      rw [hpow]
      refine ⟨t, rfl, hok, hp, needsLift_false hl', ?_, fun v w _ _ h => h⟩
      conv_rhs => rw [← List.map_id t.leaves]
      apply List.map_congr_left
      intro g _
      apply toPoly_injective
      rw [setModulus_down dvd_rfl]
      simp

end Poly
end Algebraics
