import Verif.Model.PolyParts
import Verif.Lemmas.Poly
import Verif.Props.Poly

/-!
# C82: polynomials made from elements and a divisor of any sign
-/

namespace Algebraics

open Polynomial PolyCoeff

namespace RatParts

theorem stripZeros_getD (es : List ℤ) (i : ℕ) : (stripZeros es).getD i 0 = es.getD i 0 := by
  have h := congrArg (fun p => p.coeff i) (listPoly_stripZeros es)
  simpa [listPoly_coeff] using h

theorem gcd_natAbs_right (e d : ℤ) : Int.gcd e (d.natAbs : ℤ) = Int.gcd e d := by
  simp only [Int.gcd, Int.natAbs_natCast]

theorem elemsGcd_eq (es : List ℤ) (h : es ≠ []) (d : ℤ) : elemsGcd es d = ratElemsGcd es d.natAbs := by
  cases es with
  | nil => exact absurd rfl h
  | cons e es => simp only [elemsGcd, ratElemsGcd, gcd_natAbs_right]

/-- the divisor with its sign, reduced like its absolute value -/
theorem reduceDivisor_eq (es : List ℤ) (d : ℤ) (n : ℕ+) (hn : (n : ℕ) = d.natAbs) :
    reduceDivisor es d =
      some ⟨(ratReduce es n).1, if es = [] then 1 else d.sign * (((ratReduce es n).2 : ℕ) : ℤ)⟩ := by
  cases es with
  | nil => rfl
  | cons e es =>
    have hg := ratElemsGcd_pos (e :: es) n
    obtain ⟨q, hq⟩ := (ratElemsGcd_dvd (e :: es) n).1
    have hqpos : 0 < q := by
      rcases Nat.eq_zero_or_pos q with h | h
      · subst h; have := n.pos; omega
      · exact h
    rw [ratReduce_eq]
    have hs : d = d.sign * ((n : ℕ) : ℤ) := by rw [hn]; exact (Int.sign_mul_natAbs d).symm
    have hee : elemsGcd (e :: es) d = ratElemsGcd (e :: es) n := by
      rw [elemsGcd_eq _ (by simp), hn]
    unfold reduceDivisor
    simp only [hee]
    set g := ratElemsGcd (e :: es) n with hgdef
    have hdiv : (n : ℕ) / g = q := by rw [hq]; exact Nat.mul_div_cancel_left _ hg
    rw [hdiv, toPNat'_coe_of_pos hqpos, if_neg (List.cons_ne_nil _ _)]
    by_cases h1 : g = 1
    · rw [if_pos h1, h1]
      rw [h1, one_mul] at hq
      rw [← hq, ← hs]
      simp
    · rw [if_neg h1, if_neg hg.ne']
      have : d.tdiv (g : ℤ) = d.sign * (q : ℤ) := by
        conv_lhs => rw [hs, hq]
        push_cast
        rw [show d.sign * ((g : ℤ) * q) = g * (d.sign * q) by ring, Int.mul_tdiv_cancel_left]
        exact_mod_cast hg.ne'
      rw [this]

theorem coefficient_of_ne (p : RatParts) (h : p.divisor ≠ 0) (i : ℕ) :
    p.coefficient i = some (((p.elements.getD i 0 : ℤ) : ℚ) / p.divisor) := by
  unfold coefficient
  cases e : p.elements[i]? with
  | none => simp [List.getD_eq_getElem?_getD, e]
  | some x => simp [List.getD_eq_getElem?_getD, e, h]

theorem ratReduce_nil_iff (es : List ℤ) (n : ℕ+) : (ratReduce es n).1 = [] ↔ es = [] := by
  cases es with
  | nil => simp [ratReduce]
  | cons e es => rw [ratReduce_eq]; simp

theorem ratReduce_getD (es : List ℤ) (n : ℕ+) (i : ℕ) :
    (((ratReduce es n).1.getD i 0 : ℤ) : ℚ) / ((ratReduce es n).2 : ℕ) = ((es.getD i 0 : ℤ) : ℚ) / (n : ℕ) := by
  have h := congrArg (fun l => l.getD i 0) (ratReduce_val es n)
  have e : ∀ (l : List ℤ) (k : ℕ), (l.map (fun e : ℤ => (e : ℚ) / k)).getD i 0 = ((l.getD i 0 : ℤ) : ℚ) / k := by
    intro l k
    simp only [List.getD_eq_getElem?_getD, List.getElem?_map]
    cases l[i]? <;> simp
  simpa only [e] using h

theorem stripZeros_eq_nil_iff {R : Type} [Zero R] [DecidableEq R] (l : List R) :
    stripZeros l = [] ↔ ∀ e ∈ l, e = 0 := by
  unfold stripZeros
  rw [List.rdropWhile_eq_nil_iff]
  simp

theorem stripZeros_eq_nil_of {R : Type} [Zero R] [DecidableEq R] {l : List R} (h : ∀ e ∈ l, e = 0) :
    stripZeros l = [] := (stripZeros_eq_nil_iff l).mpr h

theorem stripZeros_neg (l : List ℤ) : stripZeros (l.map (- ·)) = (stripZeros l).map (- ·) := by
  unfold stripZeros
  rw [List.rdropWhile, List.rdropWhile, ← List.map_reverse, List.dropWhile_map, List.map_reverse]
  congr 3
  funext x
  simp

theorem foldl_gcd_neg (es : List ℤ) (g : ℕ) :
    (es.map (- ·)).foldl (fun g e => Int.gcd g e) g = es.foldl (fun (g : ℕ) e => Int.gcd g e) g := by
  induction es generalizing g with
  | nil => rfl
  | cons a es ih =>
    simp only [List.map_cons, List.foldl_cons, Int.gcd_neg]
    exact ih _

theorem ratElemsGcd_neg (es : List ℤ) (n : ℕ) : ratElemsGcd (es.map (- ·)) n = ratElemsGcd es n := by
  cases es with
  | nil => rfl
  | cons a es =>
    simp only [ratElemsGcd, List.map_cons, Int.neg_gcd]
    exact foldl_gcd_neg es _

theorem ratReduce_neg (es : List ℤ) (n : ℕ+) :
    ratReduce (es.map (- ·)) n = ((ratReduce es n).1.map (- ·), (ratReduce es n).2) := by
  cases es with
  | nil => rfl
  | cons a es =>
    have h := ratElemsGcd_neg (a :: es) n
    rw [List.map_cons] at h ⊢
    rw [ratReduce_eq, ratReduce_eq, h]
    simp [Int.neg_tdiv]

theorem divisor_of_nil (p : Poly ℚ) (h : p.raw.elements = []) : p.raw.divisor = (1 : ℕ+) := by
  have := congrArg Prod.snd p.canonical.2
  rw [h] at this
  exact this.symm

theorem ofParts_eq (es : List ℤ) (d : ℤ) (n : ℕ+) (hn : (n : ℕ) = d.natAbs) :
    RatParts.ofParts es d =
      some ⟨(Poly.ofParts (T := ℚ) (es, n)).raw.elements,
        if (Poly.ofParts (T := ℚ) (es, n)).raw.elements = [] then 1
        else d.sign * (((Poly.ofParts (T := ℚ) (es, n)).raw.divisor : ℕ+) : ℕ)⟩ := by
  unfold RatParts.ofParts
  rw [reduceDivisor_eq _ d n hn]
  have : (Poly.ofParts (T := ℚ) (es, n)).raw.elements = (ratReduce (stripZeros es) n).1 := rfl
  have h2 : (Poly.ofParts (T := ℚ) (es, n)).raw.divisor = (ratReduce (stripZeros es) n).2 := rfl
  rw [this, h2]
  congr 2
  exact if_congr (ratReduce_nil_iff _ n).symm rfl rfl

theorem ofParts_ofCoeffs (es : List ℤ) (n : ℕ+) :
    Poly.ofParts (T := ℚ) (es, n) = Poly.ofCoeffs (es.map (fun e : ℤ => (e : ℚ) / (n : ℕ))) := by
  apply Poly.toPoly_injective
  show (Poly.normalize (T := ℚ) es n).toPoly = _
  rw [Poly.toPoly_normalize, Poly.toPoly_ofCoeffs]
  rfl

theorem sign_cast_div (d : ℤ) (x : ℚ) : x / (d.natAbs : ℕ) / (d.sign : ℤ) = x / d := by
  rw [div_div, ← Int.cast_natCast, ← Int.cast_mul, mul_comm, Int.sign_mul_natAbs]

theorem addSubElems_getD (f : ℤ → ℤ → ℤ) (hf : ∀ a, f a 0 = a) (a b : ℤ) (l r : List ℤ) (i : ℕ) :
    (Poly.addSubElems (T := ℤ) f a b l r).getD i 0 = f (l.getD i 0 * a) (r.getD i 0 * b) := by
  induction l generalizing r i with
  | nil =>
    show (r.map (fun b' => f (0 * a) (b' * b))).getD i 0 = _
    simp only [List.getD_eq_getElem?_getD, List.getElem?_map]
    cases r[i]? <;> simp [hf]
  | cons x l ih =>
    cases r with
    | nil =>
      show (x * a :: Poly.addSubElems (T := ℤ) f a b l []).getD i 0 = _
      cases i with
      | zero => simp [hf]
      | succ i => simpa using ih [] i
    | cons y r =>
      show (f (x * a) (y * b) :: Poly.addSubElems (T := ℤ) f a b l r).getD i 0 = _
      cases i with
      | zero => simp
      | succ i => simpa using ih r i

end RatParts

open RatParts

/-- C82: for any non-zero divisor the polynomial is made, and its coefficients are the elements over the
divisor. -/
theorem C82_value (es : List ℤ) (d : ℤ) (hd : d ≠ 0) :
    ∃ p, RatParts.ofParts es d = some p ∧ p.divisor ≠ 0 ∧
      (∀ h : p.elements ≠ [], p.elements.getLast h ≠ 0) ∧
      ∀ i, p.coefficient i = some (((es.getD i 0 : ℤ) : ℚ) / d) := by
  have hn : ((Nat.toPNat' d.natAbs : ℕ+) : ℕ) = d.natAbs := toPNat'_coe_of_pos (Int.natAbs_pos.mpr hd)
  set n := Nat.toPNat' d.natAbs with hndef
  have h0 : (if (Poly.ofParts (T := ℚ) (es, n)).raw.elements = [] then (1 : ℤ)
        else d.sign * (((Poly.ofParts (T := ℚ) (es, n)).raw.divisor : ℕ+) : ℕ)) ≠ 0 := by
    split
    · exact one_ne_zero
    · exact mul_ne_zero (fun h => hd (Int.sign_eq_zero_iff_zero.mp h))
        (by exact_mod_cast (PNat.ne_zero _))
  refine ⟨_, ofParts_eq es d n hn, h0, (Poly.ofParts (T := ℚ) (es, n)).canonical.1, ?_⟩
  intro i
  rw [coefficient_of_ne _ h0]
  congr 1
  have hc := Poly.toPoly_normalize (T := ℚ) es n
  have hi := congrArg (fun p => p.coeff i) hc
  rw [Poly.toPoly_eq] at hi
  simp only [Poly.elemPoly_coeff] at hi
  have hi' : (((Poly.ofParts (T := ℚ) (es, n)).raw.elements.getD i 0 : ℤ) : ℚ) /
      (((Poly.ofParts (T := ℚ) (es, n)).raw.divisor : ℕ+) : ℕ) = ((es.getD i 0 : ℤ) : ℚ) / (n : ℕ) := hi
  rw [hn] at hi'
  rw [← sign_cast_div d, ← hi']
  split
  · rename_i h; simp only [h]; simp
  · rw [div_div]; push_cast; rw [mul_comm]

/-- the sum or difference, by the signs of the divisors -/
theorem RatParts.addSub_spec (f : ℤ → ℤ → ℤ) (hf : ∀ a, f a 0 = a) (s : ℚ)
    (hs : ∀ a b : ℤ, ((f a b : ℤ) : ℚ) = a + s * b) (l r : RatParts) (hl : l.divisor ≠ 0) (hr : r.divisor ≠ 0) :
    ∃ p, addSub f l r = some p ∧ p.divisor ≠ 0 ∧ ∀ i a b, l.coefficient i = some a → r.coefficient i = some b →
      p.coefficient i = some (((l.divisor * r.divisor).sign : ℤ) * (a + s * b)) := by
  by_cases h0 : l.elements = [] ∧ r.elements = []
  · refine ⟨l, if_pos h0, hl, ?_⟩
    intro i a b ha hb
    rw [coefficient_of_ne _ hl, h0.1] at ha
    rw [coefficient_of_ne _ hr, h0.2] at hb
    rw [coefficient_of_ne _ hl, h0.1]
    simp only [List.getD_nil, Int.cast_zero, zero_div, Option.some.injEq] at ha hb ⊢
    rw [← ha, ← hb]; simp
  · have hg : Int.gcd l.divisor r.divisor ≠ 0 := fun h => hl (Int.gcd_eq_zero_iff.mp h).1
    have hlcm : ((Int.lcm l.divisor r.divisor : ℕ) : ℤ) ≠ 0 := by
      have := Int.lcm_ne_zero hl hr
      exact_mod_cast this
    obtain ⟨p, h1, h2, _, h3⟩ := C82_value
      (Poly.addSubElems (T := ℤ) f (r.divisor.tdiv (Int.gcd l.divisor r.divisor))
        (l.divisor.tdiv (Int.gcd l.divisor r.divisor)) l.elements r.elements) _ hlcm
    refine ⟨p, ?_, h2, ?_⟩
    · unfold addSub
      rw [if_neg h0]
      simp only []
      rw [if_neg hg, h1]
    intro i a b ha hb
    rw [coefficient_of_ne _ hl] at ha
    rw [coefficient_of_ne _ hr] at hb
    rw [h3, addSubElems_getD f hf]
    simp only [Option.some.injEq] at ha hb ⊢
    subst ha; subst hb
    obtain ⟨l', hl'⟩ := Int.gcd_dvd_left l.divisor r.divisor
    obtain ⟨r', hr'⟩ := Int.gcd_dvd_right l.divisor r.divisor
    have hgl := Int.gcd_mul_lcm l.divisor r.divisor
    set g := Int.gcd l.divisor r.divisor with hgdef
    set m := Int.lcm l.divisor r.divisor with hmdef
    have hgz : (g : ℤ) ≠ 0 := by exact_mod_cast hg
    have hgq : (g : ℚ) ≠ 0 := by exact_mod_cast hg
    have hl0 : l' ≠ 0 := by rintro rfl; exact hl (by rw [hl', mul_zero])
    have hr0 : r' ≠ 0 := by rintro rfl; exact hr (by rw [hr', mul_zero])
    have hsg : (l.divisor * r.divisor).sign * (l.divisor * r.divisor) = (g : ℤ) * m := by
      rw [Int.sign_mul_self_eq_natAbs, Int.natAbs_mul, ← hgl]
      push_cast; rfl
    have hss : (l.divisor * r.divisor).sign * (l.divisor * r.divisor).sign = 1 := by
      rw [← Int.sign_mul]
      exact Int.sign_eq_one_of_pos (mul_self_pos.mpr (mul_ne_zero hl hr))
    have e1 : l.divisor.tdiv g = l' := by rw [hl', Int.mul_tdiv_cancel_left _ hgz]
    have e2 : r.divisor.tdiv g = r' := by rw [hr', Int.mul_tdiv_cancel_left _ hgz]
    rw [e1, e2, hs]
    set σ := (l.divisor * r.divisor).sign with hσ
    have hm : (m : ℚ) = σ * (g * l' * r') := by
      have h : (g : ℤ) * m = g * (σ * (g * l' * r')) := by
        rw [← hsg]; conv_lhs => rw [hl', hr']
        ring
      have := mul_left_cancel₀ hgz h
      exact_mod_cast this
    have hσq : (σ : ℚ) * σ = 1 := by exact_mod_cast hss
    have hσ0 : (σ : ℚ) ≠ 0 := by rintro h; rw [h] at hσq; simp at hσq
    have hl0q : (l' : ℚ) ≠ 0 := by exact_mod_cast hl0
    have hr0q : (r' : ℚ) ≠ 0 := by exact_mod_cast hr0
    have dl : (l.divisor : ℚ) = g * l' := by exact_mod_cast hl'
    have dr : (r.divisor : ℚ) = g * r' := by exact_mod_cast hr'
    rw [dl, dr]
    push_cast
    rw [hm]
    field_simp
    have : (σ : ℚ) ^ 2 = 1 := by rw [pow_two, hσq]
    rw [this]; ring

example : RatParts.ofParts [2, 0, -6, 0] (-4) = some ⟨[1, 0, -3], -2⟩ := by decide +kernel

/-- C82: the polynomial made from elements and a non-zero divisor has the fields, and is therefore equal (`==`), to the
one made from the coefficients it has exactly if the divisor is positive or all elements are zero. -/
theorem C82_canonical_iff (es : List ℤ) (d : ℤ) (hd : d ≠ 0) :
    RatParts.ofParts es d = some (RatParts.ofPoly (Poly.ofCoeffs (es.map (fun e : ℤ => (e : ℚ) / d)))) ↔
      0 < d ∨ ∀ e ∈ es, e = 0 := by
  have hn : ((Nat.toPNat' d.natAbs : ℕ+) : ℕ) = d.natAbs := toPNat'_coe_of_pos (Int.natAbs_pos.mpr hd)
  set n := Nat.toPNat' d.natAbs with hndef
  rw [ofParts_eq es d n hn]
  by_cases hz : ∀ e ∈ es, e = 0
  · have h1 : stripZeros es = [] := stripZeros_eq_nil_of hz
    have h2 : stripZeros (es.map (fun e : ℤ => (e : ℚ) / d)) = [] := by
      apply stripZeros_eq_nil_of
      intro x hx
      obtain ⟨e, he, rfl⟩ := List.mem_map.mp hx
      rw [hz e he]; simp
    have c1 : (Poly.ofParts (T := ℚ) (es, n)).raw.elements = [] := by
      show (ratReduce (stripZeros es) n).1 = []
      rw [h1]; rfl
    have c2 := (Poly.coeffs_ofCoeffs (es.map (fun e : ℤ => (e : ℚ) / d))).trans h2
    have c3 : (Poly.ofCoeffs (es.map (fun e : ℤ => (e : ℚ) / d))).raw.elements = [] := by
      simpa [Poly.coeffs] using c2
    refine iff_of_true ?_ (Or.inr hz)
    simp only [ofPoly, c1, if_true, c3, divisor_of_nil _ c3]
    simp
  · have c1 : (Poly.ofParts (T := ℚ) (es, n)).raw.elements ≠ [] := by
      intro h
      exact hz ((stripZeros_eq_nil_iff es).mp ((ratReduce_nil_iff _ n).mp h))
    rw [if_neg c1]
    simp only [hz, or_false]
    constructor
    · intro h
      rw [Option.some.injEq, RatParts.mk.injEq] at h
      by_contra hneg
      rw [Int.sign_eq_neg_one_of_neg (lt_of_le_of_ne (not_lt.mp hneg) hd)] at h
      have h4 := h.2
      have p1 := (Poly.ofParts (T := ℚ) (es, n)).raw.divisor.pos
      have p2 := (Poly.ofCoeffs (es.map (fun e : ℤ => (e : ℚ) / d))).raw.divisor.pos
      simp only [neg_one_mul, ofPoly] at h4
      omega
    · intro hpos
      have hdn : (d : ℚ) = ((n : ℕ) : ℚ) := by
        have : d = ((n : ℕ) : ℤ) := by omega
        conv_lhs => rw [this]
        simp
      rw [Int.sign_eq_one_of_pos hpos, one_mul, hdn, ← ofParts_ofCoeffs]
      rfl

/-- C82: with a negative divisor, both fields have the wrong sign: they are the negated elements and the negated
divisor of the polynomial made from the coefficients. -/
theorem C82_negative (es : List ℤ) (d : ℤ) (hd : d < 0) (h : ∃ e ∈ es, e ≠ 0) (c : RatParts)
    (hc : c = RatParts.ofPoly (Poly.ofCoeffs (es.map (fun e : ℤ => (e : ℚ) / d)))) :
    RatParts.ofParts es d = some ⟨c.elements.map (fun x : ℤ => -x), - c.divisor⟩ := by
  have hn : ((Nat.toPNat' d.natAbs : ℕ+) : ℕ) = d.natAbs := toPNat'_coe_of_pos (Int.natAbs_pos.mpr hd.ne)
  set n := Nat.toPNat' d.natAbs with hndef
  have c1 : (Poly.ofParts (T := ℚ) (es, n)).raw.elements ≠ [] := by
    intro h'
    obtain ⟨e, he, h0⟩ := h
    exact h0 ((stripZeros_eq_nil_iff es).mp ((ratReduce_nil_iff _ n).mp h') e he)
  rw [ofParts_eq es d n hn, if_neg c1, Int.sign_eq_neg_one_of_neg hd]
  have hp : Poly.ofCoeffs (es.map (fun e : ℤ => (e : ℚ) / d)) = Poly.ofParts (T := ℚ) (es.map (fun x : ℤ => -x), n) := by
    apply Poly.toPoly_injective
    rw [ofParts_ofCoeffs, Poly.toPoly_ofCoeffs, Poly.toPoly_ofCoeffs]
    have hdn : (d : ℚ) = -((n : ℕ) : ℚ) := by
      have : d = -((n : ℕ) : ℤ) := by omega
      conv_lhs => rw [this]
      simp
    ext i
    rw [listPoly_coeff, listPoly_coeff]
    simp only [List.getD_eq_getElem?_getD, List.getElem?_map]
    cases es[i]? with
    | none => simp
    | some e => simp only [Option.map_some, Option.getD_some, Int.cast_neg]; rw [hdn, div_neg, neg_div]
  rw [hp] at hc
  subst hc
  have e1 : (Poly.ofParts (T := ℚ) (es.map (fun x : ℤ => -x), n)).raw.elements = (Poly.ofParts (T := ℚ) (es, n)).raw.elements.map (fun x : ℤ => -x) := by
    show (ratReduce (stripZeros (es.map (fun x : ℤ => -x))) n).1 = (ratReduce (stripZeros es) n).1.map (fun x : ℤ => -x)
    rw [stripZeros_neg, ratReduce_neg]
  have e2 : (Poly.ofParts (T := ℚ) (es.map (fun x : ℤ => -x), n)).raw.divisor = (Poly.ofParts (T := ℚ) (es, n)).raw.divisor := by
    show (ratReduce (stripZeros (es.map (fun x : ℤ => -x))) n).2 = (ratReduce (stripZeros es) n).2
    rw [stripZeros_neg, ratReduce_neg]
  have e0 : ∀ l : List ℤ, (l.map (fun x : ℤ => -x)).map (fun x : ℤ => -x) = l := by
    intro l
    rw [List.map_map, show ((fun x : ℤ => -x) ∘ fun x : ℤ => -x) = id by funext x; simp, List.map_id]
  have e3 := e0 (Poly.ofParts (T := ℚ) (es, n)).raw.elements
  unfold ofPoly
  simp only [e1, e2]
  rw [neg_one_mul]
  exact congrArg (fun x => some (RatParts.mk x _)) e3.symm

/-- C82: a zero divisor is accepted, and no coefficient can be read afterwards. -/
theorem C82_zero_divisor (es : List ℤ) (h : ∃ e ∈ es, e ≠ 0) :
    ∃ p, RatParts.ofParts es 0 = some p ∧ p.divisor = 0 ∧ p.elements ≠ [] ∧
      ∀ i, p.coefficient i = if i < p.elements.length then none else some 0 := by
  have hne : stripZeros es ≠ [] := by
    intro h'
    obtain ⟨e, he, h0⟩ := h
    exact h0 ((stripZeros_eq_nil_iff es).mp h' e he)
  have hg : elemsGcd (stripZeros es) 0 ≠ 0 := by
    rw [elemsGcd_eq _ hne]
    intro h0
    have := (ratElemsGcd_dvd (stripZeros es) (Int.natAbs 0)).2 _ (List.getLast_mem hne)
    rw [h0] at this
    exact stripZeros_last es hne (by simpa using this)
  have hread : ∀ p : RatParts, p.divisor = 0 → ∀ i, p.coefficient i = if i < p.elements.length then none else some 0 := by
    intro p hp i
    unfold coefficient
    by_cases hi : i < p.elements.length
    · rw [if_pos hi, List.getElem?_eq_getElem hi]; simp [hp]
    · rw [if_neg hi, List.getElem?_eq_none (not_lt.mp hi)]
  unfold RatParts.ofParts
  obtain ⟨e, l, hel⟩ := List.exists_cons_of_ne_nil hne
  rw [hel] at hg ⊢
  unfold reduceDivisor
  simp only []
  by_cases h1 : elemsGcd (e :: l) 0 = 1
  · rw [if_pos h1]
    exact ⟨_, rfl, rfl, by simp, hread _ rfl⟩
  · rw [if_neg h1, if_neg hg]
    exact ⟨_, rfl, by simp, by simp, hread _ (by simp)⟩

/-- C82: the sum of two polynomials with divisors of the same sign is the sum of their coefficients, the sum of
two with divisors of different signs is its negative. Missing from the full claim: that it is always the sum,
which is false (`C82_false`). -/
theorem C82_add_partial (l r : RatParts) (hl : l.divisor ≠ 0) (hr : r.divisor ≠ 0) :
    ∃ p, l.add r = some p ∧ ∀ i a b, l.coefficient i = some a → r.coefficient i = some b →
      p.coefficient i = some (if 0 < l.divisor * r.divisor then a + b else -(a + b)) := by
  obtain ⟨p, h1, _, h2⟩ := addSub_spec (· + ·) (by simp) 1 (by simp) l r hl hr
  refine ⟨p, h1, fun i a b ha hb => ?_⟩
  rw [h2 i a b ha hb]
  split
  · rename_i h; rw [Int.sign_eq_one_of_pos h]; simp
  · rename_i h
    rw [Int.sign_eq_neg_one_of_neg (lt_of_le_of_ne (not_lt.mp h) (mul_ne_zero hl hr))]; simp

/-- C82: the same for the difference; missing is the same. -/
theorem C82_sub_partial (l r : RatParts) (hl : l.divisor ≠ 0) (hr : r.divisor ≠ 0) :
    ∃ p, l.sub r = some p ∧ ∀ i a b, l.coefficient i = some a → r.coefficient i = some b →
      p.coefficient i = some (if 0 < l.divisor * r.divisor then a - b else b - a) := by
  obtain ⟨p, h1, _, h2⟩ := addSub_spec (· - ·) (by simp) (-1) (by intros; push_cast; ring) l r hl hr
  refine ⟨p, h1, fun i a b ha hb => ?_⟩
  rw [h2 i a b ha hb]
  split
  · rename_i h; rw [Int.sign_eq_one_of_pos h]; congr 1; push_cast; ring
  · rename_i h
    rw [Int.sign_eq_neg_one_of_neg (lt_of_le_of_ne (not_lt.mp h) (mul_ne_zero hl hr))]
    congr 1; push_cast; ring

/-- C82: the product is right for all non-zero divisors. -/
theorem C82_mul (l r : RatParts) (hl : l.divisor ≠ 0) (hr : r.divisor ≠ 0) (a b : ℚ[X])
    (ha : ∀ i, l.coefficient i = some (a.coeff i)) (hb : ∀ i, r.coefficient i = some (b.coeff i)) :
    ∃ p, l.mul r = some p ∧ ∀ i, p.coefficient i = some ((a * b).coeff i) := by
  have key : ∀ (q : RatParts) (c : ℚ[X]), q.divisor ≠ 0 → (∀ i, q.coefficient i = some (c.coeff i)) →
      (listPoly q.elements).map (Int.castRingHom ℚ) = C (q.divisor : ℚ) * c := by
    intro q c hq hc
    ext i
    have := hc i
    rw [coefficient_of_ne _ hq, Option.some.injEq] at this
    have hq' : (q.divisor : ℚ) ≠ 0 := by exact_mod_cast hq
    rw [coeff_map, listPoly_coeff, coeff_C_mul, ← this]
    simp only [eq_intCast]
    field_simp
  have ka := key l a hl ha
  have kb := key r b hr hb
  by_cases h0 : l.elements = [] ∨ r.elements = []
  · refine ⟨⟨[], 1⟩, if_pos h0, ?_⟩
    have hab : a * b = 0 := by
      have hC : ∀ q : RatParts, q.divisor ≠ 0 → C (q.divisor : ℚ) ≠ 0 := by
        intro q hq; rw [Ne, C_eq_zero]; exact_mod_cast hq
      rcases h0 with h | h
      · rw [h] at ka
        have := (mul_eq_zero.mp (ka.symm.trans (by simp [listPoly]))).resolve_left (hC l hl)
        rw [this, zero_mul]
      · rw [h] at kb
        have := (mul_eq_zero.mp (kb.symm.trans (by simp [listPoly]))).resolve_left (hC r hr)
        rw [this, mul_zero]
    intro i
    rw [hab]; simp [coefficient]
  · have hr' : r.elements ≠ [] := fun h => h0 (Or.inr h)
    obtain ⟨p, h1, h2, _, h3⟩ := C82_value (Poly.mulRows (T := ℤ) r.elements 0 l.elements [])
      (l.divisor * r.divisor) (mul_ne_zero hl hr)
    refine ⟨p, by unfold RatParts.mul; rw [if_neg h0, h1], ?_⟩
    intro i
    have hm := Poly.mulRows_spec (T := ℤ) () () r.elements hr' l.elements 0 [] (by simp)
    have hm' : listPoly (Poly.mulRows (T := ℤ) r.elements 0 l.elements []) =
        listPoly l.elements * listPoly r.elements := by
      have e : ∀ es : List ℤ, elemPoly (T := ℤ) es () = listPoly es := by
        intro es
        unfold elemPoly
        congr 1
        exact List.map_id' es
      have hm2 : elemPoly (T := ℤ) (Poly.mulRows (T := ℤ) r.elements 0 l.elements []) () = _ := hm
      rw [e, e, e] at hm2
      rw [hm2]
      simp [elemPoly, listPoly]
    have hi := congrArg (fun q => (q.map (Int.castRingHom ℚ)).coeff i) hm'
    simp only [Polynomial.map_mul, ka, kb, coeff_map, listPoly_coeff, eq_intCast] at hi
    rw [h3, hi]
    have hl' : (l.divisor : ℚ) ≠ 0 := by exact_mod_cast hl
    have hr' : (r.divisor : ℚ) ≠ 0 := by exact_mod_cast hr
    rw [show C (l.divisor : ℚ) * a * (C (r.divisor : ℚ) * b) = C ((l.divisor : ℚ) * r.divisor) * (a * b) by
      rw [C_mul]; ring, coeff_C_mul]
    push_cast
    congr 1
    field_simp

example : (⟨[1, 0, -3], -2⟩ : RatParts).divisor ≠ 0 ∧
    (⟨[1, 0, -3], -2⟩ : RatParts).add ⟨[1, 1], 3⟩ = some ⟨[1, -2, -9], 6⟩ ∧
    (⟨[1, 0, -3], -2⟩ : RatParts).sub ⟨[1, 1], 3⟩ = some ⟨[5, 2, -9], 6⟩ ∧
    (⟨[1, 0, -3], -2⟩ : RatParts).mul ⟨[1, 1], 3⟩ = some ⟨[1, 1, -3, -3], -6⟩ := by decide +kernel

/-- C82 fails in full: `-1` made from the element 1 and the divisor -1 has the coefficient -1 and is not equal to
the polynomial made from -1; and `-2` made from 2 and -1, plus 1, gives 1. -/
theorem C82_false :
    ∃ p q r s, RatParts.ofParts [1] (-1) = some p ∧ RatParts.ofParts [-1] 1 = some q ∧
      p.coefficient 0 = some (-1) ∧ q.coefficient 0 = some (-1) ∧ p ≠ q ∧
      RatParts.ofParts [2] (-1) = some r ∧ r.coefficient 0 = some (-2) ∧
      r.add ⟨[1], 1⟩ = some s ∧ s.coefficient 0 = some 1 :=
  ⟨⟨[1], -1⟩, ⟨[-1], 1⟩, ⟨[2], -1⟩, ⟨[1], 1⟩, by decide +kernel⟩

end Algebraics
