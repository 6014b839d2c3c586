import Mathlib.Data.List.DropRight
import Mathlib.Data.PNat.Defs
import Mathlib.Data.PNat.Basic
import Mathlib.Algebra.Ring.Rat
import Mathlib.Algebra.Field.Rat
import Mathlib.Algebra.Order.Field.Rat
import Mathlib.Data.Rat.Lemmas
import Mathlib.Algebra.Ring.Int.Defs
import Mathlib.Algebra.BigOperators.Group.List.Basic
import Mathlib.Algebra.Order.BigOperators.GroupWithZero.List
import Mathlib.Tactic

/-!
# Model of the coefficient traits of `src/polynomial.rs`

A `Polynomial<T>` is stored as a vector of *elements* and one common *divisor*.  `PolyCoeff`
models the trait `PolynomialCoefficient`; its instances model the three families of
implementations (integers, `Ratio`, nested polynomials).  A panic is `none`.
-/

namespace Algebraics

/-- `src/polynomial.rs:66-227` trait `PolynomialCoefficient`, restricted to the operations that do
anything on the value level (the `set_*`/`make_*` helpers only produce 0 and 1), together with the
laws that every implementation in the crate satisfies.  The laws are *proved* for each instance
below; they are not assumptions.  `Dv` holds only valid divisors (positive for `Ratio`). -/
class PolyCoeff (T : Type) [CommRing T] where
  /-- associated type `Element` -/
  Elem : Type
  /-- associated type `Divisor` -/
  Dv : Type
  [elemRing : CommRing Elem]
  [elemDec : DecidableEq Elem]
  [dvMonoid : CommMonoid Dv]
  [dvDec : DecidableEq Dv]
  /-- `make_coefficient` -/
  mkc : Elem → Dv → T
  /-- `divisor_to_element` -/
  d2e : Dv → Elem
  /-- `GCD::gcd_lcm` on divisors -/
  gcdLcm : Dv → Dv → Dv × Dv
  /-- `ExactDiv` on divisors -/
  dvDiv : Dv → Dv → Dv
  /-- `coefficients_to_elements` -/
  split : List T → List Elem × Dv
  /-- `reduce_divisor` -/
  reduce : List Elem → Dv → List Elem × Dv
  /-- `coefficient_to_element` -/
  toElem : T → Elem × Dv
  mkc_add : ∀ a b d, mkc (a + b) d = mkc a d + mkc b d
  mkc_mul : ∀ a b d d', mkc (a * b) (d * d') = mkc a d * mkc b d'
  mkc_one : mkc 1 1 = 1
  mkc_d2e : ∀ d, mkc (d2e d) d = 1
  mkc_eq_zero : ∀ a d, mkc a d = 0 ↔ a = 0
  gcdLcm_left : ∀ a b, (gcdLcm a b).1 * dvDiv a (gcdLcm a b).1 = a
  gcdLcm_right : ∀ a b, (gcdLcm a b).1 * dvDiv b (gcdLcm a b).1 = b
  gcdLcm_lcm : ∀ a b, (gcdLcm a b).2 =
    (gcdLcm a b).1 * dvDiv a (gcdLcm a b).1 * dvDiv b (gcdLcm a b).1
  split_val : ∀ l, (split l).1.map (mkc · (split l).2) = l
  split_reduced : ∀ l, reduce (split l).1 (split l).2 = split l
  reduce_val : ∀ es d, (reduce es d).1.map (mkc · (reduce es d).2) = es.map (mkc · d)
  reduce_congr : ∀ es d es' d', es.map (mkc · d) = es'.map (mkc · d') → reduce es d = reduce es' d'
  toElem_val : ∀ t, mkc (toElem t).1 (toElem t).2 = t
  toElem_reduced : ∀ t n, reduce (List.replicate n 0 ++ [(toElem t).1]) (toElem t).2 =
    (List.replicate n 0 ++ [(toElem t).1], (toElem t).2)

attribute [instance_reducible, instance] PolyCoeff.elemRing PolyCoeff.elemDec PolyCoeff.dvMonoid PolyCoeff.dvDec

/-- `src/polynomial.rs:465-575, 577-701` (integers, `Divisor = DivisorIsOne`), `703-802` (nested
polynomials) and `src/mod_int.rs` (modular integers): the element is the coefficient itself and
the divisor carries no information.  The nested instance's in-place `mul_assign_element_by_usize`
is modelled by ring multiplication. -/
@[reducible] def PolyCoeff.selfCoeff (R : Type) [CommRing R] [DecidableEq R] : PolyCoeff R where
  Elem := R
  Dv := Unit
  mkc e _ := e
  d2e _ := 1
  gcdLcm _ _ := ((), ())
  dvDiv _ _ := ()
  split l := (l, ())
  reduce es _ := (es, ())
  toElem t := (t, ())
  mkc_add _ _ _ := rfl
  mkc_mul _ _ _ _ := rfl
  mkc_one := rfl
  mkc_d2e _ := rfl
  mkc_eq_zero _ _ := Iff.rfl
  gcdLcm_left _ _ := rfl
  gcdLcm_right _ _ := rfl
  gcdLcm_lcm _ _ := rfl
  split_val l := by simp
  split_reduced _ := rfl
  reduce_val _ _ := by simp
  reduce_congr es d es' d' h := by simpa using h
  toElem_val _ := rfl
  toElem_reduced _ _ := rfl

/-- coefficients of type `BigInt`: `src/polynomial.rs:577-701`. -/
instance : PolyCoeff ℤ := PolyCoeff.selfCoeff ℤ

/-- the gcd folded over all elements: `src/polynomial.rs:423-429`. -/
def ratElemsGcd (es : List ℤ) (d : ℕ) : ℕ :=
  match es with
  | [] => d
  | e :: es => es.foldl (fun g e => Int.gcd g e) (Int.gcd e d)

/-- `src/polynomial.rs:418-437` `reduce_divisor` for `Ratio<BigInt>`. -/
def ratReduce (es : List ℤ) (d : ℕ+) : List ℤ × ℕ+ :=
  match es with
  | [] => ([], 1)
  | _ =>
    let gcd := ratElemsGcd es d
    if gcd = 1 then (es, d)
    else (es.map (fun e => e.tdiv gcd), Nat.toPNat' ((d : ℕ) / gcd))

/-- the common denominator folded in `src/polynomial.rs:385-404`. -/
def ratLcmDen : List ℚ → ℕ
  | [] => 1
  | [c] => c.den
  | c0 :: c1 :: cs => cs.foldl (fun d c => Nat.lcm d c.den) (Nat.lcm c0.den c1.den)

/-- `src/polynomial.rs:384-414` `coefficients_to_elements` for `Ratio<BigInt>`. -/
def ratSplit (l : List ℚ) : List ℤ × ℕ+ :=
  match l with
  | [] => ([], 1)
  | [c] => ([c.num], Nat.toPNat' c.den)
  | _ =>
    let divisor := ratLcmDen l
    (l.map (fun c => c.num * ((divisor : ℤ).tdiv c.den)), Nat.toPNat' divisor)

section RatLaws

theorem foldl_gcd_dvd (es : List ℤ) (g : ℕ) :
    (es.foldl (fun g e => Int.gcd g e) g) ∣ g ∧
      ∀ e ∈ es, ((es.foldl (fun g e => Int.gcd g e) g : ℕ) : ℤ) ∣ e := by
  induction es generalizing g with
  | nil => simp
  | cons a es ih =>
    obtain ⟨h1, h2⟩ := ih (Int.gcd g a)
    have ha : Int.gcd g a ∣ g := by exact_mod_cast Int.gcd_dvd_left (g : ℤ) a
    refine ⟨h1.trans ha, ?_⟩
    intro e he
    rcases List.mem_cons.mp he with rfl | he
    · exact (Int.natCast_dvd_natCast.mpr h1).trans (Int.gcd_dvd_right _ _)
    · exact h2 e he

theorem ratElemsGcd_dvd (es : List ℤ) (d : ℕ) :
    ratElemsGcd es d ∣ d ∧ ∀ e ∈ es, ((ratElemsGcd es d : ℕ) : ℤ) ∣ e := by
  cases es with
  | nil => simp [ratElemsGcd]
  | cons a es =>
    obtain ⟨h1, h2⟩ := foldl_gcd_dvd es (Int.gcd a d)
    refine ⟨h1.trans (by exact_mod_cast Int.gcd_dvd_right a (d : ℤ)), ?_⟩
    intro e he
    rcases List.mem_cons.mp he with rfl | he
    · exact (Int.natCast_dvd_natCast.mpr h1).trans (Int.gcd_dvd_left _ _)
    · exact h2 e he

theorem ratElemsGcd_pos (es : List ℤ) (d : ℕ+) : 0 < ratElemsGcd es d :=
  Nat.pos_of_dvd_of_pos (ratElemsGcd_dvd es d).1 d.pos

theorem foldl_gcd_mul (es : List ℤ) (g k : ℕ) :
    (es.map (· * (k : ℤ))).foldl (fun g e => Int.gcd g e) (g * k) =
      es.foldl (fun g e => Int.gcd g e) g * k := by
  induction es generalizing g with
  | nil => simp
  | cons a es ih =>
    simp only [List.map_cons, List.foldl_cons]
    rw [← ih]
    congr 1
    push_cast
    rw [Int.gcd_mul_right]
    simp

theorem ratElemsGcd_mul (es : List ℤ) (d k : ℕ) :
    ratElemsGcd (es.map (· * (k : ℤ))) (d * k) = ratElemsGcd es d * k := by
  cases es with
  | nil => simp [ratElemsGcd]
  | cons a es =>
    simp only [ratElemsGcd, List.map_cons]
    rw [← foldl_gcd_mul]
    congr 1
    push_cast
    rw [Int.gcd_mul_right]
    simp

theorem ratReduce_eq (e : ℤ) (es : List ℤ) (d : ℕ+) :
    ratReduce (e :: es) d = ((e :: es).map (fun x => x.tdiv (ratElemsGcd (e :: es) d)),
      Nat.toPNat' ((d : ℕ) / ratElemsGcd (e :: es) d)) := by
  unfold ratReduce
  by_cases h : ratElemsGcd (e :: es) d = 1
  · have : Nat.toPNat' (d : ℕ) = d := by
      apply PNat.eq
      rw [Nat.toPNat'_coe]; simp
    simp [h, this]
  · simp only [h, if_false]

theorem toPNat'_coe_of_pos {n : ℕ} (h : 0 < n) : ((Nat.toPNat' n : ℕ+) : ℕ) = n := by
  rw [Nat.toPNat'_coe, if_pos h]

theorem ratReduce_val (es : List ℤ) (d : ℕ+) :
    (ratReduce es d).1.map (fun e : ℤ => (e : ℚ) / ((ratReduce es d).2 : ℕ)) =
      es.map (fun e : ℤ => (e : ℚ) / (d : ℕ)) := by
  cases es with
  | nil => rfl
  | cons a es =>
    rw [ratReduce_eq]
    have hg := ratElemsGcd_pos (a :: es) d
    obtain ⟨⟨q, hq⟩, h2⟩ := ratElemsGcd_dvd (a :: es) d
    set g := ratElemsGcd (a :: es) d with hgdef
    have hqpos : 0 < q := by
      rcases Nat.eq_zero_or_pos q with h | h
      · subst h; have := d.pos; omega
      · exact h
    have hdiv : (d : ℕ) / g = q := by rw [hq]; exact Nat.mul_div_cancel_left _ hg
    simp only [List.map_map]
    apply List.map_congr_left
    intro e he
    obtain ⟨c, hc⟩ := h2 e he
    have hgz : (g : ℤ) ≠ 0 := by exact_mod_cast hg.ne'
    have hgq : (g : ℚ) ≠ 0 := by exact_mod_cast hg.ne'
    have hqq : (q : ℚ) ≠ 0 := by exact_mod_cast hqpos.ne'
    simp only [Function.comp]
    rw [hdiv, toPNat'_coe_of_pos hqpos, hq, hc, Int.mul_tdiv_cancel_left _ hgz]
    push_cast
    field_simp

theorem ratReduce_congr (es : List ℤ) (d : ℕ+) (es' : List ℤ) (d' : ℕ+)
    (h : es.map (fun e : ℤ => (e : ℚ) / (d : ℕ)) = es'.map (fun e : ℤ => (e : ℚ) / (d' : ℕ))) :
    ratReduce es d = ratReduce es' d' := by
  have hcross : es.map (· * ((d' : ℕ) : ℤ)) = es'.map (· * ((d : ℕ) : ℤ)) := by
    have hlen : es.length = es'.length := by simpa using congrArg List.length h
    apply List.ext_getElem (by simpa using hlen)
    intro i h1 h2
    simp only [List.length_map] at h1 h2
    have := congrArg (fun l => l[i]?) h
    simp only [List.getElem?_map, List.getElem?_eq_getElem h1, List.getElem?_eq_getElem h2,
      Option.map_some, Option.some.injEq] at this
    simp only [List.getElem_map]
    have hd : ((d : ℕ) : ℚ) ≠ 0 := by exact_mod_cast d.ne_zero
    have hd' : ((d' : ℕ) : ℚ) ≠ 0 := by exact_mod_cast d'.ne_zero
    rw [div_eq_div_iff hd hd'] at this
    exact_mod_cast this
  cases es with
  | nil =>
    cases es' with
    | nil => rfl
    | cons => simp at hcross
  | cons a es =>
    cases es' with
    | nil => simp at hcross
    | cons b es' =>
      rw [ratReduce_eq, ratReduce_eq]
      have hg := ratElemsGcd_pos (a :: es) d
      have hg' := ratElemsGcd_pos (b :: es') d'
      have e1 := ratElemsGcd_mul (a :: es) d d'
      have e2 := ratElemsGcd_mul (b :: es') d' d
      rw [hcross, Nat.mul_comm (d : ℕ), e2] at e1
      obtain ⟨⟨q, hq⟩, h2⟩ := ratElemsGcd_dvd (a :: es) d
      obtain ⟨⟨q', hq'⟩, h2'⟩ := ratElemsGcd_dvd (b :: es') d'
      set g := ratElemsGcd (a :: es) d with hgdef
      set g' := ratElemsGcd (b :: es') d' with hgdef'
      have hqq : q = q' := by
        rw [hq, hq'] at e1
        have : (g * g') * q = (g * g') * q' := by nlinarith
        exact Nat.eq_of_mul_eq_mul_left (Nat.mul_pos hg hg') this
      have hqpos : 0 < q := by
        rcases Nat.eq_zero_or_pos q with h | h
        · rw [h] at hq; have := d.pos; omega
        · exact h
      have hdiv : (d : ℕ) / g = q := by rw [hq]; exact Nat.mul_div_cancel_left _ hg
      have hdiv' : (d' : ℕ) / g' = q' := by rw [hq']; exact Nat.mul_div_cancel_left _ hg'
      rw [hdiv, hdiv', hqq]
      congr 1
      have hgz : (g : ℤ) ≠ 0 := by exact_mod_cast hg.ne'
      have hgz' : (g' : ℤ) ≠ 0 := by exact_mod_cast hg'.ne'
      have hqz : (q : ℤ) ≠ 0 := by exact_mod_cast hqpos.ne'
      have hlen : (a :: es).length = (b :: es').length := by simpa using congrArg List.length hcross
      apply List.ext_getElem (by simpa using hlen)
      intro i h1 h3
      simp only [List.length_map] at h1 h3
      have hc := congrArg (fun l => l[i]?) hcross
      simp only [List.getElem?_map, List.getElem?_eq_getElem h1, List.getElem?_eq_getElem h3,
        Option.map_some, Option.some.injEq] at hc
      simp only [List.getElem_map]
      obtain ⟨c, hcc⟩ := h2 _ (List.getElem_mem h1)
      obtain ⟨c', hcc'⟩ := h2' _ (List.getElem_mem h3)
      rw [hcc, hcc', Int.mul_tdiv_cancel_left _ hgz, Int.mul_tdiv_cancel_left _ hgz']
      rw [hcc, hcc', hq, hq', ← hqq] at hc
      push_cast at hc
      have : ((g : ℤ) * g' * q) * c = ((g : ℤ) * g' * q) * c' := by linarith
      exact mul_left_cancel₀ (mul_ne_zero (mul_ne_zero hgz hgz') hqz) this

theorem foldl_lcm_spec (cs : List ℚ) (d : ℕ) :
    (∀ m : ℕ, d ∣ m → (∀ c ∈ cs, c.den ∣ m) → cs.foldl (fun d c => Nat.lcm d c.den) d ∣ m) ∧
    d ∣ cs.foldl (fun d c => Nat.lcm d c.den) d ∧
    (∀ c ∈ cs, c.den ∣ cs.foldl (fun d c => Nat.lcm d c.den) d) := by
  induction cs generalizing d with
  | nil => simp
  | cons a cs ih =>
    obtain ⟨h1, h2, h3⟩ := ih (Nat.lcm d a.den)
    refine ⟨?_, (Nat.dvd_lcm_left _ _).trans h2, ?_⟩
    · intro m hd hm
      exact h1 m (Nat.lcm_dvd hd (hm a (by simp))) (fun c hc => hm c (by simp [hc]))
    · intro c hc
      rcases List.mem_cons.mp hc with rfl | hc
      · exact (Nat.dvd_lcm_right _ _).trans h2
      · exact h3 c hc

theorem ratLcmDen_spec (l : List ℚ) :
    (∀ m : ℕ, (∀ c ∈ l, c.den ∣ m) → ratLcmDen l ∣ m) ∧ (∀ c ∈ l, c.den ∣ ratLcmDen l) := by
  match l with
  | [] => simp [ratLcmDen]
  | [c] => simp [ratLcmDen]
  | c0 :: c1 :: cs =>
    obtain ⟨h1, h2, h3⟩ := foldl_lcm_spec cs (Nat.lcm c0.den c1.den)
    refine ⟨?_, ?_⟩
    · intro m hm
      exact h1 m (Nat.lcm_dvd (hm c0 (by simp)) (hm c1 (by simp))) (fun c hc => hm c (by simp [hc]))
    · intro c hc
      rcases List.mem_cons.mp hc with rfl | hc
      · exact (Nat.dvd_lcm_left _ _).trans h2
      rcases List.mem_cons.mp hc with rfl | hc
      · exact (Nat.dvd_lcm_right _ _).trans h2
      · exact h3 c hc

theorem ratLcmDen_pos (l : List ℚ) : 0 < ratLcmDen l := by
  have h := (ratLcmDen_spec l).1 (l.map Rat.den).prod
    (fun c hc => List.dvd_prod (List.mem_map_of_mem hc))
  refine Nat.pos_of_dvd_of_pos h ?_
  apply List.prod_pos
  intro a ha
  obtain ⟨c, _, rfl⟩ := List.mem_map.mp ha
  exact c.pos

theorem ratSplit_eq (l : List ℚ) :
    ratSplit l = (l.map (fun c => c.num * ((ratLcmDen l : ℤ).tdiv c.den)),
      Nat.toPNat' (ratLcmDen l)) := by
  match l with
  | [] => rfl
  | [c] =>
    have : (c.den : ℤ) ≠ 0 := by exact_mod_cast c.den_nz
    simp [ratSplit, ratLcmDen]
  | c0 :: c1 :: cs => rfl

theorem ratSplit_val (l : List ℚ) :
    (ratSplit l).1.map (fun e : ℤ => (e : ℚ) / ((ratSplit l).2 : ℕ)) = l := by
  rw [ratSplit_eq]
  have hpos := ratLcmDen_pos l
  simp only [List.map_map, toPNat'_coe_of_pos hpos]
  conv_rhs => rw [← List.map_id l]
  apply List.map_congr_left
  intro c hc
  obtain ⟨q, hq⟩ := (ratLcmDen_spec l).2 c hc
  have hd : (c.den : ℤ) ≠ 0 := by exact_mod_cast c.den_nz
  have hdq : (c.den : ℚ) ≠ 0 := by exact_mod_cast c.den_nz
  have hqq : (q : ℚ) ≠ 0 := by
    rcases Nat.eq_zero_or_pos q with h | h
    · rw [h] at hq; omega
    · exact_mod_cast h.ne'
  simp only [Function.comp, id]
  rw [hq]
  push_cast
  rw [Int.mul_tdiv_cancel_left _ hd]
  push_cast
  rw [mul_div_mul_right _ _ hqq]
  exact Rat.num_div_den c

theorem ratReduce_of_gcd_one (es : List ℤ) (d : ℕ+) (h : ratElemsGcd es d = 1) :
    ratReduce es d = (es, d) := by
  cases es with
  | nil =>
    simp only [ratElemsGcd] at h
    simp only [ratReduce]
    congr 1
    exact (PNat.eq h).symm
  | cons a es => simp [ratReduce, h]

theorem ratSplit_reduced (l : List ℚ) :
    ratReduce (ratSplit l).1 (ratSplit l).2 = ratSplit l := by
  apply ratReduce_of_gcd_one
  have hv := ratSplit_val l
  have hL : ((ratSplit l).2 : ℕ) = ratLcmDen l := by
    rw [ratSplit_eq]; exact toPNat'_coe_of_pos (ratLcmDen_pos l)
  obtain ⟨⟨q, hq⟩, h2⟩ := ratElemsGcd_dvd (ratSplit l).1 (ratSplit l).2
  have hgpos := ratElemsGcd_pos (ratSplit l).1 (ratSplit l).2
  set g := ratElemsGcd (ratSplit l).1 (ratSplit l).2 with hg
  have hden : ∀ c ∈ l, c.den ∣ q := by
    intro c hc
    rw [← hv] at hc
    obtain ⟨e, he, rfl⟩ := List.mem_map.mp hc
    obtain ⟨k, hk⟩ := h2 e he
    have hgq : (g : ℚ) ≠ 0 := by exact_mod_cast hgpos.ne'
    have : (e : ℚ) / ((ratSplit l).2 : ℕ) = (k : ℚ) / ((q : ℤ) : ℚ) := by
      rw [hq, hk]; push_cast
      rw [mul_div_mul_left _ _ hgq]
    rw [this]
    have := Rat.den_dvd k q
    rw [← Rat.intCast_div_eq_divInt] at this
    exact_mod_cast this
  have hdvd := (ratLcmDen_spec l).1 q hden
  rw [← hL, hq] at hdvd
  have hqpos : 0 < q := by
    rcases Nat.eq_zero_or_pos q with h | h
    · rw [h] at hq; have := (ratSplit l).2.pos; omega
    · exact h
  have hle := Nat.le_of_dvd hqpos hdvd
  have : g ≤ 1 := by
    by_contra hcon
    have : 2 ≤ g := by omega
    nlinarith
  omega

theorem ratToElem_reduced (t : ℚ) (n : ℕ) :
    ratReduce (List.replicate n 0 ++ [t.num]) (Nat.toPNat' t.den) =
      (List.replicate n 0 ++ [t.num], Nat.toPNat' t.den) := by
  apply ratReduce_of_gcd_one
  obtain ⟨h1, h2⟩ := ratElemsGcd_dvd (List.replicate n 0 ++ [t.num]) (Nat.toPNat' t.den)
  have h3 := h2 t.num (by simp)
  rw [toPNat'_coe_of_pos t.pos] at h1 h3 ⊢
  have := Nat.dvd_gcd (Int.natAbs_dvd_natAbs.mpr h3) (by simpa using h1)
  rw [t.reduced] at this
  exact Nat.dvd_one.mp (by simpa using this)

end RatLaws

/-- coefficients of type `Ratio<BigInt>`: `src/polynomial.rs:276-463` (`Ratio` is `ℚ`: num-rational
keeps its values in lowest terms with positive denominator). -/
instance : PolyCoeff ℚ where
  Elem := ℤ
  Dv := ℕ+
  mkc e d := (e : ℚ) / (d : ℕ)
  d2e d := ((d : ℕ) : ℤ)
  gcdLcm a b := (PNat.gcd a b, PNat.lcm a b)
  dvDiv a b := Nat.toPNat' ((a : ℕ) / (b : ℕ))
  split := ratSplit
  reduce := ratReduce
  toElem t := (t.num, Nat.toPNat' t.den)
  mkc_add a b d := by push_cast; ring
  mkc_mul a b d d' := by push_cast; rw [mul_div_mul_comm]
  mkc_one := by simp
  mkc_d2e d := by
    have : ((d : ℕ) : ℚ) ≠ 0 := by exact_mod_cast d.ne_zero
    push_cast; exact div_self this
  mkc_eq_zero a d := by
    have : ((d : ℕ) : ℚ) ≠ 0 := by exact_mod_cast d.ne_zero
    simp [this]
  gcdLcm_left a b := by
    apply PNat.eq
    have h : 0 < (a : ℕ) / Nat.gcd a b :=
      Nat.div_pos (Nat.gcd_le_left _ a.pos) (Nat.gcd_pos_of_pos_left _ a.pos)
    rw [PNat.mul_coe, PNat.gcd_coe, toPNat'_coe_of_pos h]
    exact Nat.mul_div_cancel' (Nat.gcd_dvd_left _ _)
  gcdLcm_right a b := by
    apply PNat.eq
    have h : 0 < (b : ℕ) / Nat.gcd a b :=
      Nat.div_pos (Nat.gcd_le_right _ b.pos) (Nat.gcd_pos_of_pos_left _ a.pos)
    rw [PNat.mul_coe, PNat.gcd_coe, toPNat'_coe_of_pos h]
    exact Nat.mul_div_cancel' (Nat.gcd_dvd_right _ _)
  gcdLcm_lcm a b := by
    apply PNat.eq
    have h : 0 < (a : ℕ) / Nat.gcd a b :=
      Nat.div_pos (Nat.gcd_le_left _ a.pos) (Nat.gcd_pos_of_pos_left _ a.pos)
    have h' : 0 < (b : ℕ) / Nat.gcd a b :=
      Nat.div_pos (Nat.gcd_le_right _ b.pos) (Nat.gcd_pos_of_pos_left _ a.pos)
    rw [PNat.mul_coe, PNat.mul_coe, PNat.gcd_coe, toPNat'_coe_of_pos h, toPNat'_coe_of_pos h',
      PNat.lcm_coe, Nat.mul_div_cancel' (Nat.gcd_dvd_left _ _), Nat.lcm,
      Nat.mul_div_assoc _ (Nat.gcd_dvd_right _ _)]
  split_val := ratSplit_val
  split_reduced := ratSplit_reduced
  reduce_val := ratReduce_val
  reduce_congr := ratReduce_congr
  toElem_val t := by
    rw [toPNat'_coe_of_pos t.pos]; exact Rat.num_div_den t
  toElem_reduced := ratToElem_reduced

end Algebraics
