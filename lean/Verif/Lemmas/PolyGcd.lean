import Verif.Model.PolyGcd
import Verif.Lemmas.PolyMore
import Verif.Lemmas.Subresultant

/-!
# gcd, resultant and extended gcd of the polynomial model
-/

set_option linter.unusedSectionVars false

namespace Algebraics

open Polynomial PolyCoeff ExactDivCoeff Subres

/-! ### one step of the remainder sequence -/

section Math
variable {R : Type*} [CommRing R] [IsDomain R]

/-- state of the remainder sequence: either the first pair, or a pair satisfying the invariant -/
def Ok (u v : R[X]) (a c : R) : Prop :=
  (SignEq a 1 ∧ SignEq c 1) ∨ (a = u.leadingCoeff ∧ ∃ F G, Inv F G u v c)

theorem natDegree_quot {u v q r : R[X]} {c : R} (hv : v ≠ 0) (h : v.natDegree ≤ u.natDegree)
    (hid : C c * u = q * v + r) (hr : r.degree < v.degree) :
    q.natDegree ≤ u.natDegree - v.natDegree := by
  by_cases hq : q = 0
  · simp [hq]
  have h1 : (q * v).natDegree = q.natDegree + v.natDegree := natDegree_mul hq hv
  have h2 : q * v = C c * u - r := by rw [hid]; ring
  have h3 : (q * v).natDegree ≤ u.natDegree := by
    rw [h2]
    refine (natDegree_sub_le _ _).trans (max_le (natDegree_C_mul_le _ _) ?_)
    exact (natDegree_le_natDegree hr.le).trans h
  omega

theorem signEq_ne_zero {a b : R} (h : SignEq a b) (hb : b ≠ 0) : a ≠ 0 := by
  rcases h with h | h <;> rw [h]
  · exact hb
  · exact neg_ne_zero.mpr hb

theorem Ok.c_ne {u v : R[X]} {a c : R} (h : Ok u v a c) : c ≠ 0 := by
  rcases h with ⟨-, h⟩ | ⟨-, F, G, h⟩
  · exact signEq_ne_zero h one_ne_zero
  · exact h.psi

theorem Ok.a_ne {u v : R[X]} {a c : R} (h : Ok u v a c) (hu : u ≠ 0) : a ≠ 0 := by
  rcases h with ⟨h, -⟩ | ⟨h, -⟩
  · exact signEq_ne_zero h one_ne_zero
  · rw [h]; exact leadingCoeff_ne_zero.mpr hu

theorem Ok.beta_ne {u v : R[X]} {a c β : R} (h : Ok u v a c) (hu : u ≠ 0)
    (hβ : SignEq β (a * c ^ (u.natDegree - v.natDegree))) : β ≠ 0 :=
  signEq_ne_zero hβ (mul_ne_zero (h.a_ne hu) (pow_ne_zero _ h.c_ne))

theorem Ok.dvd_rem {u v q r : R[X]} {a c β : R} (h : Ok u v a c) (hv : v ≠ 0)
    (hle : v.natDegree ≤ u.natDegree) (hr : r.degree < v.degree)
    (hid : C (v.leadingCoeff ^ (u.natDegree + 1 - v.natDegree)) * u = q * v + r)
    (hβ : SignEq β (a * c ^ (u.natDegree - v.natDegree))) :
    ∃ w : R[X], r = w * C β := by
  have hq := natDegree_quot hv hle hid hr
  rcases h with ⟨ha, hc⟩ | ⟨rfl, F, G, hi⟩
  · have h1 : SignEq β 1 := by
      refine hβ.trans ?_
      have := ha.mul (hc.pow (u.natDegree - v.natDegree))
      simpa using this
    rcases h1 with h1 | h1
    · exact ⟨r, by simp [h1]⟩
    · exact ⟨-r, by simp [h1]⟩
  · by_cases hv1 : 1 ≤ v.natDegree
    · have hr' : r.natDegree < v.natDegree := by
        by_cases hr0 : r = 0
        · rw [hr0, natDegree_zero]; omega
        · exact natDegree_lt_natDegree hr0 hr
      obtain ⟨w, hw⟩ := hi.dvd_rem hv1 hr' hq hid hβ
      exact ⟨w, by rw [hw, mul_comm]⟩
    · refine ⟨0, ?_⟩
      have : v.degree = 0 := by rw [degree_eq_natDegree hv]; simp; omega
      rw [this, Nat.WithBot.lt_zero_iff, degree_eq_bot] at hr
      rw [hr, zero_mul]

theorem Ok.dvd_psi {u v : R[X]} {a c : R} (h : Ok u v a c) :
    ∃ c', c' * c ^ (u.natDegree - v.natDegree - 1) = v.leadingCoeff ^ (u.natDegree - v.natDegree) := by
  rcases h with ⟨-, hc⟩ | ⟨-, F, G, hi⟩
  · have h1 := hc.pow (u.natDegree - v.natDegree - 1)
    rw [one_pow] at h1
    rcases h1 with h1 | h1 <;> rw [h1]
    · exact ⟨_, mul_one _⟩
    · exact ⟨-v.leadingCoeff ^ (u.natDegree - v.natDegree), by ring⟩
  · obtain ⟨c', h⟩ := hi.dvd_psi
    exact ⟨c', by rw [h, mul_comm]⟩

theorem Ok.next {u v w q : R[X]} {a c β c' : R} (h : Ok u v a c) (hv : v ≠ 0)
    (hle : v.natDegree ≤ u.natDegree) (hw0 : w ≠ 0) (hw : w.natDegree < v.natDegree)
    (hq : q.natDegree ≤ u.natDegree - v.natDegree)
    (hid : C (v.leadingCoeff ^ (u.natDegree + 1 - v.natDegree)) * u = q * v + C β * w)
    (hβ : SignEq β (a * c ^ (u.natDegree - v.natDegree)))
    (hψ : SignEq (c' * c ^ (u.natDegree - v.natDegree - 1))
      (v.leadingCoeff ^ (u.natDegree - v.natDegree))) :
    Ok v w v.leadingCoeff c' := by
  rcases h with ⟨ha, hc⟩ | ⟨rfl, F, G, hi⟩
  · refine Or.inr ⟨rfl, u, v, inv_first u v w q _ β c' hv hle hw0 hw hq rfl hid ?_ ?_⟩
    · refine hβ.trans ?_
      have := ha.mul (hc.pow (u.natDegree - v.natDegree))
      simpa using this
    · refine SignEq.trans ?_ hψ
      have := ((hc.pow (u.natDegree - v.natDegree - 1)).mul_left c').symm
      simpa using this
  · exact Or.inr ⟨rfl, F, G, hi.step hw0 hw hq rfl hid hβ hψ⟩

end Math

namespace Poly

variable {T : Type} [CommRing T] [PolyCoeff T] [DecidableEq T] [ExactDivCoeff T]

theorem coeffPow_eq (b : T) (n : ℕ) : coeffPow b n = b ^ n := by
  unfold coeffPow
  by_cases h : n = 0
  · simp [h]
  rw [if_neg h]
  obtain ⟨r', h1, -⟩ := powLoop_total (fun a b : T => some (a * b)) (fun _ => True)
    (fun x y _ _ => ⟨x * y, rfl, trivial⟩) (n + 1) b n none trivial (by simp)
  obtain ⟨v, hv, hs⟩ := powLoop_sound (M := T) id (fun a b : T => some (a * b))
    (fun x y z h => by cases h; rfl) (n + 1) b n none r' (by omega)
    ((Nat.lt_two_pow_self).trans (Nat.pow_lt_pow_right (by norm_num) (by omega))) h1
  rw [h1, hv]
  simpa [optVal] using hs

variable [LawfulExactDiv T] [IsDomain T]

theorem exactMulBySignedPower_spec (f c x : T) (hc : c ≠ 0) (pos neg : ℕ)
    (h : neg ≤ pos ∨ f = x * c ^ (neg - pos)) :
    exactMulBySignedPower f c pos neg = some (if neg ≤ pos then f * c ^ (pos - neg) else x) := by
  unfold exactMulBySignedPower
  by_cases hp : neg ≤ pos
  · rw [if_pos hp, if_pos hp, coeffPow_eq]
  · rw [if_neg hp, if_neg hp, coeffPow_eq]
    rcases h with h | h
    · exact absurd h hp
    · rw [h]; exact LawfulExactDiv.exactDiv_complete _ _ (pow_ne_zero _ hc)

/-- what it means for `f` to be a gcd of `l` and `r` over the fraction field: over every field the
coefficients embed in, the common divisors of `l` and `r` are exactly the divisors of `f` -/
def IsFieldGcd (l r f : T[X]) : Prop :=
  ∀ (K : Type) [Field K] (φ : T →+* K), Function.Injective φ →
    ∀ d : K[X], (d ∣ l.map φ ∧ d ∣ r.map φ) ↔ d ∣ f.map φ

theorem IsFieldGcd.step {u v w q f : T[X]} {c β : T} (hc : c ≠ 0) (hβ : β ≠ 0)
    (hid : C c * u = q * v + C β * w) (h : IsFieldGcd v w f) : IsFieldGcd u v f := by
  intro K _ φ hφ d
  rw [← h K φ hφ d]
  have hc' : φ c ≠ 0 := (map_ne_zero_iff φ hφ).mpr hc
  have hβ' : φ β ≠ 0 := (map_ne_zero_iff φ hφ).mpr hβ
  have hm := congrArg (Polynomial.map φ) hid
  simp only [Polynomial.map_mul, Polynomial.map_add, Polynomial.map_C] at hm
  have u1 : IsUnit (C (φ c) : K[X]) := isUnit_C.mpr hc'.isUnit
  have u2 : IsUnit (C (φ β) : K[X]) := isUnit_C.mpr hβ'.isUnit
  constructor
  · rintro ⟨h1, h2⟩
    refine ⟨h2, ?_⟩
    rw [← u2.dvd_mul_left]
    have : C (φ β) * w.map φ = C (φ c) * u.map φ - q.map φ * v.map φ := by rw [hm]; ring
    rw [this]
    exact dvd_sub (h1.mul_left _) (h2.mul_left _)
  · rintro ⟨h1, h2⟩
    refine ⟨?_, h1⟩
    rw [← u1.dvd_mul_left, hm]
    exact dvd_add (h1.mul_left _) (h2.mul_left _)

/-- the invariant step shared by both loops, in model terms -/
theorem prs_step (u v : Poly T) (a c β : T) (hu : u.toPoly ≠ 0) (hv : v.toPoly ≠ 0)
    (hle : v.toPoly.natDegree ≤ u.toPoly.natDegree) (hok : Ok u.toPoly v.toPoly a c)
    (hβ : SignEq β (a * c ^ (u.toPoly.natDegree - v.toPoly.natDegree))) :
    β ≠ 0 ∧ ∃ pr w, u.pseudoDivRem v = some pr ∧ pr.remainder.divCoeff β = some w ∧
      (pr.remainder.isZero = true ↔ w.toPoly = 0) ∧
      C (v.toPoly.leadingCoeff ^ (u.toPoly.natDegree + 1 - v.toPoly.natDegree)) * u.toPoly =
        pr.quotient.toPoly * v.toPoly + C β * w.toPoly ∧
      pr.quotient.toPoly.natDegree ≤ u.toPoly.natDegree - v.toPoly.natDegree ∧
      (w.toPoly ≠ 0 → w.toPoly.natDegree < v.toPoly.natDegree) := by
  have hβ0 := hok.beta_ne hu hβ
  obtain ⟨pr, h1, h2, h3, h4⟩ := pseudoDivRem_spec u v hv
  rw [len_of_ne u hu, len_of_ne v hv,
    show u.toPoly.natDegree + 1 + 1 - (v.toPoly.natDegree + 1) =
      u.toPoly.natDegree + 1 - v.toPoly.natDegree by omega] at h4
  rw [h4] at h2
  obtain ⟨w, hw⟩ := hok.dvd_rem hv hle h3 h2 hβ
  obtain ⟨w, rfl⟩ := (toPolyEquiv (T := T)).surjective w
  have hw : pr.remainder.toPoly = w.toPoly * C β := hw
  refine ⟨hβ0, pr, w, h1, divCoeff_complete _ _ _ hβ0 hw, ?_, ?_, natDegree_quot hv hle h2 h3, ?_⟩
  · rw [isZero_iff, hw]; simp [hβ0]
  · rw [h2, hw, mul_comm (C β)]
  · intro hw0
    have : w.toPoly.natDegree = pr.remainder.toPoly.natDegree := by
      rw [hw, natDegree_mul_C hβ0]
    rw [this]
    apply natDegree_lt_natDegree _ h3
    rw [hw]; simp [hw0, hβ0]

theorem subresultantLoop_spec (fuel : ℕ) : ∀ (f2 f1 : Poly T) (a c : T),
    f2.toPoly ≠ 0 → f1.toPoly ≠ 0 → f1.toPoly.natDegree ≤ f2.toPoly.natDegree →
    Ok f2.toPoly f1.toPoly a c → f1.toPoly.natDegree < fuel →
    ∃ f, subresultantLoop fuel f2 f2.toPoly.natDegree a c f1 f1.toPoly.natDegree = some f ∧
      f.toPoly ≠ 0 ∧ IsFieldGcd f2.toPoly f1.toPoly f.toPoly := by
  induction fuel with
  | zero => intro f2 f1 a c _ _ _ _ h; omega
  | succ fuel ih =>
    intro f2 f1 a c h2 h1 hle hok hfuel
    have hβ : SignEq (-a * (-c) ^ (f2.toPoly.natDegree - f1.toPoly.natDegree))
        (a * c ^ (f2.toPoly.natDegree - f1.toPoly.natDegree)) :=
      SignEq.mul (Or.inr rfl) (SignEq.pow (Or.inr rfl) _)
    obtain ⟨hβ0, pr, w, e1, e2, -, hid, hq, hw⟩ := prs_step f2 f1 a c _ h2 h1 hle hok hβ
    have hl : f1.toPoly.leadingCoeff ≠ 0 := leadingCoeff_ne_zero.mpr h1
    unfold subresultantLoop
    rw [if_neg (by omega), e1]
    simp only [coeffPow_eq]
    rw [e2]
    simp only
    rw [degree_eq w]
    by_cases hw0 : w.toPoly = 0
    · rw [if_pos hw0]
      refine ⟨f1, rfl, h1, IsFieldGcd.step (pow_ne_zero _ hl) hβ0 hid ?_⟩
      intro K _ φ _ d
      rw [hw0]; simp
    · rw [if_neg hw0]
      simp only
      rw [nonzeroHighest_eq, if_neg h1]
      simp only
      obtain ⟨c', hc'⟩ := hok.dvd_psi
      set n2 := f2.toPoly.natDegree
      set n1 := f1.toPoly.natDegree
      set l := f1.toPoly.leadingCoeff
      rw [exactMulBySignedPower_spec (l ^ (n2 - n1)) c c' hok.c_ne (n1 + 1) n2 (by
        by_cases hn : n2 ≤ n1 + 1
        · exact Or.inl hn
        · right; rw [← hc', Nat.sub_sub])]
      simp only
      have hok' : Ok f1.toPoly w.toPoly l
          (if n2 ≤ n1 + 1 then l ^ (n2 - n1) * c ^ (n1 + 1 - n2) else c') := by
        refine hok.next h1 hle hw0 (hw hw0) hq hid hβ ?_
        by_cases hn : n2 ≤ n1 + 1
        · rw [if_pos hn]
          have e : f2.toPoly.natDegree - f1.toPoly.natDegree - 1 = 0 := by omega
          rw [e, pow_zero, mul_one]
          by_cases hn' : n2 = n1 + 1
          · rw [show n1 + 1 - n2 = 0 by omega, pow_zero, mul_one]; exact SignEq.refl _
          · have hn2 : n2 = n1 := by omega
            -- equal degrees only happen at the first step
            rcases hok with ⟨-, hc⟩ | ⟨-, F, G, hi⟩
            · rw [show n1 + 1 - n2 = 1 by omega, pow_one]
              have := hc.mul_left (l ^ (n2 - n1))
              simpa using this
            · have := hi.lt; omega
        · rw [if_neg hn, hc']; exact SignEq.refl _
      obtain ⟨f, hf, hf0, hg⟩ := ih f1 w l _ h1 hw0 (hw hw0).le hok' (by have := hw hw0; omega)
      exact ⟨f, hf, hf0, IsFieldGcd.step (pow_ne_zero _ hl) hβ0 hid hg⟩

theorem IsFieldGcd.swap {l r f : T[X]} (h : IsFieldGcd l r f) : IsFieldGcd r l f := by
  intro K _ φ hφ d
  rw [← h K φ hφ d, and_comm]

theorem IsFieldGcd.neg {l r f : T[X]} (h : IsFieldGcd l r f) : IsFieldGcd l r (-f) := by
  intro K _ φ hφ d
  rw [h K φ hφ d]; simp

theorem subresultantGcdOrdered_spec (l r : Poly T) (b : Bool) (hle : r.len ≤ l.len) :
    ∃ f, subresultantGcdOrdered l r b = some f ∧ IsFieldGcd l.toPoly r.toPoly f.toPoly := by
  unfold subresultantGcdOrdered
  by_cases hr : r.toPoly = 0
  · rw [if_pos ((isZero_iff r).mpr hr)]
    refine ⟨l, rfl, ?_⟩
    intro K _ φ _ d
    rw [hr]; simp
  · rw [if_neg (by rwa [isZero_iff])]
    have hl : l.toPoly ≠ 0 := by
      intro h
      have := (len_eq_zero_iff l).mpr h
      rw [len_of_ne r hr] at hle; omega
    rw [degree_eq, degree_eq, if_neg hl, if_neg hr]
    simp only
    have hlen := len_of_ne r hr
    have hlen' := len_of_ne l hl
    obtain ⟨f, hf, -, hg⟩ := subresultantLoop_spec (r.len + 1) l r 1 1 hl hr (by omega)
      (Or.inl ⟨SignEq.refl _, SignEq.refl _⟩) (by omega)
    rw [hf]
    cases b
    · exact ⟨f, rfl, hg⟩
    · refine ⟨-f, rfl, ?_⟩
      rw [toPoly_neg]; exact hg.neg

theorem subresultantGcd_spec (l r : Poly T) :
    ∃ f, subresultantGcd l r = some f ∧ IsFieldGcd l.toPoly r.toPoly f.toPoly := by
  unfold subresultantGcd
  by_cases h : l.len < r.len
  · rw [if_pos h]
    obtain ⟨f, hf, hg⟩ := subresultantGcdOrdered_spec r l
      ((r.degree.getD 0) % 2 == 1 && (l.degree.getD 0) % 2 == 1) h.le
    exact ⟨f, hf, hg.swap⟩
  · rw [if_neg h]
    exact subresultantGcdOrdered_spec l r false (by omega)

/-! ### resultant -/

/-- a state of the resultant recursion from which every division is exact -/
def ResOk (u v : Poly T) (i deltaP : ℕ) (psiP : T) : Prop :=
  ∃ psi β a, resultantPsiBeta u i (u.toPoly.natDegree + 1 - v.toPoly.natDegree) deltaP psiP =
      some (psi, β) ∧ Ok u.toPoly v.toPoly a psi ∧
      SignEq β (a * psi ^ (u.toPoly.natDegree - v.toPoly.natDegree))

theorem resOk_first (u v : Poly T) (deltaP : ℕ) (psiP : T) : ResOk u v 1 deltaP psiP := by
  refine ⟨-1, if (u.toPoly.natDegree + 1 - v.toPoly.natDegree) % 2 = 1 then -1 else 1, 1, ?_,
    Or.inl ⟨SignEq.refl _, Or.inr rfl⟩, ?_⟩
  · unfold resultantPsiBeta; rw [if_pos rfl]
  · have h1 : ∀ n : ℕ, SignEq (1 * (-1) ^ n : T) 1 := by
      intro n
      have := SignEq.mul_left (1 : T) (SignEq.pow (show SignEq (-1 : T) 1 from Or.inr rfl) n)
      simpa using this
    refine SignEq.trans ?_ (h1 _).symm
    by_cases h : (u.toPoly.natDegree + 1 - v.toPoly.natDegree) % 2 = 1
    · rw [if_pos h]; exact Or.inr rfl
    · rw [if_neg h]; exact Or.inl rfl

theorem resOk_next (u v w : Poly T) (q : T[X]) (i : ℕ) (a psi β : T) (hi : i ≠ 0)
    (hv : v.toPoly ≠ 0) (hle : v.toPoly.natDegree ≤ u.toPoly.natDegree)
    (hok : Ok u.toPoly v.toPoly a psi)
    (hβ : SignEq β (a * psi ^ (u.toPoly.natDegree - v.toPoly.natDegree)))
    (hw0 : w.toPoly ≠ 0) (hw : w.toPoly.natDegree < v.toPoly.natDegree)
    (hid : C (v.toPoly.leadingCoeff ^ (u.toPoly.natDegree + 1 - v.toPoly.natDegree)) * u.toPoly =
        q * v.toPoly + C β * w.toPoly)
    (hq : q.natDegree ≤ u.toPoly.natDegree - v.toPoly.natDegree) :
    ResOk v w (i + 1) (u.toPoly.natDegree + 1 - v.toPoly.natDegree) psi := by
  obtain ⟨c', hc'⟩ := hok.dvd_psi
  have key : ∀ psi' : T, SignEq (psi' * psi ^ (u.toPoly.natDegree - v.toPoly.natDegree - 1))
      (v.toPoly.leadingCoeff ^ (u.toPoly.natDegree - v.toPoly.natDegree)) →
      Ok v.toPoly w.toPoly v.toPoly.leadingCoeff psi' := fun psi' h =>
    hok.next hv hle hw0 hw hq hid hβ h
  -- the new psi
  obtain ⟨psi', hp, hok'⟩ : ∃ psi',
      resultantPsi v.toPoly.leadingCoeff (u.toPoly.natDegree + 1 - v.toPoly.natDegree) psi =
          some psi' ∧ Ok v.toPoly w.toPoly v.toPoly.leadingCoeff psi' := by
    obtain ⟨δ, hδ⟩ : ∃ δ, u.toPoly.natDegree - v.toPoly.natDegree = δ := ⟨_, rfl⟩
    have e : u.toPoly.natDegree + 1 - v.toPoly.natDegree = δ + 1 := by omega
    rw [e]
    rw [hδ] at key hc'
    unfold resultantPsi
    cases δ with
    | zero =>
      refine ⟨psi, rfl, key _ ?_⟩
      rcases hok with ⟨-, hc⟩ | ⟨-, F, G, hi⟩
      · simpa using hc
      · have := hi.lt; omega
    | succ d =>
      simp only [coeffPow_eq]
      simp only [Nat.add_sub_cancel] at hc' key
      refine ⟨(-1) ^ (d + 1) * c', ?_, key _ ?_⟩
      · rw [neg_pow, ← hc', ← mul_assoc]
        exact LawfulExactDiv.exactDiv_complete _ _ (pow_ne_zero _ hok.c_ne)
      · rw [mul_assoc, hc']
        have := SignEq.mul (SignEq.pow (show SignEq (-1 : T) 1 from Or.inr rfl) (d + 1))
          (SignEq.refl (v.toPoly.leadingCoeff ^ (d + 1)))
        simpa using this
  refine ⟨psi', -v.toPoly.leadingCoeff *
    coeffPow psi' (v.toPoly.natDegree + 1 - w.toPoly.natDegree - 1), v.toPoly.leadingCoeff, ?_,
    hok', ?_⟩
  · unfold resultantPsiBeta
    rw [if_neg (by omega), nonzeroHighest_eq, if_neg hv]
    simp only
    rw [hp]
  · rw [coeffPow_eq]
    have e : v.toPoly.natDegree + 1 - w.toPoly.natDegree - 1 =
      v.toPoly.natDegree - w.toPoly.natDegree := by omega
    rw [e]
    exact SignEq.mul (Or.inr rfl) (SignEq.refl _)

theorem coeffs_const (v : Poly T) (h0 : v.toPoly ≠ 0) (h : v.toPoly.natDegree = 0) :
    ∃ c, v.coeffs = [c] ∧ v.toPoly = C c := by
  have hl := len_of_ne v h0
  rw [h, len_eq] at hl
  obtain ⟨c, hc⟩ := List.length_eq_one_iff.mp hl
  exact ⟨c, hc, by rw [toPoly, hc]; simp⟩

theorem signFlip (m n : ℕ) (x : T) :
    (if (m % 2 == 1 && n % 2 == 1) = true then -x else x) = (-1) ^ (m * n) * x := by
  rcases Nat.even_or_odd (m * n) with h | h
  · rw [h.neg_one_pow, one_mul, if_neg]
    simp only [Bool.and_eq_true, beq_iff_eq, not_and]
    intro h1 h2
    have : Odd (m * n) := Nat.odd_mul.mpr ⟨Nat.odd_iff.mpr h1, Nat.odd_iff.mpr h2⟩
    exact Nat.not_even_iff_odd.mpr this h
  · rw [h.neg_one_pow, if_pos]
    · ring
    · obtain ⟨h1, h2⟩ := Nat.odd_mul.mp h
      simp [Nat.odd_iff.mp h1, Nat.odd_iff.mp h2]

theorem resultantLoop_spec (fuel : ℕ) : ∀ (u v : Poly T) (i deltaP : ℕ) (psiP : T),
    u.toPoly ≠ 0 → v.toPoly ≠ 0 → v.toPoly.natDegree ≤ u.toPoly.natDegree →
    ResOk u v i deltaP psiP → i ≠ 0 → v.toPoly.natDegree < fuel →
    ∃ x, resultantLoop fuel u v i deltaP psiP = some x ∧
      x.getD 0 = Polynomial.resultant u.toPoly v.toPoly ∧ (∀ y, x = some y → y ≠ 0) := by
  induction fuel with
  | zero => intro u v i deltaP psiP _ _ _ _ _ h; omega
  | succ fuel ih =>
    intro u v i deltaP psiP hu hv hle hres hi hfuel
    unfold resultantLoop
    rw [degree_eq, degree_eq, if_neg hu, if_neg hv]
    simp only
    rw [if_neg (by omega)]
    by_cases hn : v.toPoly.natDegree = 0
    · rw [if_pos hn]
      obtain ⟨c, hc, hc'⟩ := coeffs_const v hv hn
      rw [hc]
      simp only [coeffPow_eq]
      refine ⟨_, rfl, ?_, ?_⟩
      · rw [hc', natDegree_C, Polynomial.resultant_C_zero_right]; rfl
      · intro y hy
        cases hy
        apply pow_ne_zero
        rintro rfl
        simp at hc'; exact hv hc'
    · rw [if_neg hn]
      obtain ⟨psi, β, a, hpb, hok, hβ⟩ := hres
      obtain ⟨hβ0, pr, w, e1, e2, e3, hid, hq, hw⟩ := prs_step u v a psi β hu hv hle hok hβ
      have hl : v.toPoly.leadingCoeff ≠ 0 := leadingCoeff_ne_zero.mpr hv
      rw [e1]
      simp only
      by_cases hw0 : w.toPoly = 0
      · rw [if_pos (e3.mpr hw0)]
        refine ⟨none, rfl, ?_, by simp⟩
        -- the resultant vanishes
        have h1 := resultant_step u.toPoly v.toPoly 0 pr.quotient.toPoly
          (v.toPoly.leadingCoeff ^ (u.toPoly.natDegree + 1 - v.toPoly.natDegree)) β
          (by simp; omega) hle hq (by rw [hid, hw0])
        have h2 : Polynomial.resultant v.toPoly (0 : T[X]) = 0 := by
          have := Polynomial.resultant_C_zero_right v.toPoly v.toPoly.natDegree (0 : T)
          rw [C_0, zero_pow hn] at this
          rw [natDegree_zero]; exact this
        rw [h2, mul_zero] at h1
        rcases mul_eq_zero.mp h1 with h | h
        · exact absurd h (pow_ne_zero _ (pow_ne_zero _ hl))
        · rw [h]; rfl
      · rw [if_neg (by rw [e3]; exact hw0)]
        have hw' := hw hw0
        rw [hpb]
        simp only
        rw [e2, nonzeroHighest_eq, if_neg hv]
        simp only
        rw [degree_eq, if_neg hw0]
        simp only
        have hres' := resOk_next u v w pr.quotient.toPoly i a psi β hi hv hle hok hβ hw0 hw' hid hq
        obtain ⟨x, hx, hxr, hx0⟩ := ih v w (i + 1) _ psi hv hw0 hw'.le hres' (by omega) (by omega)
        rw [hx]
        have h1 := resultant_step u.toPoly v.toPoly w.toPoly pr.quotient.toPoly
          (v.toPoly.leadingCoeff ^ (u.toPoly.natDegree + 1 - v.toPoly.natDegree)) β
          hw' hle hq hid
        rw [← hxr] at h1
        cases x with
        | none =>
          refine ⟨none, rfl, ?_, by simp⟩
          simp only [Option.getD_none, mul_zero] at h1 ⊢
          rcases mul_eq_zero.mp h1 with h | h
          · exact absurd h (pow_ne_zero _ (pow_ne_zero _ hl))
          · exact h.symm
        | some x =>
          simp only [Option.getD_some] at h1
          simp only [coeffPow_eq, signFlip]
          set m := u.toPoly.natDegree
          set n := v.toPoly.natDegree
          set s := w.toPoly.natDegree
          set l := v.toPoly.leadingCoeff
          have hk : m ≤ n * (m + 1 - n) + s := by
            obtain ⟨δ, hδ⟩ : ∃ δ, m = n + δ := ⟨m - n, by omega⟩
            rw [hδ, show n + δ + 1 - n = δ + 1 by omega, mul_add, mul_one]
            have : δ ≤ n * δ := Nat.le_mul_of_pos_left δ (by omega)
            omega
          rw [if_neg (by omega)]
          have hval : (-1) ^ (m * n) * β ^ n * x =
              Polynomial.resultant u.toPoly v.toPoly * l ^ (n * (m + 1 - n) + s - m) := by
            apply mul_left_cancel₀ (pow_ne_zero (m - s) hl)
            have e4 : l ^ (m - s) * (Polynomial.resultant u.toPoly v.toPoly *
                l ^ (n * (m + 1 - n) + s - m)) =
                (l ^ (m + 1 - n)) ^ n * Polynomial.resultant u.toPoly v.toPoly := by
              obtain ⟨k, hk'⟩ : ∃ k, n * (m + 1 - n) + s - m = k := ⟨_, rfl⟩
              rw [← pow_mul, mul_comm (m + 1 - n) n, hk',
                show n * (m + 1 - n) = (m - s) + k by omega, pow_add]
              ring
            rw [e4, h1]; ring
          rw [hval, LawfulExactDiv.exactDiv_complete _ _ (pow_ne_zero _ hl)]
          refine ⟨_, rfl, rfl, ?_⟩
          intro y hy
          cases hy
          intro h0
          rw [h0, zero_mul] at hval
          have hne : (-1 : T) ^ (m * n) * β ^ n * x ≠ 0 :=
            mul_ne_zero (mul_ne_zero (pow_ne_zero _ (by simp)) (pow_ne_zero _ hβ0)) (hx0 x rfl)
          exact hne hval

theorem nonzeroResultant_spec (u v : Poly T) (hu : u.toPoly ≠ 0) (hv : v.toPoly ≠ 0) :
    ∃ x, nonzeroResultant u v = some x ∧
      x.getD 0 = Polynomial.resultant u.toPoly v.toPoly ∧ (∀ y, x = some y → y ≠ 0) := by
  unfold nonzeroResultant
  rw [if_neg (by simp only [Bool.or_eq_true, isZero_iff]; tauto)]
  have hul := len_of_ne u hu
  have hvl := len_of_ne v hv
  by_cases hle : v.toPoly.natDegree ≤ u.toPoly.natDegree
  · exact resultantLoop_spec _ u v 1 0 0 hu hv hle (resOk_first _ _ _ _) one_ne_zero (by omega)
  · obtain ⟨x, hx, hxr, hx0⟩ := resultantLoop_spec (u.len + v.len + 1) v u 1 0 0 hv hu (by omega)
      (resOk_first _ _ _ _) one_ne_zero (by omega)
    rw [show u.len + v.len + 2 = (u.len + v.len + 1) + 1 from rfl]
    unfold resultantLoop
    rw [degree_eq, degree_eq, if_neg hu, if_neg hv]
    simp only
    rw [if_pos (by omega), hx]
    have hc := Polynomial.resultant_comm u.toPoly v.toPoly u.toPoly.natDegree v.toPoly.natDegree
    rw [← hxr] at hc
    cases x with
    | none => exact ⟨none, rfl, by rw [hc]; simp, by simp⟩
    | some x =>
      have h1 := signFlip u.toPoly.natDegree v.toPoly.natDegree x
      simp only
      refine ⟨some ((-1) ^ (u.toPoly.natDegree * v.toPoly.natDegree) * x), ?_, ?_, ?_⟩
      · rw [← h1]; split_ifs <;> rfl
      · rw [hc]; rfl
      · intro y hy
        cases hy
        exact mul_ne_zero (pow_ne_zero _ (by simp)) (hx0 x rfl)

/-! ### gcd, lcm and extended gcd over a field -/

section Field
variable {K : Type} [Field K] [PolyCoeff K] [DecidableEq K] [ExactDivCoeff K] [LawfulExactDiv K]

theorem toReduced_spec (p : Poly K) :
    ∃ r, p.toReduced = some r ∧ (p.toPoly = 0 → r.toPoly = 0) ∧ (p.toPoly ≠ 0 → r.toPoly.Monic) ∧
      Associated p.toPoly r.toPoly := by
  unfold toReduced nonzeroReducingFactor
  rw [nonzeroHighest_eq]
  by_cases h : p.toPoly = 0
  · rw [if_pos h]; exact ⟨p, rfl, fun _ => h, fun h' => absurd h h', Associated.refl _⟩
  · rw [if_neg h]
    have hl : p.toPoly.leadingCoeff ≠ 0 := leadingCoeff_ne_zero.mpr h
    obtain ⟨r, hr, hr'⟩ := divCoeff_field p _ hl
    refine ⟨r, hr, fun h' => absurd h' h, fun _ => ?_, ?_⟩
    · rw [hr']; exact monic_mul_leadingCoeff_inv h
    · rw [hr']
      have : IsUnit (C p.toPoly.leadingCoeff⁻¹ : K[X]) := isUnit_C.mpr (inv_ne_zero hl).isUnit
      obtain ⟨u, hu⟩ := this
      exact ⟨u, by rw [hu]⟩

theorem gcd_spec (l r : Poly K) :
    ∃ g, gcd l r = some g ∧ (∀ d : K[X], d ∣ g.toPoly ↔ d ∣ l.toPoly ∧ d ∣ r.toPoly) ∧
      (g.toPoly = 0 ∨ g.toPoly.Monic) := by
  unfold gcd
  obtain ⟨l', h1, -, -, h2⟩ := toReduced_spec l
  obtain ⟨r', h3, -, -, h4⟩ := toReduced_spec r
  obtain ⟨f, h5, h6⟩ := subresultantGcd_spec l' r'
  obtain ⟨g, h7, h8, h9, h10⟩ := toReduced_spec f
  rw [h1, h3]
  simp only
  rw [h5]
  refine ⟨g, h7, ?_, ?_⟩
  · intro d
    have := h6 K (RingHom.id K) (fun a b h => h) d
    simp only [Polynomial.map_id] at this
    rw [← h10.dvd_iff_dvd_right, ← this, h2.dvd_iff_dvd_right, h4.dvd_iff_dvd_right]
  · by_cases h : f.toPoly = 0
    · exact Or.inl (h8 h)
    · exact Or.inr (h9 h)

theorem gcdLcm_spec (l r : Poly K) :
    ∃ g m, gcdLcmPoly l r = some (g, m) ∧ gcd l r = some g ∧
      (∀ d : K[X], m.toPoly ∣ d ↔ l.toPoly ∣ d ∧ r.toPoly ∣ d) ∧
      g.toPoly * m.toPoly = l.toPoly * r.toPoly := by
  obtain ⟨g, h1, h2, -⟩ := gcd_spec l r
  unfold gcdLcmPoly
  rw [h1]
  simp only
  unfold lcmOf
  by_cases hg : g.toPoly = 0
  · rw [if_pos ((isZero_iff g).mpr hg)]
    refine ⟨g, 0, rfl, rfl, ?_, ?_⟩
    · have h3 := (h2 0).mp (by rw [hg])
      intro d
      rw [toPoly_zero, zero_dvd_iff.mp h3.1, zero_dvd_iff.mp h3.2]; simp
    · rw [toPoly_zero, mul_zero]
      have h3 := (h2 0).mp (by rw [hg])
      rw [zero_dvd_iff.mp h3.1, zero_mul]
  · rw [if_neg (by rwa [isZero_iff])]
    obtain ⟨h3, h4⟩ := (h2 g.toPoly).mp dvd_rfl
    obtain ⟨k, hk⟩ := h4
    obtain ⟨k, rfl⟩ := (toPolyEquiv (T := K)).surjective k
    have hk : r.toPoly = g.toPoly * k.toPoly := hk
    have : r.exactDivPoly g = some k :=
      (exactDivPoly_eq_some_iff r g k).mpr ⟨hg, by rw [hk, mul_comm]⟩
    rw [this]
    refine ⟨g, l * k, rfl, rfl, ?_, ?_⟩
    · intro d
      rw [toPoly_mul]
      constructor
      · intro h
        refine ⟨(Dvd.intro _ rfl).trans h, ?_⟩
        obtain ⟨a, ha⟩ := h3
        refine Dvd.dvd.trans ?_ h
        rw [hk, ha]; exact ⟨a, by ring⟩
      · rintro ⟨⟨a, ha⟩, ⟨b, hb⟩⟩
        obtain ⟨l1, hl1⟩ := h3
        -- l1 and k are coprime
        have hcop : IsCoprime l1 k.toPoly := by
          rw [← EuclideanDomain.gcd_isUnit_iff]
          set e := EuclideanDomain.gcd l1 k.toPoly
          have h5 : g.toPoly * e ∣ g.toPoly := by
            rw [h2]
            rw [hl1, hk]
            exact ⟨mul_dvd_mul_left _ (EuclideanDomain.gcd_dvd_left _ _),
              mul_dvd_mul_left _ (EuclideanDomain.gcd_dvd_right _ _)⟩
          obtain ⟨c, hc⟩ := h5
          exact IsUnit.of_mul_eq_one c (mul_left_cancel₀ hg (by rw [← mul_assoc, ← hc, mul_one]))
        have h6 : g.toPoly * (l1 * a) = g.toPoly * (k.toPoly * b) := by
          rw [← mul_assoc, ← hl1, ← ha, ← mul_assoc, ← hk, ← hb]
        have h7 := mul_left_cancel₀ hg h6
        have h8 : k.toPoly ∣ a := hcop.symm.dvd_of_dvd_mul_left ⟨b, h7⟩
        obtain ⟨e, he⟩ := h8
        exact ⟨e, by rw [ha, he]; ring⟩
    · rw [toPoly_mul, hk]; ring

/-- the coefficients of a state express its value -/
def ExtInv (l r : K[X]) (s : ExtState K) : Prop :=
  s.v.toPoly = l * s.x.toPoly + r * s.y.toPoly ∧ (s.v.toPoly = 0 ∨ s.v.toPoly.Monic)

theorem divBy_spec (s : ExtState K) (c : K) (hc : c ≠ 0) :
    ∃ t, s.divBy c = some t ∧ t.v.toPoly = s.v.toPoly * C c⁻¹ ∧ t.x.toPoly = s.x.toPoly * C c⁻¹ ∧
      t.y.toPoly = s.y.toPoly * C c⁻¹ := by
  obtain ⟨v, h1, h2⟩ := divCoeff_field s.v c hc
  obtain ⟨x, h3, h4⟩ := divCoeff_field s.x c hc
  obtain ⟨y, h5, h6⟩ := divCoeff_field s.y c hc
  exact ⟨⟨v, x, y⟩, by unfold ExtState.divBy; rw [h1, h3, h5], h2, h4, h6⟩

theorem extGcdLoop_spec (L R : K[X]) (fuel : ℕ) : ∀ (l r : ExtState K),
    ExtInv L R l → ExtInv L R r → (∀ d : K[X], d ∣ l.v.toPoly ∧ d ∣ r.v.toPoly ↔ d ∣ L ∧ d ∣ R) →
    r.v.len < fuel →
    ∃ s, extGcdLoop fuel l r = some s ∧ ExtInv L R s ∧
      (∀ d : K[X], d ∣ s.v.toPoly ↔ d ∣ L ∧ d ∣ R) := by
  induction fuel with
  | zero => intro l r _ _ _ h; omega
  | succ fuel ih =>
    intro l r hl hr hd hf
    unfold extGcdLoop
    by_cases hz : r.v.toPoly = 0
    · rw [if_pos ((isZero_iff _).mpr hz)]
      refine ⟨l, rfl, hl, fun d => ?_⟩
      rw [← hd d, hz]; simp
    · rw [if_neg (by rwa [isZero_iff])]
      obtain ⟨q, rem, h1, -, -, h2, h3⟩ := divRem_field l.v r.v hz
      rw [h1]
      simp only
      have hstep : ∀ d : K[X], d ∣ r.v.toPoly ∧ d ∣ rem.toPoly ↔ d ∣ L ∧ d ∣ R := by
        intro d
        rw [← hd d, h2]
        constructor
        · rintro ⟨a, b⟩; exact ⟨dvd_add (a.mul_left _) b, a⟩
        · rintro ⟨a, b⟩; exact ⟨b, (dvd_add_right (b.mul_left _)).mp a⟩
      have hexp : rem.toPoly = L * (l.x - r.x * q).toPoly + R * (l.y - r.y * q).toPoly := by
        have e1 := hl.1
        have e2 := hr.1
        rw [toPoly_sub, toPoly_sub, toPoly_mul, toPoly_mul]
        have : rem.toPoly = l.v.toPoly - q.toPoly * r.v.toPoly := by rw [h2]; ring
        rw [this, e1, e2]; ring
      unfold nonzeroReducingFactor
      rw [nonzeroHighest_eq]
      by_cases hrem : rem.toPoly = 0
      · rw [if_pos hrem]
        refine ih r ⟨rem, l.x - r.x * q, l.y - r.y * q⟩ hr ⟨hexp, Or.inl hrem⟩ hstep ?_
        have : rem.len = 0 := (len_eq_zero_iff _).mpr hrem
        simp only [this]
        have := len_of_ne _ hz
        omega
      · rw [if_neg hrem]
        have hlc : rem.toPoly.leadingCoeff ≠ 0 := leadingCoeff_ne_zero.mpr hrem
        obtain ⟨t, h4, h5, h6, h7⟩ := divBy_spec ⟨rem, l.x - r.x * q, l.y - r.y * q⟩ _ hlc
        simp only at h4 h5 h6 h7
        simp only
        rw [h4]
        have hu : IsUnit (C rem.toPoly.leadingCoeff⁻¹ : K[X]) :=
          isUnit_C.mpr (inv_ne_zero hlc).isUnit
        have ht0 : t.v.toPoly ≠ 0 := by
          rw [h5]; exact mul_ne_zero hrem (by simpa using hrem)
        refine ih r t hr ⟨?_, Or.inr ?_⟩ ?_ ?_
        · rw [h5, h6, h7, hexp]; ring
        · rw [h5]; exact monic_mul_leadingCoeff_inv hrem
        · intro d
          rw [← hstep d, h5, hu.dvd_mul_right]
        · have e1 := len_of_ne _ hz
          have e2 := len_of_ne _ ht0
          have e3 : t.v.toPoly.natDegree = rem.toPoly.natDegree := by
            rw [h5, natDegree_mul_C (inv_ne_zero hlc)]
          have e4 := natDegree_lt_natDegree hrem h3
          omega

/-- degree bounds kept by the loop -/
def ExtDeg (L R : K[X]) (l r : ExtState K) : Prop :=
  l.x.toPoly.degree + r.v.toPoly.degree ≤ R.degree ∧
  r.x.toPoly.degree + l.v.toPoly.degree ≤ R.degree ∧
  l.y.toPoly.degree + r.v.toPoly.degree ≤ L.degree ∧
  r.y.toPoly.degree + l.v.toPoly.degree ≤ L.degree

theorem deg_step (xl xr q vl vr rem B : K[X]) (h : vl = q * vr + rem)
    (hd : rem.degree < vr.degree) (h1 : xl.degree + vr.degree ≤ B.degree)
    (h2 : xr.degree + vl.degree ≤ B.degree) :
    (xl - xr * q).degree + vr.degree ≤ B.degree ∧ xr.degree + rem.degree ≤ B.degree := by
  by_cases hq : q = 0
  · have : vl = rem := by rw [h, hq]; ring
    rw [hq]
    simp only [mul_zero, sub_zero]
    exact ⟨h1, by rw [← this]; exact h2⟩
  · have hdeg : vl.degree = q.degree + vr.degree := by
      rw [h, degree_add_eq_left_of_degree_lt, degree_mul]
      rw [degree_mul]
      refine hd.trans_le ?_
      have : (0 : WithBot ℕ) ≤ q.degree := zero_le_degree_iff.mpr hq
      calc vr.degree = 0 + vr.degree := (zero_add _).symm
        _ ≤ _ := by gcongr
    constructor
    · have h3 : (xl - xr * q).degree ≤ max xl.degree (xr * q).degree := degree_sub_le _ _
      have h4 : (xr * q).degree + vr.degree ≤ B.degree := by
        rw [degree_mul, add_assoc, ← hdeg]; exact h2
      calc (xl - xr * q).degree + vr.degree ≤ max xl.degree (xr * q).degree + vr.degree := by
            gcongr
        _ ≤ B.degree := by
            rcases max_choice xl.degree (xr * q).degree with h | h <;> rw [h]
            · exact h1
            · exact h4
    · have : rem.degree ≤ vl.degree := by
        rw [hdeg]
        refine hd.le.trans ?_
        have : (0 : WithBot ℕ) ≤ q.degree := zero_le_degree_iff.mpr hq
        calc vr.degree = 0 + vr.degree := (zero_add _).symm
          _ ≤ _ := by gcongr
      exact le_trans (by gcongr) h2

theorem extGcdLoop_deg (L R : K[X]) (fuel : ℕ) : ∀ (l r s : ExtState K),
    ExtDeg L R l r → r.v.toPoly ≠ 0 → l.v.toPoly ≠ 0 → extGcdLoop fuel l r = some s →
      s.x.toPoly.degree + s.v.toPoly.degree ≤ R.degree ∧
      s.y.toPoly.degree + s.v.toPoly.degree ≤ L.degree := by
  induction fuel with
  | zero => intro l r s _ _ _ h; cases h
  | succ fuel ih =>
    intro l r s hd hz hlz h
    unfold extGcdLoop at h
    rw [if_neg (by rwa [isZero_iff])] at h
    obtain ⟨q, rem, h1, -, -, h2, h3⟩ := divRem_field l.v r.v hz
    rw [h1] at h
    simp only at h
    obtain ⟨d1, d2, d3, d4⟩ := hd
    obtain ⟨a1, a2⟩ := deg_step _ _ q.toPoly _ _ rem.toPoly R h2 h3 d1 d2
    obtain ⟨a3, a4⟩ := deg_step _ _ q.toPoly _ _ rem.toPoly L h2 h3 d3 d4
    unfold nonzeroReducingFactor at h
    rw [nonzeroHighest_eq] at h
    by_cases hrem : rem.toPoly = 0
    · rw [if_pos hrem] at h
      simp only at h
      cases fuel with
      | zero => cases h
      | succ fuel =>
        unfold extGcdLoop at h
        rw [if_pos ((isZero_iff _).mpr hrem)] at h
        cases h
        have hle : r.v.toPoly.degree ≤ l.v.toPoly.degree := by
          refine degree_le_of_dvd ?_ hlz
          rw [h2, hrem, add_zero]; exact Dvd.intro_left _ rfl
        exact ⟨le_trans (by gcongr) d2, le_trans (by gcongr) d4⟩
    · rw [if_neg hrem] at h
      simp only at h
      have hlc : rem.toPoly.leadingCoeff ≠ 0 := leadingCoeff_ne_zero.mpr hrem
      obtain ⟨t, h4, h5, h6, h7⟩ := divBy_spec ⟨rem, l.x - r.x * q, l.y - r.y * q⟩ _ hlc
      simp only at h5 h6 h7
      rw [h4] at h
      have hi := inv_ne_zero hlc
      refine ih r t s ⟨?_, ?_, ?_, ?_⟩ ?_ hz h
      · rw [h5, degree_mul_C hi]; exact a2
      · rw [h6, degree_mul_C hi, toPoly_sub, toPoly_mul]; exact a1
      · rw [h5, degree_mul_C hi]; exact a4
      · rw [h7, degree_mul_C hi, toPoly_sub, toPoly_mul]; exact a3
      · rw [h5]; exact mul_ne_zero hrem (by simpa using hrem)

theorem extGcdLoop_strict (L R : K[X]) (hL : L ≠ 0) (hR : R ≠ 0) (fuel : ℕ) : ∀ (l r s : ExtState K),
    ExtDeg L R l r → r.v.toPoly ≠ 0 →
    (r.v.toPoly ∣ l.v.toPoly → r.v.toPoly.degree < l.v.toPoly.degree) →
    extGcdLoop fuel l r = some s →
      s.x.toPoly.degree + s.v.toPoly.degree < R.degree ∧
      s.y.toPoly.degree + s.v.toPoly.degree < L.degree := by
  induction fuel with
  | zero => intro l r s _ _ _ h; cases h
  | succ fuel ih =>
    intro l r s hd hz hlr h
    unfold extGcdLoop at h
    rw [if_neg (by rwa [isZero_iff])] at h
    obtain ⟨q, rem, h1, -, -, h2, h3⟩ := divRem_field l.v r.v hz
    rw [h1] at h
    simp only at h
    obtain ⟨d1, d2, d3, d4⟩ := hd
    obtain ⟨a1, a2⟩ := deg_step _ _ q.toPoly _ _ rem.toPoly R h2 h3 d1 d2
    obtain ⟨a3, a4⟩ := deg_step _ _ q.toPoly _ _ rem.toPoly L h2 h3 d3 d4
    unfold nonzeroReducingFactor at h
    rw [nonzeroHighest_eq] at h
    by_cases hrem : rem.toPoly = 0
    · rw [if_pos hrem] at h
      simp only at h
      cases fuel with
      | zero => cases h
      | succ fuel =>
        unfold extGcdLoop at h
        rw [if_pos ((isZero_iff _).mpr hrem)] at h
        cases h
        have hlt := hlr (by rw [h2, hrem, add_zero]; exact Dvd.intro_left _ rfl)
        have key : ∀ (x B : K[X]), B ≠ 0 → x.degree + l.v.toPoly.degree ≤ B.degree →
            x.degree + r.v.toPoly.degree < B.degree := by
          intro x B hB hx
          by_cases hx0 : x = 0
          · rw [hx0, degree_zero, WithBot.bot_add]
            exact bot_lt_iff_ne_bot.mpr (by rwa [Ne, degree_eq_bot])
          · refine lt_of_lt_of_le ?_ hx
            exact WithBot.add_lt_add_left (by rwa [Ne, degree_eq_bot]) hlt
        exact ⟨key _ _ hR d2, key _ _ hL d4⟩
    · rw [if_neg hrem] at h
      simp only at h
      have hlc : rem.toPoly.leadingCoeff ≠ 0 := leadingCoeff_ne_zero.mpr hrem
      obtain ⟨t, h4, h5, h6, h7⟩ := divBy_spec ⟨rem, l.x - r.x * q, l.y - r.y * q⟩ _ hlc
      simp only at h5 h6 h7
      rw [h4] at h
      have hi := inv_ne_zero hlc
      refine ih r t s ⟨?_, ?_, ?_, ?_⟩ ?_ ?_ h
      · rw [h5, degree_mul_C hi]; exact a2
      · rw [h6, degree_mul_C hi, toPoly_sub, toPoly_mul]; exact a1
      · rw [h5, degree_mul_C hi]; exact a4
      · rw [h7, degree_mul_C hi, toPoly_sub, toPoly_mul]; exact a3
      · rw [h5]; exact mul_ne_zero hrem (by simpa using hrem)
      · intro _; rw [h5, degree_mul_C hi]; exact h3

theorem extendedGcd_spec (l r : Poly K) :
    ∃ s, extendedGcd l r = some s ∧
      s.v.toPoly = l.toPoly * s.x.toPoly + r.toPoly * s.y.toPoly ∧
      (s.v.toPoly = 0 ∨ s.v.toPoly.Monic) ∧
      (∀ d : K[X], d ∣ s.v.toPoly ↔ d ∣ l.toPoly ∧ d ∣ r.toPoly) ∧
      (l.toPoly ≠ 0 → r.toPoly ≠ 0 →
        s.x.toPoly.degree + s.v.toPoly.degree ≤ r.toPoly.degree ∧
        s.y.toPoly.degree + s.v.toPoly.degree ≤ l.toPoly.degree) ∧
      (l.toPoly ≠ 0 → r.toPoly ≠ 0 → ¬ Associated l.toPoly r.toPoly →
        s.x.toPoly.degree + s.v.toPoly.degree < r.toPoly.degree ∧
        s.y.toPoly.degree + s.v.toPoly.degree < l.toPoly.degree) := by
  unfold extendedGcd nonzeroReducingFactor
  rw [nonzeroHighest_eq, nonzeroHighest_eq]
  have key : ∀ p : Poly K, p.toPoly ≠ 0 → ∃ v x, p.divCoeff p.toPoly.leadingCoeff = some v ∧
      p.toOneIfNonzero = some 1 ∧ (1 : Poly K).divCoeff p.toPoly.leadingCoeff = some x ∧
      v.toPoly = p.toPoly * x.toPoly ∧ v.toPoly.Monic ∧ ∀ d, d ∣ v.toPoly ↔ d ∣ p.toPoly := by
    intro p hp
    have hlc : p.toPoly.leadingCoeff ≠ 0 := leadingCoeff_ne_zero.mpr hp
    obtain ⟨v, h1, h2⟩ := divCoeff_field p _ hlc
    obtain ⟨x, h3, h4⟩ := divCoeff_field (1 : Poly K) _ hlc
    have hu : IsUnit (C p.toPoly.leadingCoeff⁻¹ : K[X]) := isUnit_C.mpr (inv_ne_zero hlc).isUnit
    refine ⟨v, x, h1, by rw [toOneIfNonzero_eq, if_neg hp], h3, ?_, ?_, ?_⟩
    · rw [h2, h4, toPoly_one, one_mul]
    · rw [h2]; exact monic_mul_leadingCoeff_inv hp
    · intro d; rw [h2, hu.dvd_mul_right]
  by_cases hl : l.toPoly = 0
  · rw [if_pos hl]
    simp only
    by_cases hr : r.toPoly = 0
    · rw [if_pos hr]
      refine ⟨_, rfl, ?_, ?_, ?_⟩
      · simp [hl, hr, toPoly_zero]
      · exact Or.inl toPoly_zero
      · exact ⟨fun d => by simp [hl, hr, toPoly_zero], fun h => absurd hl h, fun h => absurd hl h⟩
    · rw [if_neg hr]
      obtain ⟨v, x, h1, h2, h3, h4, h5, h6⟩ := key r hr
      simp only
      rw [h1, h2]
      simp only
      rw [h3]
      refine ⟨_, rfl, ?_, Or.inr h5, ?_⟩
      · simp [hl, toPoly_zero, h4]
      · exact ⟨fun d => by simp [hl, h6 d], fun h => absurd hl h, fun h => absurd hl h⟩
  · rw [if_neg hl]
    obtain ⟨v, x, h1, h2, h3, h4, h5, h6⟩ := key l hl
    simp only
    rw [h1, h2]
    simp only
    rw [h3]
    simp only
    by_cases hr : r.toPoly = 0
    · rw [if_pos hr]
      refine ⟨_, rfl, ?_, Or.inr h5, ?_⟩
      · simp [hr, toPoly_zero, h4]
      · exact ⟨fun d => by simp [hr, h6 d], fun _ h => absurd hr h, fun _ h => absurd hr h⟩
    · rw [if_neg hr]
      obtain ⟨v', x', h1', h2', h3', h4', h5', h6'⟩ := key r hr
      simp only
      rw [h1', h2']
      simp only
      rw [h3']
      simp only
      have hlen : v'.len = r.len := by
        have hv' : v'.toPoly ≠ 0 := h5'.ne_zero
        rw [len_of_ne _ hv', len_of_ne _ hr]
        have e1 := divCoeff_sound _ _ _ h1'
        rw [← e1, natDegree_mul_C (leadingCoeff_ne_zero.mpr hr)]
      obtain ⟨s, hs, hs', hs''⟩ := extGcdLoop_spec l.toPoly r.toPoly (r.len + 2) ⟨v, x, 0⟩ ⟨v', 0, x'⟩
        ⟨by simp [toPoly_zero, h4], Or.inr h5⟩ ⟨by simp [toPoly_zero, h4'], Or.inr h5'⟩
        (fun d => by simp only [h6 d, h6' d]) (by simp only; omega)
      refine ⟨s, hs, hs'.1, hs'.2, hs'', ?_⟩
      have hdl : v.toPoly.degree = l.toPoly.degree := by
        rw [← divCoeff_sound _ _ _ h1, degree_mul_C (leadingCoeff_ne_zero.mpr hl)]
      have hdr : v'.toPoly.degree = r.toPoly.degree := by
        rw [← divCoeff_sound _ _ _ h1', degree_mul_C (leadingCoeff_ne_zero.mpr hr)]
      have hx : ∀ (y : Poly K) (c : K), c ≠ 0 → (1 : Poly K).divCoeff c = some y →
          y.toPoly.degree = 0 := by
        intro y c hc h
        have := divCoeff_sound _ _ _ h
        rw [← degree_mul_C hc, this, toPoly_one, degree_one]
      have hx1 := hx x _ (leadingCoeff_ne_zero.mpr hl) h3
      have hx2 := hx x' _ (leadingCoeff_ne_zero.mpr hr) h3'
      have hinit : ExtDeg l.toPoly r.toPoly ⟨v, x, 0⟩ ⟨v', 0, x'⟩ := by
        refine ⟨?_, ?_, ?_, ?_⟩
        · simp only [hx1, hdr, zero_add, le_refl]
        · simp [toPoly_zero]
        · simp [toPoly_zero]
        · simp only [hx2, hdl, zero_add, le_refl]
      refine ⟨fun _ _ => extGcdLoop_deg l.toPoly r.toPoly (r.len + 2) ⟨v, x, 0⟩ ⟨v', 0, x'⟩ s
        hinit h5'.ne_zero h5.ne_zero hs, fun _ _ hass => ?_⟩
      refine extGcdLoop_strict l.toPoly r.toPoly hl hr (r.len + 2) ⟨v, x, 0⟩ ⟨v', 0, x'⟩ s
        hinit h5'.ne_zero ?_ hs
      intro hdvd
      refine lt_of_le_of_ne (degree_le_of_dvd hdvd h5.ne_zero) fun heq => hass ?_
      simp only at hdvd heq
      obtain ⟨c, hc⟩ := hdvd
      have hc0 : c ≠ 0 := by rintro rfl; rw [mul_zero] at hc; exact h5.ne_zero hc
      have hcd : c.natDegree = 0 := by
        have e := natDegree_mul h5'.ne_zero hc0
        rw [← hc] at e
        have := natDegree_eq_natDegree heq
        omega
      have hcm : c.Monic := h5'.of_mul_monic_left (by rw [← hc]; exact h5)
      have hc1 : c = 1 := hcm.natDegree_eq_zero.mp hcd
      rw [hc1, mul_one] at hc
      exact associated_of_dvd_dvd ((h6' _).mp (hc ▸ (h6 _).mpr dvd_rfl))
        ((h6 _).mp (hc.symm ▸ (h6' _).mpr dvd_rfl))

end Field

end Poly

end Algebraics
