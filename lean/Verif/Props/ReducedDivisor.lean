import Verif.Model.ReducedDivisor
import Verif.Props.Poly

/-!
# `get_reduced_divisor` (C68)
-/

namespace Algebraics

open PolyCoeff

/-- C68: `get_reduced_divisor` and `reduce_divisor` give the same elements and divisor for rational
coefficients. The quotients are those of the arguments and nothing but units divides all elements and the
divisor. -/
theorem C68_reduced_divisor (es : List ℤ) (d : ℕ+) :
    ratGetReducedDivisor es d = PolyCoeff.reduce (T := ℚ) es d ∧
    (ratGetReducedDivisor es d).1.map (fun e : ℤ => (e : ℚ) / ((ratGetReducedDivisor es d).2 : ℕ)) =
      es.map (fun e : ℤ => (e : ℚ) / (d : ℕ)) ∧
    ∀ k : ℤ, k ∣ ((ratGetReducedDivisor es d).2 : ℕ) → (∀ e ∈ (ratGetReducedDivisor es d).1, k ∣ e) →
      IsUnit k := by
  have h0 : ratGetReducedDivisor es d = ratReduce es d := by
    cases es with
    | nil => rfl
    | cons a es => rw [ratReduce_eq]; rfl
  refine ⟨h0, ?_, ?_⟩
  · rw [h0]
    exact ratReduce_val es d
  · intro k h1 h2
    cases es with
    | nil =>
      rw [show ratGetReducedDivisor [] d = ([], 1) from rfl] at h1
      exact isUnit_of_dvd_one (by simpa using h1)
    | cons a es =>
      obtain ⟨h3, h4⟩ := ratElemsGcd_dvd (a :: es) d
      have hg := ratElemsGcd_pos (a :: es) d
      have hgr : ∀ (es : List ℤ) (g : ℕ) (m : ℤ), m ∣ g → (∀ e ∈ es, m ∣ e) →
          m ∣ ((es.foldl (fun g e => Int.gcd g e) g : ℕ) : ℤ) := by
        intro es
        induction es with
        | nil => intro g m h _; exact h
        | cons b es ih =>
          intro g m h hb
          exact ih _ m (Int.dvd_coe_gcd h (hb b (by simp))) fun e he => hb e (by simp [he])
      rw [h0, ratReduce_eq] at h1 h2
      set g := ratElemsGcd (a :: es) d with hgd
      obtain ⟨q, hq⟩ := h3
      have hq0 : 0 < q := by
        rcases Nat.eq_zero_or_pos q with h | h
        · rw [h, mul_zero] at hq
          exact absurd hq d.pos.ne'
        · exact h
      have hdq : (d : ℕ) / g = q := by rw [hq, Nat.mul_div_cancel_left _ hg]
      have h5 : k * g ∣ (d : ℕ) := by
        rw [hdq, toPNat'_coe_of_pos hq0] at h1
        rw [hq]
        push_cast
        rw [mul_comm]
        exact mul_dvd_mul_left _ h1
      have h6 : ∀ e ∈ a :: es, k * g ∣ e := by
        intro e he
        obtain ⟨c, hc⟩ := h4 e he
        have h7 := h2 (e.tdiv g) (List.mem_map_of_mem he)
        have hgz : (g : ℤ) ≠ 0 := by exact_mod_cast hg.ne'
        rw [hc, Int.mul_tdiv_cancel_left _ hgz] at h7
        rw [hc, mul_comm]
        exact mul_dvd_mul_left _ h7
      have h7 : k * g ∣ (g : ℤ) := by
        have := hgr es (Int.gcd a d) (k * g) (Int.dvd_coe_gcd (h6 a (by simp)) h5)
          fun e he => h6 e (by simp [he])
        exact this
      obtain ⟨c, hc⟩ := h7
      have hgz : (g : ℤ) ≠ 0 := by exact_mod_cast hg.ne'
      refine IsUnit.of_mul_eq_one c ?_
      apply mul_left_cancel₀ hgz
      linear_combination -hc

/-- C68: the same for coefficients that are their own elements. -/
theorem C68_reduced_divisor_self {R : Type} [CommRing R] [DecidableEq R] (es : List R) :
    selfGetReducedDivisor es () = (PolyCoeff.selfCoeff R).reduce es () ∧ (selfGetReducedDivisor es ()).1 = es :=
  ⟨rfl, rfl⟩

example : ratGetReducedDivisor [6, 0, -9] 12 = ([2, 0, -3], 4) := by decide +kernel
example : ratGetReducedDivisor [] 12 = ([], 1) := by decide +kernel

end Algebraics
