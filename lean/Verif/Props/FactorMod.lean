import Verif.Lemmas.FactorMod
import Verif.Lemmas.Yun

/-!
# Properties of factoring modulo a prime (C28, C29)
-/

namespace Algebraics

open Polynomial

/-- C28: for every prime `p` and every square-free polynomial over the integers modulo `p`,
`distinct_degree_factorization` terminates without a panic. It returns the leading coefficient followed
by monic polynomials `f₁, f₂, …`; the product of everything is the input, and an irreducible
polynomial that divides `f_d` has degree exactly `d`. -/
theorem C28_distinct_degree (p : ℕ) [Fact p.Prime] (f : Poly (ZMod p)) (hf : Squarefree f.toPoly) :
    ∃ l, f.ddf = some (Poly.ofCoeffs [f.toPoly.leadingCoeff] :: l) ∧
      C f.toPoly.leadingCoeff * (l.map Poly.toPoly).prod = f.toPoly ∧
      ∀ (d : ℕ) (h : d < l.length), (l[d]).toPoly.Monic ∧
        ∀ q, Irreducible q → q ∣ (l[d]).toPoly → q.natDegree = d + 1 := by
  obtain ⟨l, h1, h2, h3⟩ := Poly.ddf_spec f hf
  refine ⟨l, h1, h2, fun d h => ⟨(h3 d h).1, fun q hq hd => ?_⟩⟩
  rw [(h3 d h).2 q hq hd, add_comm]

/-- C28: conversely `f_d` collects every irreducible factor of degree `d`: an irreducible divisor of the
input divides exactly the entry of its degree. -/
theorem C28_distinct_degree_complete (p : ℕ) [Fact p.Prime] (f : Poly (ZMod p))
    (hf : Squarefree f.toPoly) :
    ∃ l, f.ddf = some (Poly.ofCoeffs [f.toPoly.leadingCoeff] :: l) ∧
      ∀ q, Irreducible q → q ∣ f.toPoly →
        ∃ h : q.natDegree - 1 < l.length, q ∣ (l[q.natDegree - 1]).toPoly := by
  obtain ⟨l, h1, h2, h3⟩ := Poly.ddf_spec f hf
  refine ⟨l, h1, fun q hq hd => ?_⟩
  have hlc : f.toPoly.leadingCoeff ≠ 0 := leadingCoeff_ne_zero.mpr hf.ne_zero
  rw [← h2, (isUnit_C.mpr (isUnit_iff_ne_zero.mpr hlc)).dvd_mul_left] at hd
  obtain ⟨g, hg, hqg⟩ := (Prime.dvd_prod_iff hq.prime).mp hd
  obtain ⟨g', hg', rfl⟩ := List.mem_map.mp hg
  obtain ⟨i, hi, rfl⟩ := List.getElem_of_mem hg'
  have := (h3 i hi).2 q hq hqg
  have e : q.natDegree - 1 = i := by omega
  subst e
  exact ⟨hi, hqg⟩

/-- C28: the zero polynomial is returned alone. -/
theorem C28_zero (n : ℕ) (f : Poly (ZMod n)) (hf : f.toPoly = 0) : f.ddf = some [0] := by
  unfold Poly.ddf
  rw [Poly.nonzeroHighest_eq, if_pos hf]

/-- `2x^4 - 2 = 2 (x-1) (x+1) (x^2+1)` modulo 7 -/
example : (Poly.ofCoeffs [5, 0, 0, 0, 2] : Poly (ZMod 7)).ddf =
    some [Poly.ofCoeffs [2], Poly.ofCoeffs [6, 0, 1], Poly.ofCoeffs [1, 0, 1]] := by decide +kernel

local instance factPrimeSeven : Fact (Nat.Prime 7) := ⟨by norm_num⟩

example : Squarefree (Poly.ofCoeffs [5, 0, 0, 0, 2] : Poly (ZMod 7)).toPoly := by
  obtain ⟨b, h1, h2⟩ := Poly.isSquareFree_spec (Poly.ofCoeffs [5, 0, 0, 0, 2] : Poly (ZMod 7))
    (by rw [← Poly.toPoly_zero]; exact fun h => absurd (Poly.toPoly_injective h) (by decide +kernel))
  have h3 : (Poly.ofCoeffs [5, 0, 0, 0, 2] : Poly (ZMod 7)).isSquareFree = some true := by
    decide +kernel
  rw [h3] at h1
  exact h2.mp (Option.some.inj h1).symm

/-- C29: let `p` be an odd prime and `f` monic, not constant, with all irreducible factors of degree
`d`. Whatever the random stream and wherever it is read from, `same_degree_factorization` never panics;
and when the loop stops, the output multiplies back to `f` and each entry is monic of degree exactly `d`
and irreducible. -/
theorem C29_same_degree (p : ℕ) [Fact p.Prime] (hp2 : p ≠ 2) (rng : ℕ → ℕ) (fuel d pos : ℕ)
    (hd : 0 < d) (f : Poly (ZMod p)) (hmonic : f.toPoly.Monic) (hdeg : f.toPoly.natDegree ≠ 0)
    (hf : ∀ q, Irreducible q → q ∣ f.toPoly → q.natDegree = d) :
    f.sdf rng fuel d pos = .error .fuel ∨
      ∃ l pos', f.sdf rng fuel d pos = .ok (l, pos') ∧ (l.map Poly.toPoly).prod = f.toPoly ∧
        ∀ g ∈ l, g.toPoly.Monic ∧ g.toPoly.natDegree = d ∧ Irreducible g.toPoly := by
  rcases Poly.sdf_spec hp2 rng fuel d pos hd f ⟨hmonic, hdeg, hf⟩ with h | ⟨l, pos', h1, h2, h3⟩
  · exact Or.inl h
  · exact Or.inr ⟨l, pos', h1, h3, fun g hg => ⟨(h2 g hg).1, (h2 g hg).2.2, (h2 g hg).2.1⟩⟩

/-- C29, without the assumption on the degrees of the irreducible factors: whenever the function
returns, for any monic input whatsoever, the output multiplies back and has the requested degree. -/
theorem C29_same_degree_any (p : ℕ) [Fact p.Prime] (hp2 : p ≠ 2) (rng : ℕ → ℕ) (fuel d pos : ℕ)
    (f : Poly (ZMod p)) (l : List (Poly (ZMod p))) (pos' : ℕ)
    (h : f.sdf rng fuel d pos = .ok (l, pos')) :
    (l.map Poly.toPoly).prod = f.toPoly ∧ ∀ g ∈ l, g.toPoly.natDegree = d :=
  Poly.sdf_any hp2 rng fuel d pos f l pos' h

/-- C29, together: the complete factorization modulo an odd prime of a square-free polynomial: no panic,
and whenever it stops, monic irreducible factors that multiply back. -/
theorem C29_modular_factors (p : ℕ) [Fact p.Prime] (hp2 : p ≠ 2) (rng : ℕ → ℕ) (fuel pos : ℕ)
    (f : Poly (ZMod p)) (hf : Squarefree f.toPoly) :
    f.modularFactors rng fuel pos = .error .fuel ∨
      ∃ r pos', f.modularFactors rng fuel pos =
          .ok ((if f.toPoly.leadingCoeff = 1 then [] else [Poly.ofCoeffs [f.toPoly.leadingCoeff]]) ++ r,
            pos') ∧
        (∀ g ∈ r, g.toPoly.Monic ∧ Irreducible g.toPoly) ∧
        C f.toPoly.leadingCoeff * (r.map Poly.toPoly).prod = f.toPoly :=
  Poly.modularFactors_spec hp2 rng fuel pos f hf

/-- `x^3 - x = x (x-1) (x+1)` modulo 5 with the stream 0, 1, 2, …; the factors come out after three
draws -/
example : ((Poly.ofCoeffs [0, -1, 0, 1] : Poly (ZMod 5)).sdf id 20 1 0).toOption.map
      (fun r => (r.1.map Poly.coeffs, r.2)) = some ([[0, 1], [4, 1], [1, 1]], 3) := by decide +kernel

/-- a stream of ones does not split `x^2 - 1` modulo 5: termination needs the randomness -/
example : (match (Poly.ofCoeffs [-1, 0, 1] : Poly (ZMod 5)).sdf (fun _ => 1) 100 1 0 with
    | .error e => some e | .ok _ => none) = some .fuel := by decide +kernel

end Algebraics
