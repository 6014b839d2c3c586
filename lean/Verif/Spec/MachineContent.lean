import Verif.Spec.MachinePoly

/-!
# Content and norms of a list of integer coefficients
-/

namespace Algebraics

namespace MachinePoly

/-- `v` is the content of the polynomial with the coefficients `p` and the leading coefficient `lc`: a greatest common
divisor of the coefficients, with the sign of `lc` -/
def IsContent (p : List ℤ) (lc v : ℤ) : Prop :=
  (∀ c ∈ p, v ∣ c) ∧ (∀ d, (∀ c ∈ p, d ∣ c) → d ∣ v) ∧ 0 < v * lc

/-- `v` is the largest absolute value of a coefficient -/
def IsMaxNorm (p : List ℤ) (v : ℤ) : Prop :=
  (∀ c ∈ p, |c| ≤ v) ∧ ((p = [] ∧ v = 0) ∨ ∃ c ∈ p, |c| = v)

end MachinePoly

end Algebraics
