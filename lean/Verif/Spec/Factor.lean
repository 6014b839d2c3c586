import Verif.Model.Factor
import Verif.Spec.Poly

/-!
# Specification vocabulary for factoring
-/

namespace Algebraics

open Polynomial

/-- A factor tree that is correct modulo `n`: every leaf has an invertible leading coefficient, and at
each inner node the recorded product is the product of the two subtrees, the recorded degree is its
degree, and the recorded cofactors combine the products of the two subtrees to one. -/
def FTree.Ok {n : ℕ} : FTree n → Prop
  | .leaf f => IsUnit f.toPoly.leadingCoeff
  | .node l r d p lb rb => l.Ok ∧ r.Ok ∧ p.toPoly = l.product.toPoly * r.product.toPoly ∧
      d = p.toPoly.natDegree ∧
      lb.toPoly * l.product.toPoly + rb.toPoly * r.product.toPoly = 1

/-- the product of the leaves of a factor tree -/
noncomputable def FTree.leafProduct {n : ℕ} (t : FTree n) : (ZMod n)[X] :=
  (t.leaves.map Poly.toPoly).prod

namespace Poly

/-- What is assumed of the standard library's heap: each `pop` delivers an entry of smallest degree,
any of them if there are several. The number `k` counts the calls. -/
def HeapOrder (choose : ℕ → List ℕ → ℕ) : Prop :=
  ∀ k (ds : List ℕ), ds ≠ [] → ∃ d, ds[choose k ds]? = some d ∧ ∀ e ∈ ds, d ≤ e

/-- A prime below `2^31` that is suitable for factoring `f`: it is odd, does not divide the leading
coefficient, and `f` is square-free modulo it. -/
def GoodPrime (f : Poly ℤ) (p : ℕ) : Prop :=
  p.Prime ∧ p ≠ 2 ∧ (p : ℤ) < 2 ^ 31 ∧ ¬ (p : ℤ) ∣ f.toPoly.leadingCoeff ∧
    Squarefree (f.toPoly.map (Int.castRingHom (ZMod p)))

/-- A polynomial of moderate size: degree `n` and coefficients of `h` bits with `n (5 n + h) < 2^29`, for example
degree 1000 and coefficients of 500000 bits. -/
def Moderate (f : Poly ℤ) : Prop :=
  ∃ h : ℕ, (∀ i, |f.toPoly.coeff i| < 2 ^ h) ∧
    f.toPoly.natDegree * (5 * f.toPoly.natDegree + h) < 2 ^ 29

/-- Two polynomials of moderate size: degrees `m`, `n` and coefficients of `g`, `h` bits with
`m n (9 m n + n g + m h + 1) < 2^29`, for example degrees 20 and 25 and coefficients of 10000 bits. -/
def ModeratePair (p q : Poly ℤ) : Prop :=
  ∃ g h : ℕ, (∀ i, |p.toPoly.coeff i| < 2 ^ g) ∧ (∀ i, |q.toPoly.coeff i| < 2 ^ h) ∧
    p.toPoly.natDegree * q.toPoly.natDegree *
      (9 * (p.toPoly.natDegree * q.toPoly.natDegree) + q.toPoly.natDegree * g +
        p.toPoly.natDegree * h + 1) < 2 ^ 29

/-- the product of polynomials with their powers -/
noncomputable def powerProduct (l : List (Poly ℤ × ℕ)) : ℤ[X] := (l.map fun e => e.1.toPoly ^ e.2).prod

end Poly

/-- Random numbers in which no finite pattern is avoided for ever: cut from any position into blocks of any
length, some block shows the pattern, modulo any number below `2^31`. -/
def Fair (rng : ℕ → ℕ) : Prop :=
  ∀ (pos n m : ℕ) (w : ℕ → ℕ), m < 2 ^ 31 → (∀ i < n, w i < m) → 0 < n →
    ∃ k, ∀ i < n, rng (pos + k * n + i) % m = w i

end Algebraics
