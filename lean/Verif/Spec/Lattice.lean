import Mathlib.LinearAlgebra.Span.Basic
import Mathlib.Data.Matrix.Mul
import Mathlib.LinearAlgebra.LinearIndependent.Defs

/-!
# Lattices and reduced bases

Specification side only. A list of `n` columns of length `m` is a function from column numbers to
columns; only the columns `0 .. n-1` matter. `a ⬝ᵥ b` is the scalar product.
-/

namespace Algebraics

namespace Lattice

variable {m : ℕ}

/-- the lattice generated by the first `n` columns. -/
def lattice (n : ℕ) (b : ℕ → Fin m → ℤ) : Submodule ℤ (Fin m → ℤ) :=
  Submodule.span ℤ (b '' {i | i < n})

/-- a column of integers as a column of rational numbers. -/
def real (a : Fin m → ℤ) : Fin m → ℚ := fun y => (a y : ℚ)

/-- `g` is the Gram-Schmidt orthogonalization of the first `n` columns `b`: the columns are orthogonal to
each other, and each differs from the column of `b` by a combination of the earlier ones. -/
structure IsGramSchmidt (n : ℕ) (b : ℕ → Fin m → ℤ) (g : ℕ → Fin m → ℚ) : Prop where
  orthogonal : ∀ i < n, ∀ j < i, g i ⬝ᵥ g j = 0
  triangular : ∀ i < n, real (b i) - g i ∈ Submodule.span ℚ (g '' {j | j < i})

/-- the columns are reduced with the constant `δ`: all coefficients of the orthogonalization are at most
one half (size-reduced), and the condition of Lovász holds for neighbours. -/
def Reduced (n : ℕ) (δ : ℚ) (b : ℕ → Fin m → ℤ) : Prop :=
  ∃ g, IsGramSchmidt n b g ∧
    (∀ i < n, ∀ j < i, |real (b i) ⬝ᵥ g j / (g j ⬝ᵥ g j)| ≤ 1 / 2) ∧
    ∀ k, k + 1 < n → (δ - (real (b (k + 1)) ⬝ᵥ g k / (g k ⬝ᵥ g k)) ^ 2) * (g k ⬝ᵥ g k) ≤
      g (k + 1) ⬝ᵥ g (k + 1)

/-- the first `n` columns are linearly independent. -/
def Independent (n : ℕ) (b : ℕ → Fin m → ℤ) : Prop := LinearIndependent ℤ fun i : Fin n => b i

end Lattice

end Algebraics
