import Verif.Model.ModPoly
import Verif.Spec.Poly
import Mathlib.Data.ZMod.Basic

/-!
# What polynomials over modular integers should be
-/

namespace Algebraics

open Polynomial

namespace ModPoly

/-- a modular integer with modulus `m`: its value is one of `0, …, m - 1` -/
def ValidCoeff (m : ℕ) (c : ModInt) : Prop := c.modulus = m ∧ 0 ≤ c.value ∧ c.value < m

/-- a polynomial over the modular integers with modulus `m`: such coefficients, and the highest one is not zero -/
def Valid (m : ℕ) (p : List ModInt) : Prop :=
  (∀ c ∈ p, ValidCoeff m c) ∧ ∀ c, p.getLast? = some c → c.value ≠ 0

/-- the residue class a modular integer stands for -/
def residue (m : ℕ) (c : ModInt) : ZMod m := (c.value : ZMod m)

/-- the polynomial over the integers modulo `m` that a list of modular integers stands for -/
noncomputable def value (m : ℕ) (p : List ModInt) : (ZMod m)[X] := listPoly (p.map (residue m))

/-- the call returned a polynomial with modulus `m` that stands for `f` -/
def Returns (m : ℕ) (r : Option (List ModInt)) (f : (ZMod m)[X]) : Prop :=
  ∃ p, r = some p ∧ Valid m p ∧ value m p = f

end ModPoly

end Algebraics
