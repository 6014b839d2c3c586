import Verif.Spec.IntervalExpr
import Verif.Props.Narrowest
import Verif.Props.AgmWidth
import Verif.Props.TightLimit

/-!
Lemmas for expressions of interval operations: what follows from a result being the narrowest one.
-/

namespace Algebraics
namespace DFI

/-- the operation returns the narrowest interval of the precision of the operand that holds the values of `f`. -/
def Unary (op : DFI → Option DFI) (f : ℝ → ℝ) : Prop :=
  ∀ a r, a.Ordered → op a = some r → r.log2Denom = a.log2Denom ∧ r.Narrowest {z | ∃ x, a.Contains x ∧ z = f x}

/-- the same for two operands. -/
def Binary (op : DFI → DFI → DFI) (f : ℝ → ℝ → ℝ) : Prop :=
  ∀ a b, a.Ordered → b.Ordered → (op a b).log2Denom = max a.log2Denom b.log2Denom ∧
    (op a b).Narrowest {z | ∃ x y, a.Contains x ∧ b.Contains y ∧ z = f x y}

/-- the same numbers with more digits. -/
theorem contains_shift (a : DFI) (n : ℕ) (x : ℝ) :
    (⟨a.lo * 2 ^ n, a.hi * 2 ^ n, a.log2Denom + n⟩ : DFI).Contains x ↔ a.Contains x := by
  unfold Contains
  push_cast
  have h : ∀ u : ℝ, u * 2 ^ n / 2 ^ (a.log2Denom + n) = u / 2 ^ a.log2Denom := by
    intro u; rw [pow_add]; field_simp
  rw [h, h]

theorem Narrowest.refines {r r' : DFI} {S S' : Set ℝ} (hr : r.Narrowest S) (hr' : r'.Narrowest S') (hs : S ⊆ S')
    (hd : r'.log2Denom ≤ r.log2Denom) : r.Refines r' := by
  refine ⟨fun x hx => ?_, hd⟩
  obtain ⟨n, hn⟩ := Nat.exists_eq_add_of_le hd
  rw [← contains_shift r' n]
  obtain ⟨h1, h2⟩ := hr.2 ⟨r'.lo * 2 ^ n, r'.hi * 2 ^ n, r'.log2Denom + n⟩ hn.symm
    (fun z hz => (contains_shift r' n z).mpr (hr'.1 z (hs hz)))
  simp only at h1 h2
  obtain ⟨x1, x2⟩ := hx
  have h1' : ((r'.lo * 2 ^ n : ℤ) : ℝ) ≤ r.lo := by exact_mod_cast h1
  have h2' : (r.hi : ℝ) ≤ ((r'.hi * 2 ^ n : ℤ) : ℝ) := by exact_mod_cast h2
  unfold Contains
  simp only
  rw [← hn]
  exact ⟨le_trans (by gcongr) x1, le_trans x2 (by gcongr)⟩

theorem Unary.refines {op : DFI → Option DFI} {f : ℝ → ℝ} (h : Unary op f) {a a' r r' : DFI} (ha : a.Ordered)
    (hh : a.Refines a') (hr : op a = some r) (hr' : op a' = some r') : r.Refines r' := by
  obtain ⟨d1, n1⟩ := h a r ha hr
  obtain ⟨d2, n2⟩ := h a' r' (hh.1 _ (contains_lower ha)).ordered hr'
  refine n1.refines n2 ?_ (by rw [d1, d2]; exact hh.2)
  rintro z ⟨x, hx, rfl⟩
  exact ⟨x, hh.1 x hx, rfl⟩

theorem Binary.refines {op : DFI → DFI → DFI} {f : ℝ → ℝ → ℝ} (h : Binary op f) {a a' b b' : DFI} (ha : a.Ordered)
    (hb : b.Ordered) (hh : a.Refines a') (kk : b.Refines b') : (op a b).Refines (op a' b') := by
  obtain ⟨d1, n1⟩ := h a b ha hb
  obtain ⟨d2, n2⟩ := h a' b' (hh.1 _ (contains_lower ha)).ordered (kk.1 _ (contains_lower hb)).ordered
  refine n1.refines n2 ?_ (by rw [d1, d2]; exact max_le_max hh.2 kk.2)
  rintro z ⟨x, y, hx, hy, rfl⟩
  exact ⟨x, y, hh.1 x hx, kk.1 y hy, rfl⟩

/-- `a` holds `x`, is narrower than `δ`, and has at least `D` digits. -/
def Around (x δ : ℝ) (D : ℕ) (a : DFI) : Prop := a.Contains x ∧ (a.width : ℝ) < δ ∧ D ≤ a.log2Denom

theorem width_ends (a : DFI) : (a.width : ℝ) = (a.hi - a.lo : ℝ) / 2 ^ a.log2Denom := by
  rw [width_real, lowerBound_real, upperBound_real, sub_div]

theorem Around.mono {x δ δ' : ℝ} {D D' : ℕ} {a : DFI} (h : Around x δ D a) (hδ : δ ≤ δ') (hD : D' ≤ D) :
    Around x δ' D' a := ⟨h.1, lt_of_lt_of_le h.2.1 hδ, hD.trans h.2.2⟩

/-- the members of a narrow interval are close to each other. -/
theorem Around.close {x y δ : ℝ} {D : ℕ} {a : DFI} (h : Around x δ D a) (hy : a.Contains y) : |y - x| < δ := by
  obtain ⟨⟨h1, h2⟩, h3, -⟩ := h
  obtain ⟨y1, y2⟩ := hy
  rw [width_ends, sub_div] at h3
  rw [abs_lt]; constructor <;> linarith

/-- the width of a narrowest interval. -/
theorem Narrowest.width_lt {r : DFI} {S : Set ℝ} (hr : r.Narrowest S) {z0 ε : ℝ}
    (hS : ∀ z ∈ S, |z - z0| < ε / 4) (hu : 1 / 2 ^ r.log2Denom < ε / 4) : (r.width : ℝ) < ε := by
  have hp : (0:ℝ) < 2 ^ r.log2Denom := by positivity
  obtain ⟨h1, h2⟩ := hr.2 ⟨⌊(z0 - ε / 4) * 2 ^ r.log2Denom⌋, ⌈(z0 + ε / 4) * 2 ^ r.log2Denom⌉, r.log2Denom⟩ rfl (by
    intro z hz
    have := abs_lt.mp (hS z hz)
    rw [contains_iff]
    exact ⟨(Int.floor_le _).trans (by gcongr; linarith), le_trans (by gcongr; linarith) (Int.le_ceil _)⟩)
  simp only at h1 h2
  have e1 := Int.lt_floor_add_one ((z0 - ε / 4) * 2 ^ r.log2Denom)
  have e2 := Int.ceil_lt_add_one ((z0 + ε / 4) * 2 ^ r.log2Denom)
  have h1' : ((⌊(z0 - ε / 4) * 2 ^ r.log2Denom⌋ : ℤ) : ℝ) ≤ r.lo := by exact_mod_cast h1
  have h2' : (r.hi : ℝ) ≤ ((⌈(z0 + ε / 4) * 2 ^ r.log2Denom⌉ : ℤ) : ℝ) := by exact_mod_cast h2
  rw [div_lt_iff₀ hp] at hu
  rw [width_ends, div_lt_iff₀ hp]
  linarith

theorem exists_unit_lt {ε : ℝ} (hε : 0 < ε) : ∃ D : ℕ, ∀ n ≥ D, (1:ℝ) / 2 ^ n < ε := by
  obtain ⟨D, hD⟩ := exists_pow_lt_of_lt_one hε (by norm_num : (1 / 2 : ℝ) < 1)
  refine ⟨D, fun n hn => lt_of_le_of_lt ?_ hD⟩
  rw [one_div_pow]
  gcongr
  norm_num

theorem Unary.around {op : DFI → Option DFI} {f : ℝ → ℝ} (h : Unary op f) {x : ℝ} (hf : ContinuousAt f x) {ε : ℝ}
    (hε : 0 < ε) (D : ℕ) : ∃ δ > 0, ∃ D', ∀ a r, Around x δ D' a → op a = some r → Around (f x) ε D r := by
  obtain ⟨δ, hδ, hc⟩ := Metric.continuousAt_iff.mp hf (ε / 4) (by positivity)
  obtain ⟨D', hD⟩ := exists_unit_lt (by positivity : 0 < ε / 4)
  refine ⟨δ, hδ, max D D', fun a r ha hr => ?_⟩
  obtain ⟨d, n⟩ := h a r ha.1.ordered hr
  refine ⟨n.1 _ ⟨x, ha.1, rfl⟩, n.width_lt (z0 := f x) ?_ ?_, ?_⟩
  · rintro z ⟨y, hy, rfl⟩
    exact hc (by rw [Real.dist_eq]; exact ha.close hy)
  · rw [d]; exact hD _ ((le_max_right _ _).trans ha.2.2)
  · rw [d]; exact (le_max_left _ _).trans ha.2.2

theorem Binary.around {op : DFI → DFI → DFI} {f : ℝ → ℝ → ℝ} (h : Binary op f) {x y : ℝ}
    (hf : ContinuousAt (fun p : ℝ × ℝ => f p.1 p.2) (x, y)) {ε : ℝ}
    (hε : 0 < ε) (D : ℕ) : ∃ δ > 0, ∃ D', ∀ a b, Around x δ D' a → Around y δ D' b → Around (f x y) ε D (op a b) := by
  obtain ⟨δ, hδ, hc⟩ := Metric.continuousAt_iff.mp hf (ε / 4) (by positivity)
  obtain ⟨D', hD⟩ := exists_unit_lt (by positivity : 0 < ε / 4)
  refine ⟨δ, hδ, max D D', fun a b ha hb => ?_⟩
  obtain ⟨d, n⟩ := h a b ha.1.ordered hb.1.ordered
  refine ⟨n.1 _ ⟨x, y, ha.1, hb.1, rfl⟩, n.width_lt (z0 := f x y) ?_ ?_, ?_⟩
  · rintro z ⟨x', y', hx, hy, rfl⟩
    refine hc (x := (x', y')) ?_
    rw [Prod.dist_eq, Real.dist_eq, Real.dist_eq]
    exact max_lt (ha.close hx) (hb.close hy)
  · rw [d]; exact hD _ (((le_max_right _ _).trans ha.2.2).trans (le_max_left _ _))
  · rw [d]; exact ((le_max_left _ _).trans ha.2.2).trans (le_max_left _ _)

/-! ## The operations -/

theorem unary_neg : Unary (fun a => some a.neg) (fun x => -x) := by
  rintro a r ha ⟨⟩; exact ⟨rfl, (C73_add_sub a a ha ha).2.2.1⟩
theorem unary_abs : Unary (fun a => some a.abs) (fun x => |x|) := by
  rintro a r ha ⟨⟩; exact ⟨(abs_spec a ha).1, (C73_abs_floor_ceil a ha 0).1⟩
theorem unary_square : Unary (fun a => some a.square) (fun x => x * x) := by
  rintro a r ha ⟨⟩; exact ⟨rfl, (C73_mul a a ha ha).2⟩
theorem unary_recip : Unary checkedRecip (fun x => x⁻¹) := by
  intro a r ha hr; exact ⟨((C04_recip a).2 r hr).1, (C73_recip_sqrt a ha).1 r hr⟩
theorem unary_sqrt : Unary sqrt (fun x => √x) := by
  intro a r ha hr; exact ⟨((C05_sqrt a ha).2 r hr).1, (C73_recip_sqrt a ha).2 r hr⟩
theorem unary_addInt (k : ℤ) : Unary (fun a => some (a.addInt k)) (fun x => x + k) := by
  rintro a r ha ⟨⟩; exact ⟨rfl, (C73_scalar a ha k 0).1⟩
theorem unary_subInt (k : ℤ) : Unary (fun a => some (a.subInt k)) (fun x => x - k) := by
  rintro a r ha ⟨⟩; exact ⟨rfl, (C73_scalar a ha k 0).2.1⟩
theorem unary_addRatio (q : ℚ) : Unary (fun a => some (a.addRatio q)) (fun x => x + q) := by
  rintro a r ha ⟨⟩
  exact ⟨(C02_scalar a _ (contains_lower ha) 0 q).2.2.2.2.2.2.1, (C73_scalar a ha 0 q).2.2.1⟩
theorem unary_subRatio (q : ℚ) : Unary (fun a => some (a.subRatio q)) (fun x => x - q) := by
  rintro a r ha ⟨⟩
  exact ⟨(C02_scalar a _ (contains_lower ha) 0 q).2.2.2.2.2.2.2, (C73_scalar a ha 0 q).2.2.2.1⟩
theorem unary_mulInt (k : ℤ) : Unary (fun a => some (a.mulInt k)) (fun x => x * k) := by
  rintro a r ha ⟨⟩; exact ⟨rfl, (C73_scalar a ha k 0).2.2.2.2.1⟩
theorem unary_mulRatio (q : ℚ) : Unary (fun a => some (a.mulRatio q)) (fun x => x * q) := by
  rintro a r ha ⟨⟩; exact ⟨rfl, (C73_scalar a ha 0 q).2.2.2.2.2.1⟩
theorem unary_divInt (k : ℤ) : Unary (fun a => a.divInt k) (fun x => x / k) := by
  intro a r ha hr; exact ⟨divInt_log2Denom hr, (C73_scalar a ha k 0).2.2.2.2.2.2.1 r hr⟩
theorem unary_divRatio (q : ℚ) : Unary (fun a => a.divRatio q) (fun x => x / q) := by
  intro a r ha hr
  refine ⟨?_, (C73_scalar a ha 0 q).2.2.2.2.2.2.2 r hr⟩
  unfold divRatio at hr
  split at hr
  · cases hr
  · cases hr; rfl
theorem binary_add : Binary add (fun x y => x + y) := fun a b ha hb => ⟨(C02_add a b).1, (C73_add_sub a b ha hb).1⟩
theorem binary_sub : Binary sub (fun x y => x - y) := fun a b ha hb => ⟨(C02_sub a b).1, (C73_add_sub a b ha hb).2.1⟩
theorem binary_mul : Binary mul (fun x y => x * y) := fun a b ha hb => ⟨(C03_mul a b).1, (C73_mul a b ha hb).1⟩

end DFI
end Algebraics
