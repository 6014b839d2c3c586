import Verif.Lemmas.ConstantCache

namespace Algebraics
namespace DFI

theorem convertFloor_down (c : Int) (n k : Nat) : convertLog2DenomFloor c (n + k) n = c / 2 ^ k := by
  unfold convertLog2DenomFloor
  by_cases hk : k = 0
  · subst hk; simp [shl]
  · rw [if_neg (by omega)]
    have : n + k - n = k := by omega
    rw [this]; rfl

theorem convertCeil_down (c : Int) (n k : Nat) : convertLog2DenomCeil c (n + k) n = -(-c / 2 ^ k) := by
  unfold convertLog2DenomCeil
  by_cases hk : k = 0
  · subst hk; simp [shl]
  · rw [if_neg (by omega)]
    have : n + k - n = k := by omega
    rw [this]; rfl

theorem floor_scaled (x : ℝ) (n k : Nat) : ⌊x * 2 ^ (n + k)⌋ / 2 ^ k = ⌊x * 2 ^ n⌋ := by
  have hp : (0:ℝ) < 2 ^ k := by positivity
  have hz : (0:Int) < 2 ^ k := by positivity
  apply le_antisymm
  · rw [Int.le_floor]
    have h1 : (⌊x * 2 ^ (n + k)⌋ / 2 ^ k) * 2 ^ k ≤ ⌊x * 2 ^ (n + k)⌋ := Int.ediv_mul_le _ hz.ne'
    have h2 := Int.floor_le (x * 2 ^ (n + k))
    have h3 : ((⌊x * 2 ^ (n + k)⌋ / 2 ^ k : Int) : ℝ) * 2 ^ k ≤ x * 2 ^ (n + k) := by
      refine le_trans ?_ h2; exact_mod_cast h1
    rw [pow_add, ← mul_assoc] at h3
    rw [pow_add, ← mul_assoc]
    exact le_of_mul_le_mul_right h3 hp
  · rw [Int.le_ediv_iff_mul_le hz, Int.le_floor]
    push_cast
    rw [pow_add, ← mul_assoc]
    exact mul_le_mul_of_nonneg_right (Int.floor_le _) hp.le

theorem ceil_scaled (x : ℝ) (n k : Nat) : -(-⌈x * 2 ^ (n + k)⌉ / 2 ^ k) = ⌈x * 2 ^ n⌉ := by
  have h := floor_scaled (-x) n k
  rw [neg_mul, neg_mul, Int.floor_neg, Int.floor_neg] at h
  omega

/-- the tightest interval around `x` at the precision of `e`. -/
def Tightest (x : ℝ) (e : DFI) : Prop :=
  e.lo = ⌊x * 2 ^ e.log2Denom⌋ ∧ e.hi = ⌈x * 2 ^ e.log2Denom⌉

theorem Tightest.convert {x : ℝ} {e : DFI} (h : Tightest x e) (n : Nat) (hn : n ≤ e.log2Denom) :
    Tightest x (e.convertLog2Denom n) := by
  obtain ⟨k, hk⟩ := Nat.exists_eq_add_of_le hn
  unfold Tightest convertLog2Denom
  simp only
  rw [h.1, h.2, hk, convertFloor_down, convertCeil_down, floor_scaled, ceil_scaled]
  exact ⟨rfl, rfl⟩

/-- within one unit of the tightest interval. -/
def Near (x : ℝ) (e : DFI) : Prop :=
  ⌊x * 2 ^ e.log2Denom⌋ - 1 ≤ e.lo ∧ e.lo ≤ ⌊x * 2 ^ e.log2Denom⌋ ∧
  ⌈x * 2 ^ e.log2Denom⌉ ≤ e.hi ∧ e.hi ≤ ⌈x * 2 ^ e.log2Denom⌉ + 1

theorem ediv_sub_le (a s k : Int) (hk : 0 < k) (hs : s ≤ k) : a / k - 1 ≤ (a - s) / k := by
  rw [Int.le_ediv_iff_mul_le hk]
  have := Int.ediv_mul_le a hk.ne'
  nlinarith

theorem near_of_spread {x : ℝ} {e : DFI} {n k : Nat} (hk : e.log2Denom = n + k) (s : Int)
    (hs : s ≤ 2 ^ k)
    (h1 : ⌊x * 2 ^ e.log2Denom⌋ - s ≤ e.lo) (h2 : e.lo ≤ ⌊x * 2 ^ e.log2Denom⌋)
    (h3 : ⌈x * 2 ^ e.log2Denom⌉ ≤ e.hi) (h4 : e.hi ≤ ⌈x * 2 ^ e.log2Denom⌉ + s) :
    Near x (e.convertLog2Denom n) := by
  have hz : (0:Int) < 2 ^ k := by positivity
  unfold Near convertLog2Denom
  simp only
  rw [hk] at *
  rw [convertFloor_down, convertCeil_down, ← floor_scaled x n k, ← ceil_scaled x n k]
  have m1 := Int.ediv_le_ediv hz h1
  have m2 := Int.ediv_le_ediv hz h2
  have m3 := Int.ediv_le_ediv hz (neg_le_neg h3)
  have m4 := Int.ediv_le_ediv hz (neg_le_neg h4)
  have e1 := ediv_sub_le ⌊x * 2 ^ (n + k)⌋ s _ hz hs
  have e2 := ediv_sub_le (-⌈x * 2 ^ (n + k)⌉) s _ hz hs
  have e3 : -(⌈x * 2 ^ (n + k)⌉ + s) = -⌈x * 2 ^ (n + k)⌉ - s := by ring
  rw [e3] at m4
  refine ⟨?_, m2, ?_, ?_⟩ <;> omega

theorem Near.convert {x : ℝ} {e : DFI} (h : Near x e) (n : Nat) (hn : n ≤ e.log2Denom) :
    Near x (e.convertLog2Denom n) := by
  obtain ⟨k, hk⟩ := Nat.exists_eq_add_of_le hn
  refine near_of_spread hk 1 ?_ h.1 h.2.1 h.2.2.1 h.2.2.2
  have : (0:Int) < 2 ^ k := by positivity
  omega

theorem scaled_ends {x : ℝ} {e : DFI} (h : e.Contains x) :
    e.lo ≤ ⌊x * 2 ^ e.log2Denom⌋ ∧ ⌈x * 2 ^ e.log2Denom⌉ ≤ e.hi := by
  have hp : (0:ℝ) < 2 ^ e.log2Denom := by positivity
  obtain ⟨h1, h2⟩ := h
  rw [div_le_iff₀ hp] at h1
  rw [le_div_iff₀ hp] at h2
  exact ⟨Int.le_floor.mpr h1, Int.ceil_le.mpr h2⟩

theorem near_of_contains {x : ℝ} {e : DFI} {n k : Nat} (hk : e.log2Denom = n + k)
    (h : e.Contains x) (hu : e.ulps ≤ 2 ^ k) : Near x (e.convertLog2Denom n) := by
  obtain ⟨h1, h2⟩ := scaled_ends h
  have h3 := Int.floor_le_ceil (x * 2 ^ e.log2Denom)
  unfold ulps at hu
  exact near_of_spread hk e.ulps hu (by unfold ulps; omega) h1 h2 (by unfold ulps; omega)

theorem ln2_near (m i : Nat) (him : i ≤ m) :
    ∃ r, ln2Compute m = some r ∧ m ≤ r.log2Denom ∧ Near (Real.log 2) (r.convertLog2Denom i) := by
  obtain ⟨r, h1, h2, h3, h4⟩ := ln2Compute_spec m
  refine ⟨r, h1, by omega, ?_⟩
  have hk : r.log2Denom = i + (m - i + 10 + Nat.log 2 (m + 1)) := by omega
  refine near_of_contains hk h3 ?_
  set k := m - i + 10 + Nat.log 2 (m + 1) with hkdef
  have hlog : m + 1 < 2 ^ (Nat.log 2 (m + 1) + 1) := Nat.lt_pow_succ_log_self (by omega) _
  have hlog' : Nat.log 2 (m + 1) ≤ m := by
    have := Nat.log_lt_self 2 (x := m + 1) (by omega); omega
  have hpk : 2 ^ (Nat.log 2 (m + 1) + 1) * 2 ^ 9 ≤ 2 ^ k := by
    rw [← pow_add]; exact Nat.pow_le_pow_right (by omega) (by omega)
  have : m + 10 + Nat.log 2 (m + 1) ≤ 2 ^ k := by omega
  have : ((m + 10 + Nat.log 2 (m + 1) : Nat) : Int) ≤ ((2 ^ k : Nat) : Int) := by exact_mod_cast this
  push_cast at this
  omega

theorem sqrt2_tight (m : Nat) :
    ∃ r, sqrt2Compute m = some r ∧ r.log2Denom = m ∧ Tightest (Real.sqrt 2) r := by
  obtain ⟨r, h1, h2, h3⟩ := sqrt2Compute_spec m
  obtain ⟨g1, g2⟩ := scaled_ends h3
  have hu := sqrt2_ulps m r h1
  unfold ulps at hu
  refine ⟨r, h1, h2, ?_⟩
  have hirr : Irrational (Real.sqrt 2 * 2 ^ r.log2Denom) := by
    have := irrational_sqrt_two.mul_natCast (m := 2 ^ r.log2Denom) (by positivity)
    exact_mod_cast this
  have hlt : ⌊Real.sqrt 2 * 2 ^ r.log2Denom⌋ < ⌈Real.sqrt 2 * 2 ^ r.log2Denom⌉ := by
    by_contra hc
    push Not at hc
    have a1 := Int.floor_le (Real.sqrt 2 * 2 ^ r.log2Denom)
    have a2 := Int.le_ceil (Real.sqrt 2 * 2 ^ r.log2Denom)
    have a3 : ((⌈Real.sqrt 2 * 2 ^ r.log2Denom⌉ : Int) : ℝ) ≤ ⌊Real.sqrt 2 * 2 ^ r.log2Denom⌋ := by
      exact_mod_cast hc
    exact hirr ⟨(⌊Real.sqrt 2 * 2 ^ r.log2Denom⌋ : Int), by push_cast; linarith⟩
  constructor <;> omega

end DFI
end Algebraics
