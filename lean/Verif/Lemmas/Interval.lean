import Verif.Spec.Interval
import Mathlib.Tactic

namespace Algebraics

open Real

theorem shr_le (a : Int) (n : Nat) : ((shr a n : Int) : ℝ) * 2 ^ n ≤ a := by
  have : shr a n * 2 ^ n ≤ a := Int.ediv_mul_le a (by positivity)
  exact_mod_cast this

theorem lt_shr (a : Int) (n : Nat) : (a : ℝ) < ((shr a n : Int) + 1 : ℝ) * 2 ^ n := by
  have : a < (shr a n + 1) * 2 ^ n := Int.lt_ediv_add_one_mul_self a (by positivity)
  exact_mod_cast this

theorem le_shr_iff (a b : Int) (n : Nat) : b ≤ shr a n ↔ b * 2 ^ n ≤ a :=
  Int.le_ediv_iff_mul_le (by positivity)

theorem shr_mono {a b : Int} (h : a ≤ b) (n : Nat) : shr a n ≤ shr b n := by
  rw [le_shr_iff]; exact (Int.ediv_mul_le a (by positivity)).trans h

theorem le_neg_shr_neg (a : Int) (n : Nat) : (a : ℝ) ≤ ((-shr (-a) n : Int) : ℝ) * 2 ^ n := by
  have := shr_le (-a) n
  push_cast at this ⊢
  linarith

theorem neg_shr_neg_lt (a : Int) (n : Nat) : (((-shr (-a) n : Int) : ℝ) - 1) * 2 ^ n < a := by
  have := lt_shr (-a) n
  push_cast at this ⊢
  linarith

theorem shl_cast (a : Int) (n : Nat) : ((shl a n : Int) : ℝ) = a * 2 ^ n := by simp [shl]

namespace DFI

theorem contains_iff (a : DFI) (x : ℝ) :
    a.Contains x ↔ (a.lo : ℝ) ≤ x * 2 ^ a.log2Denom ∧ x * 2 ^ a.log2Denom ≤ a.hi := by
  unfold Contains
  rw [div_le_iff₀ (by positivity), le_div_iff₀ (by positivity)]

theorem Contains.ordered {a : DFI} {x : ℝ} (h : a.Contains x) : a.Ordered := by
  rw [contains_iff] at h
  have := h.1.trans h.2
  exact_mod_cast this

theorem contains_lower {a : DFI} (h : a.Ordered) : a.Contains ((a.lo : ℝ) / 2 ^ a.log2Denom) := by
  refine ⟨le_refl _, ?_⟩
  have : (a.lo : ℝ) ≤ a.hi := by exact_mod_cast h
  gcongr

theorem contains_upper {a : DFI} (h : a.Ordered) : a.Contains ((a.hi : ℝ) / 2 ^ a.log2Denom) := by
  refine ⟨?_, le_refl _⟩
  have : (a.lo : ℝ) ≤ a.hi := by exact_mod_cast h
  gcongr

theorem convertFloor_le (numer : Int) (old new : Nat) :
    ((convertLog2DenomFloor numer old new : Int) : ℝ) / 2 ^ new ≤ (numer : ℝ) / 2 ^ old := by
  unfold convertLog2DenomFloor
  rw [div_le_div_iff₀ (by positivity) (by positivity)]
  split
  · next h =>
    obtain ⟨k, rfl⟩ := Nat.exists_eq_add_of_le h
    rw [shl_cast, Nat.add_sub_cancel_left, pow_add]; nlinarith
  · next h =>
    obtain ⟨k, rfl⟩ := Nat.exists_eq_add_of_le (le_of_not_ge h)
    rw [Nat.add_sub_cancel_left, pow_add]
    have := shr_le numer k
    have hp : (0:ℝ) < 2 ^ new := by positivity
    nlinarith

theorem lt_convertFloor (numer : Int) (old new : Nat) :
    (numer : ℝ) / 2 ^ old < ((convertLog2DenomFloor numer old new : Int) + 1 : ℝ) / 2 ^ new := by
  unfold convertLog2DenomFloor
  rw [div_lt_div_iff₀ (by positivity) (by positivity)]
  split
  · next h =>
    obtain ⟨k, rfl⟩ := Nat.exists_eq_add_of_le h
    rw [shl_cast, Nat.add_sub_cancel_left, pow_add]
    have hp : (0:ℝ) < 2 ^ old := by positivity
    nlinarith
  · next h =>
    obtain ⟨k, rfl⟩ := Nat.exists_eq_add_of_le (le_of_not_ge h)
    rw [Nat.add_sub_cancel_left, pow_add]
    have := lt_shr numer k
    have hp : (0:ℝ) < 2 ^ new := by positivity
    nlinarith

theorem convertCeil_eq (numer : Int) (old new : Nat) :
    convertLog2DenomCeil numer old new = -convertLog2DenomFloor (-numer) old new := by
  unfold convertLog2DenomCeil convertLog2DenomFloor
  split <;> simp [shl]

theorem le_convertCeil (numer : Int) (old new : Nat) :
    (numer : ℝ) / 2 ^ old ≤ ((convertLog2DenomCeil numer old new : Int) : ℝ) / 2 ^ new := by
  have := convertFloor_le (-numer) old new
  rw [convertCeil_eq]; push_cast at this ⊢
  rw [neg_div] at this ⊢; linarith

theorem convertCeil_lt (numer : Int) (old new : Nat) :
    ((convertLog2DenomCeil numer old new : Int) - 1 : ℝ) / 2 ^ new < (numer : ℝ) / 2 ^ old := by
  have := lt_convertFloor (-numer) old new
  rw [convertCeil_eq]; push_cast at this ⊢
  rw [neg_div] at this
  have e : (-(convertLog2DenomFloor (-numer) old new : ℝ) - 1) / 2 ^ new =
    - (((convertLog2DenomFloor (-numer) old new : ℝ) + 1) / 2 ^ new) := by ring
  rw [e]; linarith

theorem contains_convert {a : DFI} {x : ℝ} (h : a.Contains x) (n : Nat) :
    (a.convertLog2Denom n).Contains x :=
  ⟨(convertFloor_le _ _ _).trans h.1, h.2.trans (le_convertCeil _ _ _)⟩

/-- soundness of an operation on common-denominator numerators gives soundness of `doOp`. -/
theorem contains_doOp {a b : DFI} {x y z : ℝ} {op : Int → Int → Int → Int → Nat → Int × Int}
    (ha : a.Contains x) (hb : b.Contains y)
    (hop : ∀ (ll lh rl rh : Int) (n : Nat), (⟨ll, lh, n⟩ : DFI).Contains x →
      (⟨rl, rh, n⟩ : DFI).Contains y →
      (⟨(op ll lh rl rh n).1, (op ll lh rl rh n).2, n⟩ : DFI).Contains z) :
    (doOp a b op).Contains z := by
  have key : ∀ (c : DFI) (w : ℝ) (k : Nat), c.Contains w →
      (⟨shl c.lo k, shl c.hi k, c.log2Denom + k⟩ : DFI).Contains w := by
    intro c w k hc
    rw [contains_iff] at hc ⊢
    simp only [shl_cast, pow_add]
    have hp : (0:ℝ) < 2 ^ k := by positivity
    constructor <;> nlinarith [hc.1, hc.2]
  unfold doOp
  split
  · next h =>
    have := key a x (b.log2Denom - a.log2Denom) ha
    rw [Nat.add_sub_cancel' h] at this
    exact hop _ _ _ _ _ this hb
  · next h =>
    have := key b y (a.log2Denom - b.log2Denom) hb
    rw [Nat.add_sub_cancel' (le_of_not_ge h)] at this
    exact hop _ _ _ _ _ ha this

theorem doOp_log2Denom (a b : DFI) (op) :
    (doOp a b op).log2Denom = max a.log2Denom b.log2Denom := by
  unfold doOp; split <;> simp <;> omega

theorem contains_add {a b : DFI} {x y : ℝ} (ha : a.Contains x) (hb : b.Contains y) :
    (a.add b).Contains (x + y) := by
  refine contains_doOp ha hb ?_
  intro ll lh rl rh n h1 h2
  rw [contains_iff] at h1 h2 ⊢
  push_cast
  simp only at h1 h2 ⊢
  constructor <;> rw [add_mul] <;> linarith [h1.1, h1.2, h2.1, h2.2]

theorem contains_sub {a b : DFI} {x y : ℝ} (ha : a.Contains x) (hb : b.Contains y) :
    (a.sub b).Contains (x - y) := by
  refine contains_doOp ha hb ?_
  intro ll lh rl rh n h1 h2
  rw [contains_iff] at h1 h2 ⊢
  push_cast
  simp only at h1 h2 ⊢
  constructor <;> rw [sub_mul] <;> linarith [h1.1, h1.2, h2.1, h2.2]

theorem contains_neg {a : DFI} {x : ℝ} (ha : a.Contains x) : a.neg.Contains (-x) := by
  rw [contains_iff] at ha ⊢
  simp only [neg]
  push_cast
  constructor <;> linarith [ha.1, ha.2]

theorem contains_mulInt {a : DFI} {x : ℝ} (ha : a.Contains x) (k : Int) :
    (a.mulInt k).Contains (x * k) := by
  rw [contains_iff] at ha ⊢
  unfold mulInt
  have e : x * k * 2 ^ a.log2Denom = (x * 2 ^ a.log2Denom) * k := by ring
  split
  next l h hlh =>
  simp only
  rw [e]; push_cast
  split_ifs at hlh with hk <;> simp only [Prod.mk.injEq] at hlh <;> obtain ⟨rfl, rfl⟩ := hlh
  · have hk' : (k : ℝ) ≤ 0 := by exact_mod_cast hk.le
    exact ⟨mul_le_mul_of_nonpos_right ha.2 hk', mul_le_mul_of_nonpos_right ha.1 hk'⟩
  · have hk' : (0 : ℝ) ≤ k := by exact_mod_cast not_lt.mp hk
    exact ⟨mul_le_mul_of_nonneg_right ha.1 hk', mul_le_mul_of_nonneg_right ha.2 hk'⟩

theorem contains_mulRatio {a : DFI} {x : ℝ} (ha : a.Contains x) (q : Rat) :
    (a.mulRatio q).Contains (x * q) := by
  rw [contains_iff] at ha ⊢
  unfold mulRatio
  have e : x * q * 2 ^ a.log2Denom = q * (x * 2 ^ a.log2Denom) := by ring
  have hf : ∀ r : Rat, ((⌊r⌋ : Int) : ℝ) ≤ r := fun r => by exact_mod_cast Int.floor_le r
  have hc : ∀ r : Rat, (r : ℝ) ≤ (⌈r⌉ : Int) := fun r => by exact_mod_cast Int.le_ceil r
  split
  next l h hlh =>
  simp only
  rw [e]
  refine ⟨(hf _).trans ?_, le_trans ?_ (hc _)⟩ <;> push_cast <;>
  split_ifs at hlh with hk <;> simp only [Prod.mk.injEq] at hlh <;> obtain ⟨rfl, rfl⟩ := hlh
  · exact mul_le_mul_of_nonpos_left ha.2 (by exact_mod_cast hk.le)
  · exact mul_le_mul_of_nonneg_left ha.1 (by exact_mod_cast not_lt.mp hk)
  · exact mul_le_mul_of_nonpos_left ha.1 (by exact_mod_cast hk.le)
  · exact mul_le_mul_of_nonneg_left ha.2 (by exact_mod_cast not_lt.mp hk)

theorem pickBest_min (best : Int) (l : List Int) :
    let r := pickBest (fun b best => b < best) best l
    (r.1 ≤ best ∧ ∀ b ∈ l, r.1 ≤ b) ∧ (r.1 :: r.2).Perm (best :: l) := by
  induction l generalizing best with
  | nil => simp [pickBest]
  | cons b bs ih =>
    simp only [pickBest]
    by_cases hb : b < best
    · have := ih b
      simp only [hb, decide_true, if_true] at this ⊢
      refine ⟨⟨this.1.1.trans hb.le, ?_⟩, ?_⟩
      · intro c hc
        rcases List.mem_cons.mp hc with rfl | hc
        · exact this.1.1
        · exact this.1.2 c hc
      · exact (List.Perm.swap _ _ _).trans (List.Perm.cons _ this.2)
    · have := ih best
      simp only [hb, decide_false, Bool.false_eq_true, if_false] at this ⊢
      refine ⟨⟨this.1.1, ?_⟩, ?_⟩
      · intro c hc
        rcases List.mem_cons.mp hc with rfl | hc
        · exact this.1.1.trans (not_lt.mp hb)
        · exact this.1.2 c hc
      · exact ((List.Perm.swap _ _ _).trans (List.Perm.cons _ this.2)).trans (List.Perm.swap _ _ _)

theorem pickBest_max (best : Int) (l : List Int) :
    let r := pickBest (fun b best => b > best) best l
    (best ≤ r.1 ∧ ∀ b ∈ l, b ≤ r.1) ∧ (r.1 :: r.2).Perm (best :: l) := by
  induction l generalizing best with
  | nil => simp [pickBest]
  | cons b bs ih =>
    simp only [pickBest]
    by_cases hb : b > best
    · have := ih b
      simp only [hb, decide_true, if_true] at this ⊢
      refine ⟨⟨hb.le.trans this.1.1, ?_⟩, ?_⟩
      · intro c hc
        rcases List.mem_cons.mp hc with rfl | hc
        · exact this.1.1
        · exact this.1.2 c hc
      · exact (List.Perm.swap _ _ _).trans (List.Perm.cons _ this.2)
    · have := ih best
      simp only [hb, decide_false, Bool.false_eq_true, if_false] at this ⊢
      refine ⟨⟨this.1.1, ?_⟩, ?_⟩
      · intro c hc
        rcases List.mem_cons.mp hc with rfl | hc
        · exact (not_lt.mp hb).trans this.1.1
        · exact this.1.2 c hc
      · exact ((List.Perm.swap _ _ _).trans (List.Perm.cons _ this.2)).trans (List.Perm.swap _ _ _)

/-- `mulOp` rounds the minimum and the maximum of the four products outwards. -/
theorem mulOp_bounds (ll lh rl rh : Int) (n : Nat) :
    ∃ mn mx : Int, (mulOp ll lh rl rh n).1 = shr mn n ∧ (mulOp ll lh rl rh n).2 = -shr (-mx) n ∧
      (mn ≤ ll * rl ∧ mn ≤ ll * rh ∧ mn ≤ lh * rl ∧ mn ≤ lh * rh) ∧
      (ll * rl ≤ mx ∧ ll * rh ≤ mx ∧ lh * rl ≤ mx ∧ lh * rh ≤ mx) ∧
      mn ∈ [ll * rl, ll * rh, lh * rl, lh * rh] ∧ mx ∈ [ll * rl, ll * rh, lh * rl, lh * rh] := by
  obtain ⟨⟨h1, h2⟩, h3⟩ := pickBest_min (ll * rl) [ll * rh, lh * rl, lh * rh]
  unfold mulOp
  simp only at h1 h2 h3 ⊢
  set r := pickBest (fun b best => decide (b < best)) (ll * rl) [ll * rh, lh * rl, lh * rh] with hr
  have hlen := h3.length_eq
  have hall : ∀ c ∈ [ll * rl, ll * rh, lh * rl, lh * rh], c = r.1 ∨ c ∈ r.2 := by
    intro c hc; have := (h3.mem_iff (a := c)).mpr hc; simpa using this
  have hmn : r.1 ∈ [ll * rl, ll * rh, lh * rl, lh * rh] := h3.mem_iff.mp (by simp)
  rcases hr2 : r.2 with _ | ⟨b, bs⟩
  · rw [hr2] at hlen; simp at hlen
  · obtain ⟨⟨g1, g2⟩, g3⟩ := pickBest_max b bs
    simp only at g1 g2 g3 ⊢
    set s := pickBest (fun b best => decide (b > best)) b bs with hs
    have hle : ∀ c ∈ [ll * rl, ll * rh, lh * rl, lh * rh], r.1 ≤ c := by
      intro c hc
      rcases List.mem_cons.mp hc with rfl | hc
      · exact h1
      · exact h2 c hc
    have hb : b ∈ [ll * rl, ll * rh, lh * rl, lh * rh] := h3.mem_iff.mp (by simp [hr2])
    have hge : ∀ c ∈ [ll * rl, ll * rh, lh * rl, lh * rh], c ≤ s.1 := by
      intro c hc
      rcases hall c hc with rfl | hc
      · exact (hle b hb).trans g1
      · rw [hr2] at hc
        rcases List.mem_cons.mp hc with rfl | hc
        · exact g1
        · exact g2 c hc
    have hmx : s.1 ∈ [ll * rl, ll * rh, lh * rl, lh * rh] := by
      have : s.1 ∈ b :: bs := g3.mem_iff.mp (by simp)
      apply h3.mem_iff.mp; rw [hr2]; exact List.mem_cons_of_mem _ this
    refine ⟨r.1, s.1, rfl, rfl, ⟨hle _ (by simp), hle _ (by simp), hle _ (by simp), hle _ (by simp)⟩,
      ⟨hge _ (by simp), hge _ (by simp), hge _ (by simp), hge _ (by simp)⟩, hmn, hmx⟩

/-- product of two reals between corner products. -/
theorem mul_corner {a b c d x y m : ℝ} (h1 : a ≤ x) (h2 : x ≤ b) (h3 : c ≤ y) (h4 : y ≤ d)
    (g1 : m ≤ a * c) (g2 : m ≤ a * d) (g3 : m ≤ b * c) (g4 : m ≤ b * d) : m ≤ x * y := by
  rcases le_total 0 y with hy | hy
  · have e1 : a * y ≤ x * y := mul_le_mul_of_nonneg_right h1 hy
    rcases le_total 0 a with ha | ha
    · exact (g1.trans (mul_le_mul_of_nonneg_left h3 ha)).trans e1
    · exact (g2.trans (mul_le_mul_of_nonpos_left h4 ha)).trans e1
  · have e1 : b * y ≤ x * y := mul_le_mul_of_nonpos_right h2 hy
    rcases le_total 0 b with hb | hb
    · exact (g3.trans (mul_le_mul_of_nonneg_left h3 hb)).trans e1
    · exact (g4.trans (mul_le_mul_of_nonpos_left h4 hb)).trans e1

theorem contains_mul {a b : DFI} {x y : ℝ} (ha : a.Contains x) (hb : b.Contains y) :
    (a.mul b).Contains (x * y) := by
  refine contains_doOp ha hb ?_
  intro ll lh rl rh n h1 h2
  obtain ⟨mn, mx, e1, e2, ⟨p1, p2, p3, p4⟩, ⟨q1, q2, q3, q4⟩, -⟩ := mulOp_bounds ll lh rl rh n
  rw [contains_iff] at h1 h2 ⊢
  simp only at h1 h2 ⊢
  rw [e1, e2]
  have hp : (0:ℝ) < 2 ^ n := by positivity
  have hmn : (mn : ℝ) ≤ (x * 2 ^ n) * (y * 2 ^ n) :=
    mul_corner h1.1 h1.2 h2.1 h2.2 (by exact_mod_cast p1) (by exact_mod_cast p2)
      (by exact_mod_cast p3) (by exact_mod_cast p4)
  have hmx : (-mx : ℝ) ≤ -(x * 2 ^ n) * (y * 2 ^ n) := by
    have g1 : (ll:ℝ) * rl ≤ mx := by exact_mod_cast q1
    have g2 : (ll:ℝ) * rh ≤ mx := by exact_mod_cast q2
    have g3 : (lh:ℝ) * rl ≤ mx := by exact_mod_cast q3
    have g4 : (lh:ℝ) * rh ≤ mx := by exact_mod_cast q4
    refine mul_corner (a := -lh) (b := -ll) (c := rl) (d := rh) (by linarith [h1.2])
      (by linarith [h1.1]) h2.1 h2.2 ?_ ?_ ?_ ?_ <;> linarith
  have s1 := shr_le mn n
  have s2 := le_neg_shr_neg mx n
  constructor
  · rw [← mul_le_mul_iff_left₀ hp]; linarith
  · rw [← mul_le_mul_iff_left₀ hp]; linarith

theorem containsZero_iff (a : DFI) : a.containsZero = true ↔ a.Contains 0 := by
  rw [contains_iff]
  simp [containsZero]

theorem containsZero_false {a : DFI} (h : a.containsZero = false) (ho : a.Ordered) :
    (0 < a.lo ∧ 0 < a.hi) ∨ (a.lo < 0 ∧ a.hi < 0) := by
  unfold Ordered at ho
  simp only [containsZero, Bool.and_eq_false_iff, Bool.not_eq_false', decide_eq_true_eq] at h
  omega

theorem fdiv_le_real (d b : Int) (hb : b ≠ 0) : ((d.fdiv b : Int) : ℝ) ≤ (d : ℝ) / b := by
  rcases lt_or_gt_of_ne hb with h | h
  · have h' : (b : ℝ) < 0 := by exact_mod_cast h
    rw [le_div_iff_of_neg h']
    have e := Int.fmod_add_fdiv_mul d b
    have : d.fmod b ≤ 0 := by
      have e2 := Int.neg_fmod_neg d b
      have := Int.fmod_nonneg_of_pos (-d) (b := -b) (by omega); omega
    have : d ≤ d.fdiv b * b := by linarith
    exact_mod_cast this
  · have h' : (0 : ℝ) < b := by exact_mod_cast h
    rw [le_div_iff₀ h']
    have e := Int.fmod_add_fdiv_mul d b
    have := Int.fmod_nonneg_of_pos d h
    have : d.fdiv b * b ≤ d := by linarith
    exact_mod_cast this

theorem lt_fdiv_real (d b : Int) (hb : b ≠ 0) : (d : ℝ) / b < (d.fdiv b : Int) + 1 := by
  rcases lt_or_gt_of_ne hb with h | h
  · have h' : (b : ℝ) < 0 := by exact_mod_cast h
    rw [div_lt_iff_of_neg h']
    have e := Int.fmod_add_fdiv_mul d b
    have : b < d.fmod b := by
      have e2 := Int.neg_fmod_neg d b
      have := Int.fmod_lt_of_pos (-d) (b := -b) (by omega); omega
    have : (d.fdiv b + 1) * b < d := by linarith
    exact_mod_cast this
  · have h' : (0 : ℝ) < b := by exact_mod_cast h
    rw [div_lt_iff₀ h']
    have e := Int.fmod_add_fdiv_mul d b
    have := Int.fmod_lt_of_pos d h
    have : d < (d.fdiv b + 1) * b := by linarith
    exact_mod_cast this

theorem le_divCeil_real (d b : Int) (hb : b ≠ 0) : (d : ℝ) / b ≤ (divCeil d b : Int) := by
  have := fdiv_le_real (-d) b hb
  unfold divCeil; push_cast at this ⊢
  rw [neg_div] at this; linarith

theorem divCeil_lt_real (d b : Int) (hb : b ≠ 0) : ((divCeil d b : Int) : ℝ) < (d : ℝ) / b + 1 := by
  have := lt_fdiv_real (-d) b hb
  unfold divCeil; push_cast at this ⊢
  rw [neg_div] at this; linarith

theorem checkedRecip_eq_none_iff (a : DFI) : a.checkedRecip = none ↔ a.Contains 0 := by
  rw [← containsZero_iff]; unfold checkedRecip; split <;> simp_all

theorem contains_recip {a r : DFI} {x : ℝ} (ha : a.Contains x) (hr : a.checkedRecip = some r) :
    r.Contains x⁻¹ := by
  unfold checkedRecip at hr
  split at hr
  · simp at hr
  next hz =>
  simp only [Option.some.injEq] at hr
  subst hr
  have hz' : a.containsZero = false := by simpa using hz
  have hs := containsZero_false hz' ha.ordered
  have hx0 : x ≠ 0 := by rintro rfl; exact hz ((containsZero_iff a).mpr ha)
  have hlo0 : a.lo ≠ 0 := by omega
  have hhi0 : a.hi ≠ 0 := by omega
  rw [contains_iff] at ha ⊢
  simp only
  have h1 := fdiv_le_real (shl 1 (2 * a.log2Denom)) a.hi hhi0
  have h2 := le_divCeil_real (shl 1 (2 * a.log2Denom)) a.lo hlo0
  set P : ℝ := 2 ^ a.log2Denom with hP
  have hPpos : 0 < P := by positivity
  have hsh : ((shl 1 (2 * a.log2Denom) : Int) : ℝ) = P * P := by
    rw [shl_cast, hP]; push_cast; ring
  rw [hsh] at h1 h2
  have e : x⁻¹ * P = P * P / (x * P) := by field_simp
  have hlo0' : (a.lo : ℝ) ≠ 0 := by exact_mod_cast hlo0
  have hhi0' : (a.hi : ℝ) ≠ 0 := by exact_mod_cast hhi0
  rw [e]
  rcases hs with ⟨hl, hh⟩ | ⟨hl, hh⟩
  · have hl' : (0:ℝ) < a.lo := by exact_mod_cast hl
    have hh' : (0:ℝ) < a.hi := by exact_mod_cast hh
    have hxP : 0 < x * P := lt_of_lt_of_le hl' ha.1
    refine ⟨h1.trans ?_, le_trans ?_ h2⟩
    · exact div_le_div_of_nonneg_left (by positivity) hxP ha.2
    · exact div_le_div_of_nonneg_left (by positivity) hl' ha.1
  · have hl' : (a.lo : ℝ) < 0 := by exact_mod_cast hl
    have hh' : (a.hi : ℝ) < 0 := by exact_mod_cast hh
    have hxP : x * P < 0 := lt_of_le_of_lt ha.2 hh'
    refine ⟨h1.trans ?_, le_trans ?_ h2⟩
    · rw [div_eq_mul_inv, div_eq_mul_inv]
      exact mul_le_mul_of_nonneg_left ((inv_le_inv_of_neg hh' hxP).mpr ha.2) (by positivity)
    · rw [div_eq_mul_inv, div_eq_mul_inv]
      exact mul_le_mul_of_nonneg_left ((inv_le_inv_of_neg hxP hl').mpr ha.1) (by positivity)

theorem contains_div {a b r : DFI} {x y : ℝ} (ha : a.Contains x) (hb : b.Contains y)
    (hr : a.checkedDiv b = some r) : r.Contains (x / y) := by
  unfold checkedDiv at hr
  rw [Option.map_eq_some_iff] at hr
  obtain ⟨s, hs, rfl⟩ := hr
  rw [div_eq_mul_inv]
  exact contains_mul ha (contains_recip hb hs)

theorem abs_normal_form (l h : Int) (ho : l ≤ h) :
    let min0 := if l < 0 then -l else l
    let max0 := if h < 0 then -h else h
    let p := if min0 > max0 then (max0, min0) else (min0, max0)
    0 ≤ p.1 ∧ p.1 ≤ p.2 ∧ (0 < l → p.1 = l ∧ p.2 = h) ∧ (h < 0 → p.1 = -h ∧ p.2 = -l) ∧
      -p.2 ≤ l ∧ h ≤ p.2 ∧ (p.2 = -l ∨ p.2 = h) := by
  intro min0 max0 p
  simp only [p, min0, max0]
  split_ifs <;> simp <;> omega

theorem abs_eq (a : DFI) : a.abs =
    ⟨if a.containsZero then 0 else
      (if (if a.lo < 0 then -a.lo else a.lo) > (if a.hi < 0 then -a.hi else a.hi) then
        ((if a.hi < 0 then -a.hi else a.hi), (if a.lo < 0 then -a.lo else a.lo)) else
        ((if a.lo < 0 then -a.lo else a.lo), (if a.hi < 0 then -a.hi else a.hi))).1,
     (if (if a.lo < 0 then -a.lo else a.lo) > (if a.hi < 0 then -a.hi else a.hi) then
        ((if a.hi < 0 then -a.hi else a.hi), (if a.lo < 0 then -a.lo else a.lo)) else
        ((if a.lo < 0 then -a.lo else a.lo), (if a.hi < 0 then -a.hi else a.hi))).2,
     a.log2Denom⟩ := rfl

/-- the ends of `abs`: lower end 0 or the smaller magnitude, upper end the larger magnitude. -/
theorem abs_spec (a : DFI) (ho : a.Ordered) :
    a.abs.log2Denom = a.log2Denom ∧ 0 ≤ a.abs.lo ∧ a.abs.lo ≤ a.abs.hi ∧
    (a.abs.lo = 0 ∧ a.lo ≤ 0 ∧ 0 ≤ a.hi ∨ a.abs.lo = a.lo ∧ 0 < a.lo ∨ a.abs.lo = -a.hi ∧ a.hi < 0) ∧
    a.abs.hi = max (-a.lo) a.hi := by
  rw [abs_eq]
  have hcz : a.containsZero = true ↔ a.lo ≤ 0 ∧ 0 ≤ a.hi := by simp [containsZero]
  have hN := abs_normal_form a.lo a.hi ho
  simp only at hN ⊢
  generalize (if (if a.lo < 0 then -a.lo else a.lo) > (if a.hi < 0 then -a.hi else a.hi) then
        ((if a.hi < 0 then -a.hi else a.hi), (if a.lo < 0 then -a.lo else a.lo)) else
        ((if a.lo < 0 then -a.lo else a.lo), (if a.hi < 0 then -a.hi else a.hi))) = p at hN ⊢
  obtain ⟨h1, h2, h3, h4, h5, h6, h7⟩ := hN
  unfold Ordered at ho
  refine ⟨trivial, ?_, ?_, ?_, ?_⟩
  · split <;> omega
  · split <;> omega
  · by_cases hz : a.containsZero = true
    · exact Or.inl ⟨by simp [hz], hcz.mp hz⟩
    · have : ¬ (a.lo ≤ 0 ∧ 0 ≤ a.hi) := fun h => hz (hcz.mpr h)
      simp only [hz]; simp only [Bool.false_eq_true, if_false]; omega
  · omega

theorem contains_abs {a : DFI} {x : ℝ} (ha : a.Contains x) : a.abs.Contains |x| := by
  obtain ⟨h1, h2, h3, h4, h5⟩ := abs_spec a ha.ordered
  rw [contains_iff] at ha ⊢
  rw [h1]
  have hp : (0:ℝ) < 2 ^ a.log2Denom := by positivity
  have e : |x| * 2 ^ a.log2Denom = |x * 2 ^ a.log2Denom| := by rw [abs_mul, abs_of_pos hp]
  rw [e]
  constructor
  · rcases h4 with h | h | h
    · rw [h.1]; simp
    · rw [h.1]; exact ha.1.trans (le_abs_self _)
    · rw [h.1]; push_cast; exact (neg_le_neg ha.2).trans (neg_le_abs _)
  · rw [h5, abs_le]; push_cast
    constructor
    · have := le_max_left (-(a.lo:ℝ)) a.hi; linarith [ha.1]
    · exact ha.2.trans (le_max_right _ _)

theorem square_eq (a : DFI) : a.square =
    ⟨shr (a.abs.lo * a.abs.lo) a.log2Denom, -shr (-(a.abs.hi * a.abs.hi)) a.log2Denom,
      a.log2Denom⟩ := by
  rw [abs_eq]
  have e : a.square = ⟨if a.containsZero then 0 else shr (
      (if (if a.lo < 0 then -a.lo else a.lo) > (if a.hi < 0 then -a.hi else a.hi) then
        ((if a.hi < 0 then -a.hi else a.hi), (if a.lo < 0 then -a.lo else a.lo)) else
        ((if a.lo < 0 then -a.lo else a.lo), (if a.hi < 0 then -a.hi else a.hi))).1 *
      (if (if a.lo < 0 then -a.lo else a.lo) > (if a.hi < 0 then -a.hi else a.hi) then
        ((if a.hi < 0 then -a.hi else a.hi), (if a.lo < 0 then -a.lo else a.lo)) else
        ((if a.lo < 0 then -a.lo else a.lo), (if a.hi < 0 then -a.hi else a.hi))).1) a.log2Denom,
      -shr (-((if (if a.lo < 0 then -a.lo else a.lo) > (if a.hi < 0 then -a.hi else a.hi) then
        ((if a.hi < 0 then -a.hi else a.hi), (if a.lo < 0 then -a.lo else a.lo)) else
        ((if a.lo < 0 then -a.lo else a.lo), (if a.hi < 0 then -a.hi else a.hi))).2 *
      (if (if a.lo < 0 then -a.lo else a.lo) > (if a.hi < 0 then -a.hi else a.hi) then
        ((if a.hi < 0 then -a.hi else a.hi), (if a.lo < 0 then -a.lo else a.lo)) else
        ((if a.lo < 0 then -a.lo else a.lo), (if a.hi < 0 then -a.hi else a.hi))).2)) a.log2Denom,
      a.log2Denom⟩ := rfl
  rw [e]
  generalize (if (if a.lo < 0 then -a.lo else a.lo) > (if a.hi < 0 then -a.hi else a.hi) then
        ((if a.hi < 0 then -a.hi else a.hi), (if a.lo < 0 then -a.lo else a.lo)) else
        ((if a.lo < 0 then -a.lo else a.lo), (if a.hi < 0 then -a.hi else a.hi))) = p
  cases a.containsZero <;> simp [shr]

theorem contains_square {a : DFI} {x : ℝ} (ha : a.Contains x) : a.square.Contains (x * x) := by
  have hb := contains_abs ha
  obtain ⟨h1, h2, h3, -, -⟩ := abs_spec a ha.ordered
  rw [square_eq]
  rw [contains_iff] at hb ⊢
  simp only [h1] at hb ⊢
  have s1 := shr_le (a.abs.lo * a.abs.lo) a.log2Denom
  have s2 := le_neg_shr_neg (a.abs.hi * a.abs.hi) a.log2Denom
  have hp : (0:ℝ) < 2 ^ a.log2Denom := by positivity
  set P : ℝ := 2 ^ a.log2Denom
  have hl : (0:ℝ) ≤ a.abs.lo := by exact_mod_cast h2
  have e : x * x * P * P = (|x| * P) * (|x| * P) := by
    have := abs_mul_abs_self x; linear_combination (-P * P) * this
  have b1 := mul_self_le_mul_self hl hb.1
  have b2 := mul_self_le_mul_self (by positivity) hb.2
  push_cast at s1 s2 ⊢
  constructor
  · rw [← mul_le_mul_iff_left₀ hp]; linarith
  · rw [← mul_le_mul_iff_left₀ hp]; linarith

theorem square_lo_nonneg (a : DFI) : 0 ≤ a.square.lo := by
  rw [square_eq]
  exact Int.ediv_nonneg (mul_self_nonneg _) (by positivity)

theorem sqrt_eq_none_iff (a : DFI) (ho : a.Ordered) : a.sqrt = none ↔ a.lo < 0 := by
  have h1 : ∀ c : Int, shl c a.log2Denom < 0 ↔ c < 0 := fun c => by
    unfold shl; have : (0:Int) < 2 ^ a.log2Denom := by positivity
    constructor
    · intro h; by_contra hc; push Not at hc; nlinarith [mul_nonneg hc this.le]
    · intro h; exact mul_neg_of_neg_of_pos h this
  unfold Ordered at ho
  unfold sqrt bigIntSqrt
  simp only [h1]
  by_cases hl : a.lo < 0
  · simp [hl]
  · have hh : ¬ a.hi < 0 := by omega
    simp [hl, hh]

/-- the integer-square-root characterisation of the two ends of `sqrt`. -/
theorem sqrt_ends {a r : DFI} (hr : a.sqrt = some r) :
    r.log2Denom = a.log2Denom ∧ 0 ≤ r.lo ∧ 0 ≤ r.hi ∧ 0 ≤ a.lo ∧ 0 ≤ a.hi ∧
    r.lo * r.lo ≤ a.lo * 2 ^ a.log2Denom ∧ a.lo * 2 ^ a.log2Denom < (r.lo + 1) * (r.lo + 1) ∧
    a.hi * 2 ^ a.log2Denom ≤ r.hi * r.hi ∧ (0 < r.hi → (r.hi - 1) * (r.hi - 1) < a.hi * 2 ^ a.log2Denom) := by
  have h1 : ∀ c : Int, shl c a.log2Denom < 0 ↔ c < 0 := fun c => by
    unfold shl; have : (0:Int) < 2 ^ a.log2Denom := by positivity
    constructor
    · intro h; by_contra hc; push Not at hc; nlinarith [mul_nonneg hc this.le]
    · intro h; exact mul_neg_of_neg_of_pos h this
  have key : ∀ c : Int, 0 ≤ c →
      ((Nat.sqrt c.toNat : Int)) * (Nat.sqrt c.toNat : Int) ≤ c ∧
      c < ((Nat.sqrt c.toNat : Int) + 1) * ((Nat.sqrt c.toNat : Int) + 1) := by
    intro c hc
    obtain ⟨m, rfl⟩ := Int.eq_ofNat_of_zero_le hc
    have a1 := Nat.sqrt_le m
    simp only [Int.toNat_natCast]
    exact ⟨by exact_mod_cast a1, by exact_mod_cast Nat.lt_succ_sqrt m⟩
  unfold sqrt bigIntSqrt at hr
  simp only [h1] at hr
  by_cases hl : a.lo < 0
  · simp [hl] at hr
  by_cases hh : a.hi < 0
  · simp [hl, hh] at hr
  simp only [hl, hh, if_false, Option.bind_eq_bind, Option.bind_some, Option.pure_def,
    Option.some.injEq] at hr
  push Not at hl hh
  have l0 : 0 ≤ shl a.lo a.log2Denom := by unfold shl; positivity
  have r0 : 0 ≤ shl a.hi a.log2Denom := by unfold shl; positivity
  have kl := key _ l0
  have kr := key _ r0
  unfold shl at kl kr hr
  subst hr
  refine ⟨rfl, by simp, ?_, hl, hh, kl.1, kl.2, ?_, ?_⟩
  · simp only; split <;> positivity
  · simp only; split
    · next h => exact h.ge
    · exact kr.2.le
  · simp only; split
    · next h =>
      intro hp
      conv_rhs => rw [← h]
      nlinarith
    · next h => intro _; rw [add_sub_cancel_right]; exact lt_of_le_of_ne kr.1 h

theorem contains_sqrt {a r : DFI} {x : ℝ} (ha : a.Contains x) (hr : a.sqrt = some r) :
    r.Contains (Real.sqrt x) := by
  obtain ⟨e, l0, r0, al, ah, h1, -, h3, -⟩ := sqrt_ends hr
  rw [contains_iff] at ha ⊢
  rw [e]
  have hp : (0:ℝ) < 2 ^ a.log2Denom := by positivity
  have h1' : (r.lo : ℝ) * r.lo ≤ a.lo * 2 ^ a.log2Denom := by exact_mod_cast h1
  have h3' : (a.hi : ℝ) * 2 ^ a.log2Denom ≤ r.hi * r.hi := by exact_mod_cast h3
  have al' : (0:ℝ) ≤ a.lo := by exact_mod_cast al
  have r0' : (0:ℝ) ≤ r.hi := by exact_mod_cast r0
  set P : ℝ := 2 ^ a.log2Denom
  have hx : 0 ≤ x := by
    by_contra hx; push Not at hx
    nlinarith [ha.1]
  have e2 : Real.sqrt x * P = Real.sqrt (x * P * P) := by
    rw [mul_assoc, Real.sqrt_mul hx, Real.sqrt_mul_self hp.le]
  rw [e2]
  constructor
  · apply Real.le_sqrt_of_sq_le; nlinarith [ha.1]
  · rw [Real.sqrt_le_left r0']; nlinarith [ha.2]

theorem contains_union_left {a b : DFI} {x : ℝ} (ha : a.Contains x) (hb : b.Ordered) :
    (a.union b).Contains x := by
  refine contains_doOp ha (contains_lower hb) ?_
  intro ll lh rl rh n h1 h2
  rw [contains_iff] at h1 ⊢
  simp only at h1 ⊢
  constructor
  · refine le_trans ?_ h1.1; split
    · next h => exact_mod_cast h.le
    · rfl
  · refine h1.2.trans ?_; split
    · next h => exact_mod_cast h.le
    · rfl

theorem contains_union_right {a b : DFI} {x : ℝ} (ha : a.Ordered) (hb : b.Contains x) :
    (a.union b).Contains x := by
  refine contains_doOp (contains_lower ha) hb ?_
  intro ll lh rl rh n h1 h2
  rw [contains_iff] at h2 ⊢
  simp only at h2 ⊢
  constructor
  · refine le_trans ?_ h2.1; split
    · rfl
    · next h => exact_mod_cast not_lt.mp h
  · refine h2.2.trans ?_; split
    · rfl
    · next h => exact_mod_cast not_lt.mp h

/-- exact ends of the union, as reals. -/
theorem union_ends (a b : DFI) :
    ((a.union b).lo : ℝ) / 2 ^ (a.union b).log2Denom =
      min ((a.lo : ℝ) / 2 ^ a.log2Denom) ((b.lo : ℝ) / 2 ^ b.log2Denom) ∧
    ((a.union b).hi : ℝ) / 2 ^ (a.union b).log2Denom =
      max ((a.hi : ℝ) / 2 ^ a.log2Denom) ((b.hi : ℝ) / 2 ^ b.log2Denom) := by
  have hd : ∀ (u v : Int) (n : Nat), (((if u > v then v else u : Int)) : ℝ) / 2 ^ n =
      min ((u:ℝ) / 2 ^ n) ((v:ℝ) / 2 ^ n) := by
    intro u v n
    rw [min_div_div_right (by positivity)]
    split
    · next h => rw [min_eq_right]; exact_mod_cast h.le
    · next h => rw [min_eq_left]; exact_mod_cast not_lt.mp h
  have hd' : ∀ (u v : Int) (n : Nat), (((if u < v then v else u : Int)) : ℝ) / 2 ^ n =
      max ((u:ℝ) / 2 ^ n) ((v:ℝ) / 2 ^ n) := by
    intro u v n
    rw [max_div_div_right (by positivity)]
    split
    · next h => rw [max_eq_right]; exact_mod_cast h.le
    · next h => rw [max_eq_left]; exact_mod_cast not_lt.mp h
  have sh : ∀ (u : Int) (m k : Nat), m ≤ k → ((shl u (k - m) : Int) : ℝ) / 2 ^ k = (u:ℝ) / 2 ^ m := by
    intro u m k h
    obtain ⟨j, rfl⟩ := Nat.exists_eq_add_of_le h
    rw [shl_cast, Nat.add_sub_cancel_left, pow_add]; field_simp
  unfold union doOp
  split
  · next h => simp only; rw [hd, hd', sh _ _ _ h, sh _ _ _ h]; exact ⟨rfl, rfl⟩
  · next h =>
    have h := le_of_not_ge h
    simp only; rw [hd, hd', sh _ _ _ h, sh _ _ _ h]; exact ⟨rfl, rfl⟩

theorem shr_eq_floor (a : Int) (n : Nat) : shr a n = ⌊(a : ℝ) / 2 ^ n⌋ := by
  symm
  rw [Int.floor_eq_iff, le_div_iff₀ (by positivity), div_lt_iff₀ (by positivity)]
  exact ⟨shr_le a n, lt_shr a n⟩

theorem neg_shr_neg_eq_ceil (a : Int) (n : Nat) : -shr (-a) n = ⌈(a : ℝ) / 2 ^ n⌉ := by
  rw [shr_eq_floor]; push_cast; rw [neg_div, Int.floor_neg, neg_neg]

theorem contains_floor {a : DFI} {x : ℝ} (ha : a.Contains x) (n : Nat) :
    (a.floor n).Contains ⌊x⌋ := by
  unfold floor
  apply contains_convert
  refine ⟨?_, ?_⟩ <;> simp only [pow_zero, div_one, shr_eq_floor, Int.cast_le]
  · exact Int.floor_mono ha.1
  · exact Int.floor_mono ha.2

theorem contains_ceil {a : DFI} {x : ℝ} (ha : a.Contains x) (n : Nat) :
    (a.ceil n).Contains ⌈x⌉ := by
  unfold ceil
  apply contains_convert
  refine ⟨?_, ?_⟩ <;> simp only [pow_zero, div_one, neg_shr_neg_eq_ceil, Int.cast_le]
  · exact Int.ceil_mono ha.1
  · exact Int.ceil_mono ha.2

theorem contains_fromRatio (q : Rat) (n : Nat) : (fromRatio q n).Contains q := by
  rw [contains_iff]
  unfold fromRatio
  simp only
  have e : (((shl q.num n : Int) : Rat) / q.den) = q * 2 ^ n := by
    rw [shl]; push_cast; conv_rhs => rw [← Rat.num_div_den q]
    ring
  rw [e]
  constructor
  · have := Int.floor_le (q * 2 ^ n); exact_mod_cast this
  · have := Int.le_ceil (q * 2 ^ n); exact_mod_cast this

theorem contains_addInt {a : DFI} {x : ℝ} (ha : a.Contains x) (k : Int) :
    (a.addInt k).Contains (x + k) := by
  rw [contains_iff] at ha ⊢
  simp only [addInt]; push_cast; rw [shl_cast, add_mul]
  constructor <;> linarith [ha.1, ha.2]

theorem contains_subInt {a : DFI} {x : ℝ} (ha : a.Contains x) (k : Int) :
    (a.subInt k).Contains (x - k) := by
  rw [contains_iff] at ha ⊢
  simp only [subInt]; push_cast; rw [shl_cast, sub_mul]
  constructor <;> linarith [ha.1, ha.2]

/-- invariant of the square-and-multiply loop, on magnitudes. -/
theorem powLoop_spec (n : Nat) : ∀ (fuel e : Nat) (s : PowState) (b r : ℝ), e ≤ fuel → 1 ≤ e →
    0 ≤ b → 0 ≤ r → 0 ≤ s.baseLo → (s.baseLo : ℝ) ≤ b * 2 ^ n → b * 2 ^ n ≤ s.baseHi →
    0 ≤ s.retLo → (s.retLo : ℝ) ≤ r * 2 ^ n → r * 2 ^ n ≤ -(s.negRetHi : ℝ) →
    0 ≤ (powLoop n fuel e s).retLo ∧ ((powLoop n fuel e s).retLo : ℝ) ≤ r * b ^ e * 2 ^ n ∧
      r * b ^ e * 2 ^ n ≤ -((powLoop n fuel e s).negRetHi : ℝ) := by
  intro fuel
  induction fuel with
  | zero => intro e s b r h1 h2; omega
  | succ fuel ih =>
    intro e s b r h1 h2 hb hr bl0 bl bh rl0 rl rh
    have hp : (0:ℝ) < 2 ^ n := by positivity
    have bl0' : (0:ℝ) ≤ s.baseLo := by exact_mod_cast bl0
    have rl0' : (0:ℝ) ≤ s.retLo := by exact_mod_cast rl0
    have hbP : 0 ≤ b * 2 ^ n := by positivity
    have hrP : 0 ≤ r * 2 ^ n := by positivity
    -- the multiply step
    have step : ∃ s1 : PowState, ∃ r1 : ℝ,
        (if e % 2 = 1 then
          { s with retLo := shr (s.retLo * s.baseLo) n, negRetHi := shr (s.negRetHi * s.baseHi) n }
          else s) = s1 ∧ s1.baseLo = s.baseLo ∧ s1.baseHi = s.baseHi ∧ r1 = r * b ^ (e % 2) ∧ 0 ≤ r1 ∧
        0 ≤ s1.retLo ∧ (s1.retLo : ℝ) ≤ r1 * 2 ^ n ∧ r1 * 2 ^ n ≤ -(s1.negRetHi : ℝ) := by
      refine ⟨_, _, rfl, ?_, ?_, rfl, by positivity, ?_⟩
      · split <;> rfl
      · split <;> rfl
      · split
        · next h =>
          have s1 := shr_le (s.retLo * s.baseLo) n
          have s2 := shr_le (s.negRetHi * s.baseHi) n
          push_cast at s1 s2
          have m1 := mul_le_mul rl bl bl0' hrP
          have m2 := mul_le_mul rh bh hbP (hrP.trans rh)
          rw [h, pow_one]
          refine ⟨Int.ediv_nonneg (mul_nonneg rl0 bl0) (by positivity), ?_, ?_⟩
          · rw [← mul_le_mul_iff_left₀ hp]; simp only; nlinarith
          · rw [← mul_le_mul_iff_left₀ hp]; simp only; nlinarith
        · next h =>
          have h0 : e % 2 = 0 := by omega
          rw [h0, pow_zero, mul_one]; exact ⟨rl0, rl, rh⟩
    obtain ⟨s1, r1, hs1, q1, q2, q3, q4, q5, q6, q7⟩ := step
    unfold powLoop
    simp only [hs1]
    split
    · next h =>
      have he : e = 1 := by omega
      subst he
      simp only [Nat.reduceMod, pow_one] at q3
      rw [pow_one, ← q3]
      exact ⟨q5, q6, q7⟩
    · next h =>
      have s3 := shr_le (s.baseLo * s.baseLo) n
      have s4 := shr_le (-s.baseHi * s.baseHi) n
      push_cast at s3 s4
      have m1 := mul_self_le_mul_self bl0' bl
      have m2 := mul_self_le_mul_self hbP bh
      have := ih (e / 2)
        { s1 with baseLo := shr (s1.baseLo * s1.baseLo) n
                  baseHi := -shr (-s1.baseHi * s1.baseHi) n } (b * b) r1 (by omega) (by omega)
        (mul_self_nonneg b) q4 (by
          simp only [q1]; exact Int.ediv_nonneg (mul_self_nonneg _) (by positivity)) (by
          simp only [q1]; rw [← mul_le_mul_iff_left₀ hp]; nlinarith) (by
          simp only [q2]; rw [← mul_le_mul_iff_left₀ hp]; push_cast; nlinarith) q5 q6 q7
      have e1 : r1 * (b * b) ^ (e / 2) = r * b ^ e := by
        rw [q3, ← pow_two, ← pow_mul, mul_assoc, ← pow_add]
        congr 2; omega
      rw [e1] at this
      exact this

theorem powPos_odd_neg (a : DFI) (e : Nat) (h1 : a.lo < 0) (h2 : a.lo < a.hi) (h3 : a.hi ≤ 0)
    (h4 : e % 2 = 1) :
    a.powPos e =
      ⟨(powLoop a.log2Denom e e ⟨-a.hi, -a.lo, shl 1 a.log2Denom, -shl 1 a.log2Denom⟩).negRetHi,
        if a.hi < 0 then
          -(powLoop a.log2Denom e e ⟨-a.hi, -a.lo, shl 1 a.log2Denom, -shl 1 a.log2Denom⟩).retLo
        else (powLoop a.log2Denom e e ⟨-a.hi, -a.lo, shl 1 a.log2Denom, -shl 1 a.log2Denom⟩).retLo,
        a.log2Denom⟩ := by
  obtain ⟨lo, hi, n⟩ := a
  simp only at *
  have e1 : (e % 2 == 0) = false := by simp [h4]
  have e3 : -hi < -lo := by omega
  unfold powPos
  rcases lt_or_eq_of_le h3 with h5 | h5
  · simp only [h1, h5, e1, e3, decide_true, if_true, gt_iff_lt, Bool.not_false, Bool.and_true,
      Bool.false_and, Bool.false_eq_true, if_false, neg_neg]
  · subst h5
    have e4 : (0:Int) < -lo := by omega
    simp only [h1, e1, e4, lt_irrefl, decide_true, decide_false, if_true, gt_iff_lt, Bool.not_false,
      Bool.and_true, Bool.false_and, Bool.false_eq_true, if_false, neg_neg, neg_zero]

theorem contains_powPos {a : DFI} {x : ℝ} (ha : a.Contains x) {e : Nat} (he : 1 ≤ e)
    (hs : Even e ∨ 0 ≤ a.lo ∨ (a.hi ≤ 0 ∧ a.lo < a.hi)) : (a.powPos e).Contains (x ^ e) := by
  have ho : a.lo ≤ a.hi := ha.ordered
  rw [contains_iff] at ha ⊢
  have hp : (0:ℝ) < 2 ^ a.log2Denom := by positivity
  have hcz : a.containsZero = true ↔ a.lo ≤ 0 ∧ 0 ≤ a.hi := by simp [containsZero]
  -- the loop on magnitudes
  have loop : ∀ bl bh : Int, 0 ≤ bl → (bl : ℝ) ≤ |x| * 2 ^ a.log2Denom →
      |x| * 2 ^ a.log2Denom ≤ bh →
      0 ≤ (powLoop a.log2Denom e e ⟨bl, bh, shl 1 a.log2Denom, -shl 1 a.log2Denom⟩).retLo ∧
      ((powLoop a.log2Denom e e ⟨bl, bh, shl 1 a.log2Denom, -shl 1 a.log2Denom⟩).retLo : ℝ) ≤
        |x| ^ e * 2 ^ a.log2Denom ∧
      |x| ^ e * 2 ^ a.log2Denom ≤
        -((powLoop a.log2Denom e e ⟨bl, bh, shl 1 a.log2Denom, -shl 1 a.log2Denom⟩).negRetHi : ℝ) := by
    intro bl bh h1 h2 h3
    have := powLoop_spec a.log2Denom e e ⟨bl, bh, shl 1 a.log2Denom, -shl 1 a.log2Denom⟩ |x| 1
      le_rfl he (abs_nonneg _) zero_le_one h1 h2 h3 (by simp [shl]) (by simp [shl_cast])
      (by simp [shl_cast])
    rwa [one_mul] at this
  have exabs : |x| * 2 ^ a.log2Denom = |x * 2 ^ a.log2Denom| := by rw [abs_mul, abs_of_pos hp]
  rcases Nat.even_or_odd e with hev | hodd
  · -- even exponent
    have h2 : e % 2 = 0 := Nat.even_iff.mp hev
    have hxe : x ^ e = |x| ^ e := (hev.pow_abs x).symm
    rw [hxe]
    obtain ⟨g1, g2, g3, g4, g5, g6, g7⟩ := abs_normal_form a.lo a.hi ho
    have hpow : a.powPos e = ⟨(powLoop a.log2Denom e e ⟨if a.containsZero then 0 else
        (if (if a.lo < 0 then -a.lo else a.lo) > (if a.hi < 0 then -a.hi else a.hi) then
        ((if a.hi < 0 then -a.hi else a.hi), (if a.lo < 0 then -a.lo else a.lo)) else
        ((if a.lo < 0 then -a.lo else a.lo), (if a.hi < 0 then -a.hi else a.hi))).1,
        (if (if a.lo < 0 then -a.lo else a.lo) > (if a.hi < 0 then -a.hi else a.hi) then
        ((if a.hi < 0 then -a.hi else a.hi), (if a.lo < 0 then -a.lo else a.lo)) else
        ((if a.lo < 0 then -a.lo else a.lo), (if a.hi < 0 then -a.hi else a.hi))).2,
        shl 1 a.log2Denom, -shl 1 a.log2Denom⟩).retLo,
        -(powLoop a.log2Denom e e ⟨if a.containsZero then 0 else
        (if (if a.lo < 0 then -a.lo else a.lo) > (if a.hi < 0 then -a.hi else a.hi) then
        ((if a.hi < 0 then -a.hi else a.hi), (if a.lo < 0 then -a.lo else a.lo)) else
        ((if a.lo < 0 then -a.lo else a.lo), (if a.hi < 0 then -a.hi else a.hi))).1,
        (if (if a.lo < 0 then -a.lo else a.lo) > (if a.hi < 0 then -a.hi else a.hi) then
        ((if a.hi < 0 then -a.hi else a.hi), (if a.lo < 0 then -a.lo else a.lo)) else
        ((if a.lo < 0 then -a.lo else a.lo), (if a.hi < 0 then -a.hi else a.hi))).2,
        shl 1 a.log2Denom, -shl 1 a.log2Denom⟩).negRetHi, a.log2Denom⟩ := by
      unfold powPos
      simp [h2]
    rw [hpow]
    have hA : a.abs.Contains |x| := contains_abs ((contains_iff _ _).mpr ha)
    rw [contains_iff, abs_eq] at hA
    simp only at hA ⊢
    generalize (if (if a.lo < 0 then -a.lo else a.lo) > (if a.hi < 0 then -a.hi else a.hi) then
        ((if a.hi < 0 then -a.hi else a.hi), (if a.lo < 0 then -a.lo else a.lo)) else
        ((if a.lo < 0 then -a.lo else a.lo), (if a.hi < 0 then -a.hi else a.hi))) = p at *
    have := loop (if a.containsZero then 0 else p.1) p.2 (by split <;> omega) hA.1 hA.2
    refine ⟨this.2.1, ?_⟩
    push_cast; exact this.2.2
  · -- odd exponent, interval of one sign
    have h2 : e % 2 = 1 := Nat.odd_iff.mp hodd
    have hs' : 0 ≤ a.lo ∨ (a.hi ≤ 0 ∧ a.lo < a.hi) := by
      rcases hs with h | h
      · exact absurd h (Nat.not_even_iff_odd.mpr hodd)
      · exact h
    by_cases hl : 0 ≤ a.lo
    · have hl' : (0:ℝ) ≤ a.lo := by exact_mod_cast hl
      have hx : 0 ≤ x := by
        by_contra h; push Not at h; nlinarith [ha.1]
      have e1 : ¬ a.lo < 0 := by omega
      have e2 : ¬ a.hi < 0 := by omega
      have e3 : ¬ a.lo > a.hi := by omega
      have hpow : a.powPos e = ⟨(powLoop a.log2Denom e e ⟨a.lo, a.hi, shl 1 a.log2Denom,
          -shl 1 a.log2Denom⟩).retLo, -(powLoop a.log2Denom e e ⟨a.lo, a.hi, shl 1 a.log2Denom,
          -shl 1 a.log2Denom⟩).negRetHi, a.log2Denom⟩ := by
        unfold powPos
        simp only [e1, e2, e3, h2, if_false, decide_false, Bool.false_and, Bool.false_eq_true]
        simp
      rw [hpow]
      have := loop a.lo a.hi hl (by rw [abs_of_nonneg hx]; exact ha.1)
        (by rw [abs_of_nonneg hx]; exact ha.2)
      rw [abs_of_nonneg hx] at this
      simp only; push_cast; exact this.2
    · have hh : a.hi ≤ 0 := by omega
      have hh' : (a.hi:ℝ) ≤ 0 := by exact_mod_cast hh
      have hx : x ≤ 0 := by
        by_contra h; push Not at h; nlinarith [ha.2]
      have hxe : x ^ e = -|x| ^ e := by
        rw [abs_of_nonpos hx, hodd.neg_pow, neg_neg]
      have e1 : a.lo < 0 := by omega
      rw [hxe]
      -- the magnitudes are `-hi` and `-lo`
      have L := loop (-a.hi) (-a.lo) (by omega)
        (by rw [abs_of_nonpos hx]; push_cast; linarith [ha.2])
        (by rw [abs_of_nonpos hx]; push_cast; linarith [ha.1])
      set R := powLoop a.log2Denom e e ⟨-a.hi, -a.lo, shl 1 a.log2Denom, -shl 1 a.log2Denom⟩ with hR
      have hhi : (if a.hi < 0 then -a.hi else a.hi) = -a.hi := by split <;> omega
      have e3 : -a.lo > -a.hi := by omega
      have hpow : a.powPos e =
          (⟨R.negRetHi, if a.hi < 0 then -R.retLo else R.retLo, a.log2Denom⟩ : DFI) := by
        exact powPos_odd_neg a e e1 (by omega) hh h2
      rw [hpow]
      simp only
      refine ⟨by linarith [L.2.2], ?_⟩
      split
      · push_cast; linarith [L.2.1]
      · next h =>
        have h0 : a.hi = 0 := by omega
        have : x * 2 ^ a.log2Denom ≤ 0 := by simpa [h0] using ha.2
        have : (0:ℝ) ≤ R.retLo := by exact_mod_cast L.1
        have h3 : 0 ≤ |x| ^ e * 2 ^ a.log2Denom := by positivity
        linarith

end DFI
end Algebraics
